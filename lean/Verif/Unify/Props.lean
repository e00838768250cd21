import Verif.Unify.Model

/-!
# C32, C33: unifiers
-/

namespace Verif.Unify

/-! ## Specification -/

/-- The type `t` describes `s`: subclassing, any type for `Any`, `...` and omitted arguments, arguments of
aliases compared in the same direction, each member of a union on the right, some member of a union on the
left, and aliases seen through their bases. -/
inductive Desc (T : Table) : Ty → Ty → Prop
  | refl (t) : Desc T t t
  | anyL (s) : Desc T .any s
  | anyR (t) : Desc T t .any
  | ellL (s) : Desc T .ell s
  | ellR (t) : Desc T t .ell
  | cls {c d} : T.sub d c = true → Desc T (.con c) (.con d)
  | nil : Desc T (.seq []) (.seq [])
  | cons {t s ts ss} : Desc T t s → Desc T (.seq ts) (.seq ss) → Desc T (.seq (t :: ts)) (.seq (s :: ss))
  | unionR {t ss} : (∀ s ∈ ss, Desc T t s) → Desc T t (.union ss)
  | unionL {t s ts} : t ∈ ts → Desc T t s → Desc T (.union ts) s
  | args {c ts ss} : Desc T (.seq ts) (.seq ss) → Desc T (.gen c ts) (.gen c ss)
  | origin {c d ss} : Desc T (.con c) (.con d) → Desc T (.con c) (.gen d ss)
  | bare {c d ts} : T.sub d c = true → Desc T (.gen c ts) (.con d)
  | tuple {c ts ss} : T.sub T.tuple c = true →
      (∀ s ∈ ss, Desc T (.gen c ts) (canon T (.gen T.sequence [s]))) →
      Desc T (.gen c ts) (.gen T.tuple ss)
  | keys {c d a b ts ss} : T.sub d c = true → d = T.mapping ∨ d = T.generator → Desc T a b →
      Desc T (.gen c (a :: ts)) (.gen d (b :: ss))
  | base {c d e f b ts ss} : T.sub d c = true → (e, f) ∈ T.bases d → f ss = some b →
      Desc T (.gen c ts) (canon T b) → Desc T (.gen c ts) (.gen d ss)

/-- Without type variables. -/
def Ground (t : Ty) : Prop := fvs t = []

/-- All values are without type variables. -/
def GroundSubs (r : Subs) : Prop := ∀ v t, get r v = some t → Ground t

/-- `r` keeps the bindings of `q`. -/
def Keeps (q r : Subs) : Prop := ∀ v t, get q v = some t → get r v = some t

/-- Bases of ground types are ground. -/
def GroundTable (T : Table) : Prop :=
  ∀ d e f ss b, (e, f) ∈ T.bases d → fvsL ss = [] → f ss = some b → Ground b

/-- Canonical forms are canonical. -/
def IdemTable (T : Table) : Prop := ∀ c, T.cn (T.cn c) = T.cn c

/-- The type variable occurs in the type. -/
inductive Occurs (v : Nat) : Ty → Prop
  | var : Occurs v (.var v)
  | gen {c ts t} : t ∈ ts → Occurs v t → Occurs v (.gen c ts)
  | union {ts t} : t ∈ ts → Occurs v t → Occurs v (.union ts)
  | seq {ts t} : t ∈ ts → Occurs v t → Occurs v (.seq ts)

mutual
/-- **C32.** `freetypevars` gives the type variables that occur in a type. -/
theorem C32_free : ∀ (t : Ty) (v : Nat), v ∈ fvs t ↔ Occurs v t
  | .var w, v => by
    rw [fvs, List.mem_singleton]
    exact ⟨fun h => h ▸ .var, fun h => by cases h; rfl⟩
  | .gen c ts, v => by
    rw [fvs, mem_fvsL]
    exact ⟨fun ⟨_, h, h'⟩ => .gen h h', fun h => by cases h with | gen h h' => exact ⟨_, h, h'⟩⟩
  | .union ts, v => by
    rw [fvs, mem_fvsL]
    exact ⟨fun ⟨_, h, h'⟩ => .union h h', fun h => by cases h with | union h h' => exact ⟨_, h, h'⟩⟩
  | .seq ts, v => by
    rw [fvs, mem_fvsL]
    exact ⟨fun ⟨_, h, h'⟩ => .seq h h', fun h => by cases h with | seq h h' => exact ⟨_, h, h'⟩⟩
  | .con _, v => ⟨fun h => (by cases h), fun h => (by cases h)⟩
  | .any, v => ⟨fun h => (by cases h), fun h => (by cases h)⟩
  | .ell, v => ⟨fun h => (by cases h), fun h => (by cases h)⟩
theorem mem_fvsL : ∀ (ts : List Ty) (v : Nat), v ∈ fvsL ts ↔ ∃ t ∈ ts, Occurs v t
  | [], v => by simp [fvsL]
  | t :: ts, v => by simp [fvsL, C32_free t v, mem_fvsL ts v]
end

example : Occurs 1 (.gen 0 [.con 2, .union [.var 0, .var 1]]) :=
  .gen (t := .union [.var 0, .var 1]) (by simp) (.union (t := .var 1) (by simp) .var)

/-- A type is without type variables exactly if none occurs in it. -/
theorem ground_iff (t : Ty) : Ground t ↔ ∀ v, ¬ Occurs v t := by
  unfold Ground
  rw [List.eq_nil_iff_forall_not_mem]
  simp only [C32_free]

/-! ## Equality -/

mutual
theorem beq_eq : ∀ t s, Ty.beq t s = true → t = s
  | .var a, s, h => by cases s <;> simp_all [Ty.beq]
  | .con a, s, h => by cases s <;> simp_all [Ty.beq]
  | .any, s, h => by cases s <;> simp_all [Ty.beq]
  | .ell, s, h => by cases s <;> simp_all [Ty.beq]
  | .gen c ts, s, h => by
    cases s with
    | gen d us =>
      simp only [Ty.beq, Bool.and_eq_true, beq_iff_eq] at h
      rw [h.1, beqs_eq ts us h.2]
    | _ => simp [Ty.beq] at h
  | .union ts, s, h => by
    cases s with
    | union us => simp only [Ty.beq] at h; rw [beqs_eq ts us h]
    | _ => simp [Ty.beq] at h
  | .seq ts, s, h => by
    cases s with
    | seq us => simp only [Ty.beq] at h; rw [beqs_eq ts us h]
    | _ => simp [Ty.beq] at h
theorem beqs_eq : ∀ ts ss, Ty.beqs ts ss = true → ts = ss
  | [], ss, h => by cases ss <;> simp_all [Ty.beqs]
  | t :: ts, ss, h => by
    cases ss with
    | nil => simp [Ty.beqs] at h
    | cons s ss =>
      simp only [Ty.beqs, Bool.and_eq_true] at h
      rw [beq_eq t s h.1, beqs_eq ts ss h.2]
end

/-! ## Substitution and canonical forms -/

theorem insts_eq_map (r : Subs) (ts : List Ty) : insts r ts = ts.map (inst r) := by
  induction ts with
  | nil => rfl
  | cons t ts ih => simp [insts, ih]

theorem canons_eq_map (T : Table) (ts : List Ty) : canons T ts = ts.map (canon T) := by
  induction ts with
  | nil => rfl
  | cons t ts ih => simp [canons, ih]

theorem fvsL_eq_flatMap (ts : List Ty) : fvsL ts = ts.flatMap fvs := by
  induction ts with
  | nil => rfl
  | cons t ts ih => simp [fvsL, ih]

theorem mem_ground {ts : List Ty} (h : fvsL ts = []) {t : Ty} (ht : t ∈ ts) : Ground t := by
  rw [fvsL_eq_flatMap, List.flatMap_eq_nil_iff] at h
  exact h t ht

mutual
theorem inst_ground (r : Subs) : ∀ t, Ground t → inst r t = t
  | .var n, h => by simp [Ground, fvs] at h
  | .con c, _ => rfl
  | .any, _ => rfl
  | .ell, _ => rfl
  | .gen c ts, h => by simp only [Ground, fvs] at h; simp [inst, insts_ground r ts h]
  | .union ts, h => by simp only [Ground, fvs] at h; simp [inst, insts_ground r ts h]
  | .seq ts, h => by simp only [Ground, fvs] at h; simp [inst, insts_ground r ts h]
theorem insts_ground (r : Subs) : ∀ ts, fvsL ts = [] → insts r ts = ts
  | [], _ => rfl
  | t :: ts, h => by
    simp only [fvsL, List.append_eq_nil_iff] at h
    simp [insts, inst_ground r t h.1, insts_ground r ts h.2]
end

mutual
theorem fvs_canon (T : Table) : ∀ t, fvs (canon T t) = fvs t
  | .var n => rfl
  | .con c => rfl
  | .any => rfl
  | .ell => rfl
  | .gen c ts => by simp [canon, fvs, fvsL_canons T ts]
  | .union ts => by simp [canon, fvs, fvsL_canons T ts]
  | .seq ts => by simp [canon, fvs, fvsL_canons T ts]
theorem fvsL_canons (T : Table) : ∀ ts, fvsL (canons T ts) = fvsL ts
  | [] => rfl
  | t :: ts => by simp [canons, fvsL, fvs_canon T t, fvsL_canons T ts]
end

theorem ground_canon {T : Table} {t : Ty} (h : Ground t) : Ground (canon T t) := by
  unfold Ground; rw [fvs_canon]; exact h

mutual
theorem canon_idem {T : Table} (hT : IdemTable T) : ∀ t, canon T (canon T t) = canon T t
  | .var n => rfl
  | .con c => by simp [canon, hT c]
  | .any => rfl
  | .ell => rfl
  | .gen c ts => by simp [canon, hT c, canons_idem hT ts]
  | .union ts => by simp [canon, canons_idem hT ts]
  | .seq ts => by simp [canon, canons_idem hT ts]
theorem canons_idem {T : Table} (hT : IdemTable T) : ∀ ts, canons T (canons T ts) = canons T ts
  | [] => rfl
  | t :: ts => by simp [canons, canon_idem hT t, canons_idem hT ts]
end

/-- The canonical forms of the values. -/
def canonSubs (T : Table) (r : Subs) : Subs := r.map (fun p => (p.1, canon T p.2))

theorem get_canonSubs (T : Table) (r : Subs) (v : Nat) :
    get (canonSubs T r) v = (get r v).map (canon T) := by
  induction r with
  | nil => rfl
  | cons p r ih =>
    simp only [get, canonSubs, List.map_cons, List.lookup] at ih ⊢
    cases v == p.1 with
    | true => rfl
    | false => exact ih

mutual
theorem canon_inst (T : Table) (r : Subs) : ∀ t, canon T (inst r t) = inst (canonSubs T r) (canon T t)
  | .var n => by
    simp only [inst, canon, get_canonSubs]
    cases get r n <;> rfl
  | .con c => rfl
  | .any => rfl
  | .ell => rfl
  | .gen c ts => by simp [canon, inst, canons_insts T r ts]
  | .union ts => by simp [canon, inst, canons_insts T r ts]
  | .seq ts => by simp [canon, inst, canons_insts T r ts]
theorem canons_insts (T : Table) (r : Subs) : ∀ ts,
    canons T (insts r ts) = insts (canonSubs T r) (canons T ts)
  | [] => rfl
  | t :: ts => by simp [canons, insts, canon_inst T r t, canons_insts T r ts]
end

mutual
/-- A larger substitution after a smaller one with ground values. -/
theorem inst_inst {q r : Subs} (hq : GroundSubs q) (h : Keeps q r) : ∀ t, inst r (inst q t) = inst r t
  | .var n => by
    simp only [inst]
    cases hn : get q n with
    | none => simp [inst]
    | some b =>
      simp only [Option.getD_some]
      rw [inst_ground r b (hq n b hn), h n b hn]
      rfl
  | .con c => rfl
  | .any => rfl
  | .ell => rfl
  | .gen c ts => by simp [inst, insts_insts hq h ts]
  | .union ts => by simp [inst, insts_insts hq h ts]
  | .seq ts => by simp [inst, insts_insts hq h ts]
theorem insts_insts {q r : Subs} (hq : GroundSubs q) (h : Keeps q r) : ∀ ts,
    insts r (insts q ts) = insts r ts
  | [] => rfl
  | t :: ts => by simp [insts, inst_inst hq h t, insts_insts hq h ts]
end

/-! ## Describing a type is stable under substitution in the pattern -/

theorem desc_inst {T : Table} (hT : GroundTable T) (r : Subs) {t s : Ty} (h : Desc T t s) :
    Ground s → Desc T (inst r t) s := by
  induction h with
  | refl t => intro hs; rw [inst_ground r t hs]; exact .refl t
  | anyL s => intro _; exact .anyL s
  | anyR t => intro _; exact .anyR _
  | ellL s => intro _; exact .ellL s
  | ellR t => intro _; exact .ellR _
  | cls h => intro _; exact .cls h
  | nil => intro _; exact .nil
  | cons _ _ ih1 ih2 =>
    intro hs
    simp only [Ground, fvs, fvsL, List.append_eq_nil_iff] at hs
    exact .cons (ih1 hs.1) (ih2 hs.2)
  | unionR _ ih =>
    intro hs
    exact .unionR (fun s h => ih s h (mem_ground hs h))
  | unionL ht _ ih =>
    intro hs
    simp only [inst, insts_eq_map]
    exact .unionL (List.mem_map.2 ⟨_, ht, rfl⟩) (ih hs)
  | args _ ih => intro hs; exact .args (ih hs)
  | origin h _ => intro _; exact .origin h
  | bare h => intro _; exact .bare h
  | tuple hsub _ ih =>
    intro hs
    refine .tuple hsub (fun s h => ih s h ?_)
    apply ground_canon
    have := mem_ground hs h
    simpa [Ground, fvs, fvsL] using this
  | keys hs hd _ ih =>
    intro h
    simp only [Ground, fvs, fvsL, List.append_eq_nil_iff] at h
    exact .keys hs hd (ih h.1)
  | base hs he hf _ ih =>
    intro h
    exact .base hs he hf (ih (ground_canon (hT _ _ _ _ _ he h hf)))

theorem Keeps.refl (r : Subs) : Keeps r r := fun _ _ h => h

theorem Keeps.trans {p q r : Subs} (h1 : Keeps p q) (h2 : Keeps q r) : Keeps p r :=
  fun v t h => h2 v t (h1 v t h)

theorem get_add (v : Nat) (t : Ty) (r : Subs) (w : Nat) :
    get (add v t r) w = if w = v then some ((get r v).getD t) else get r w := by
  unfold add
  cases h : get r v with
  | some b =>
    simp only
    split
    · next e => rw [e, h]; rfl
    · rfl
  | none =>
    simp only [get, List.lookup]
    by_cases e : w = v
    · simp [e]
    · simp [e, beq_eq_false_iff_ne.2 e]

theorem keeps_add (v : Nat) (t : Ty) (r : Subs) : Keeps r (add v t r) := by
  intro w b h
  rw [get_add]
  split
  · next e => rw [← e, h]; rfl
  · exact h

theorem ground_add {v : Nat} {t : Ty} {r : Subs} (hr : GroundSubs r) (ht : Ground t) :
    GroundSubs (add v t r) := by
  intro w b h
  rw [get_add] at h
  split at h
  · cases hv : get r v with
    | some c => rw [hv] at h; cases h; exact hr v c hv
    | none => rw [hv] at h; cases h; exact ht
  · exact hr w b h

/-- The claim about a call of `unify`. -/
def Sound (T : Table) (t s : Ty) (q r : Subs) : Prop :=
  GroundSubs r ∧ Keeps q r ∧ Desc T (canon T (inst r t)) (canon T s)

def SoundUni (T : Table) (U : Uni) : Prop :=
  ∀ t s q r, Ground s → GroundSubs q → U t s q = some (some r) → Sound T t s q r

/-- A match stays a match when more variables are bound. -/
theorem desc_more {T : Table} (hT : GroundTable T) {t s : Ty} {q r : Subs} (hs : Ground s)
    (hq : GroundSubs q) (h : Keeps q r) (hd : Desc T (canon T (inst q t)) (canon T s)) :
    Desc T (canon T (inst r t)) (canon T s) := by
  rw [← inst_inst hq h t, canon_inst]
  exact desc_inst hT _ hd (ground_canon hs)

theorem fold_sound {T : Table} (hT : GroundTable T) {U : Uni} (hU : SoundUni T U) :
    ∀ ps q r, (∀ p ∈ ps, Ground p.2) → GroundSubs q → fold U ps q = some (some r) →
      GroundSubs r ∧ Keeps q r ∧ ∀ p ∈ ps, Desc T (canon T (inst r p.1)) (canon T p.2) := by
  intro ps
  induction ps with
  | nil =>
    intro q r _ hq h
    simp only [fold, Option.some.injEq] at h
    subst h
    exact ⟨hq, .refl _, fun p hp => by cases hp⟩
  | cons p ps ih =>
    intro q r hps hq h
    obtain ⟨t, s⟩ := p
    simp only [fold] at h
    split at h
    · next r' h1 =>
      have hs : Ground s := hps _ List.mem_cons_self
      obtain ⟨k1, k2, k3⟩ := hU t s q r' hs hq h1
      obtain ⟨m1, m2, m3⟩ := ih r' r (fun p hp => hps p (List.mem_cons_of_mem _ hp)) k1 h
      refine ⟨m1, k2.trans m2, ?_⟩
      intro p hp
      rcases List.mem_cons.1 hp with e | hp
      · subst e
        exact desc_more hT hs k1 m2 k3
      · exact m3 p hp
    · next hno => exact absurd h (hno r)

theorem desc_seq {T : Table} : ∀ ts ss : List Ty, ts.length = ss.length →
    (∀ p ∈ ts.zip ss, Desc T p.1 p.2) → Desc T (.seq ts) (.seq ss)
  | [], [], _, _ => .nil
  | [], _ :: _, h, _ => by simp at h
  | _ :: _, [], h, _ => by simp at h
  | t :: ts, s :: ss, hl, h => by
    refine .cons (h (t, s) (by simp)) (desc_seq ts ss (by simpa using hl) ?_)
    intro p hp
    exact h p (by simp [hp])

theorem alternatives_mem {U : Uni} {s : Ty} {q : Subs} : ∀ ts us, alternatives U s q ts = some us →
    ∀ u ∈ us, ∃ t ∈ ts, U t s q = some (some u) := by
  intro ts
  induction ts with
  | nil => intro us h u hu; simp only [alternatives, Option.some.injEq] at h; subst h; cases hu
  | cons t ts ih =>
    intro us h u hu
    simp only [alternatives] at h
    split at h
    · next r' rs h1 h2 =>
      simp only [Option.some.injEq] at h
      subst h
      rcases List.mem_cons.1 hu with e | hu
      · subst e; exact ⟨t, List.mem_cons_self, h1⟩
      · obtain ⟨t', ht', h3⟩ := ih rs h2 u hu
        exact ⟨t', List.mem_cons_of_mem _ ht', h3⟩
    · next rs h1 h2 =>
      simp only [Option.some.injEq] at h
      subst h
      obtain ⟨t', ht', h3⟩ := ih rs h2 u hu
      exact ⟨t', List.mem_cons_of_mem _ ht', h3⟩
    · cases h

theorem findBase_mem {T : Table} {c : Nat} {f} : ∀ bs, findBase T c bs = some f → ∃ e, (e, f) ∈ bs := by
  intro bs
  induction bs with
  | nil => intro h; cases h
  | cons b bs ih =>
    intro h
    obtain ⟨e, g⟩ := b
    simp only [findBase] at h
    split at h
    · cases h; exact ⟨e, List.mem_cons_self⟩
    · obtain ⟨e', h'⟩ := ih h
      exact ⟨e', List.mem_cons_of_mem _ h'⟩

/-- A canonical type. -/
def IsCanon (T : Table) (t : Ty) : Prop := canon T t = t

theorem sound_of_eq {T : Table} {t s : Ty} {q : Subs} (hs : Ground s) (hq : GroundSubs q)
    (h : t = s) : Sound T t s q q := by
  subst h
  refine ⟨hq, .refl _, ?_⟩
  rw [inst_ground q t hs]
  exact .refl _

theorem unifyVar_sound {T : Table} {U : Uni} (hU : SoundUni T U) {t s : Ty} {q r : Subs}
    (hs : Ground s) (hq : GroundSubs q) (h : unifyVar T U t s q = some (some r)) : Sound T t s q r := by
  have hvar : ∀ b, s ≠ .var b := by
    intro b e; subst e; simp [Ground, fvs] at hs
  unfold unifyVar at h
  split at h
  · next b => exact absurd rfl (hvar b)
  · next a _ =>
    have hadd := ground_add (v := a) hq hs
    obtain ⟨k1, k2, k3⟩ := hU _ s _ r hs hadd h
    refine ⟨k1, (keeps_add a s q).trans k2, ?_⟩
    have hg : get (add a s q) a = some ((get q a).getD s) := by rw [get_add]; simp
    have : Ground ((get q a).getD s) := hadd a _ hg
    rw [inst_ground r _ this] at k3
    simp only [inst, k2 a _ hg, Option.getD_some]
    exact k3
  · next b _ => exact absurd rfl (hvar b)
  · cases h

theorem unifySeq_sound {T : Table} (hT : GroundTable T) {U : Uni} (hU : SoundUni T U) {t s : Ty}
    {q r : Subs} (hs : Ground s) (hq : GroundSubs q) (h : unifySeq U t s q = some (some r)) :
    Sound T t s q r := by
  unfold unifySeq at h
  split at h
  · next he =>
    simp only [Option.some.injEq] at h
    subst h
    refine ⟨hq, .refl _, ?_⟩
    rcases Bool.or_eq_true_iff.1 he with he | he
    · cases t <;> simp [isEll] at he
      exact .ellL _
    · cases s <;> simp [isEll] at he
      exact .ellR _
  · split at h
    · next ts ss _ =>
      split at h
      · next hl =>
        have hss : ∀ p ∈ ts.zip ss, Ground p.2 := by
          intro p hp
          exact mem_ground (by simpa [Ground, fvs] using hs) (List.of_mem_zip hp).2
        obtain ⟨k1, k2, k3⟩ := fold_sound hT hU _ _ _ hss hq h
        refine ⟨k1, k2, ?_⟩
        simp only [inst, canon, insts_eq_map, canons_eq_map]
        refine desc_seq _ _ (by simpa using hl) ?_
        intro p hp
        rw [List.map_map, List.zip_map] at hp
        obtain ⟨p', hp', e⟩ := List.mem_map.1 hp
        rw [← e]
        exact k3 p' hp'
      · cases h
    · cases h

theorem unifyUnion_sound {T : Table} (hT : GroundTable T) {U : Uni} (hU : SoundUni T U) {t s : Ty}
    {q r : Subs} (hs : Ground s) (hq : GroundSubs q) (h : unifyUnion U t s q = some (some r)) :
    Sound T t s q r := by
  unfold unifyUnion at h
  split at h
  · next ss =>
    have hss : ∀ p ∈ ss.map (fun a => (t, a)), Ground p.2 := by
      intro p hp
      obtain ⟨a, ha, e⟩ := List.mem_map.1 hp
      rw [← e]
      exact mem_ground (by simpa [Ground, fvs] using hs) ha
    obtain ⟨k1, k2, k3⟩ := fold_sound hT hU _ _ _ hss hq h
    refine ⟨k1, k2, ?_⟩
    simp only [canon, canons_eq_map]
    refine .unionR ?_
    intro s' hs'
    obtain ⟨a, ha, e⟩ := List.mem_map.1 hs'
    rw [← e]
    exact k3 (t, a) (List.mem_map.2 ⟨a, ha, rfl⟩)
  · split at h
    · next ts =>
      split at h
      · cases h
      · cases h
      · next u us h1 =>
        split at h
        · simp only [Option.some.injEq] at h
          subst h
          obtain ⟨t', ht', h2⟩ := alternatives_mem _ _ h1 u List.mem_cons_self
          obtain ⟨k1, k2, k3⟩ := hU t' _ q u hs hq h2
          refine ⟨k1, k2, ?_⟩
          simp only [inst, canon, insts_eq_map, canons_eq_map]
          exact .unionL (List.mem_map.2 ⟨inst u t', List.mem_map.2 ⟨t', ht', rfl⟩, rfl⟩) k3
        · cases h
    · cases h

theorem unifyGen_sound {T : Table} (hT : GroundTable T) {U : Uni} (hU : SoundUni T U) {t s : Ty}
    {q r : Subs} (ht : IsCanon T t) (hcs : IsCanon T s) (hs : Ground s) (hq : GroundSubs q)
    (h : unifyGen T U t s q = some (some r)) : Sound T t s q r := by
  have hkeys : ∀ c d ts ss, IsCanon T (.gen c ts) → IsCanon T (.gen d ss) → Ground (.gen d ss) →
      T.sub d c = true → (d = T.mapping ∨ d = T.generator) →
      (match ts, ss with
        | a :: _, b :: _ => U a b q
        | _, _ => some none) = some (some r) → Sound T (.gen c ts) (.gen d ss) q r := by
    intro c d ts ss hc1 hc2 hg hsub hd h
    split at h
    · next a ts b ss =>
      simp only [Ground, fvs, fvsL, List.append_eq_nil_iff] at hg
      obtain ⟨k1, k2, k3⟩ := hU a b q r hg.1 hq h
      refine ⟨k1, k2, ?_⟩
      simp only [IsCanon, canon, Ty.gen.injEq] at hc1 hc2
      simp only [inst, insts, canon, canons, hc1.1, hc2.1]
      exact .keys hsub hd k3
    · cases h
  unfold unifyGen at h
  split at h
  · next c ts d ss =>
    have hc1 := ht
    have hc2 := hcs
    simp only [IsCanon, canon, Ty.gen.injEq] at hc1 hc2
    split at h
    · next hsub =>
      split at h
      · next hd =>
        have hss : ∀ p ∈ ss.map (fun a => (Ty.gen c ts, Ty.gen T.sequence [a])), Ground p.2 := by
          intro p hp
          obtain ⟨a, ha, e⟩ := List.mem_map.1 hp
          rw [← e]
          have := mem_ground (by simpa [Ground, fvs] using hs) ha
          simpa [Ground, fvs, fvsL] using this
        obtain ⟨k1, k2, k3⟩ := fold_sound hT hU _ _ _ hss hq h
        refine ⟨k1, k2, ?_⟩
        simp only [inst, canon, hc1.1, hc2.1, hc2.2]
        rw [hd.1]
        refine .tuple (hd.1 ▸ hsub) ?_
        intro s' hs'
        have := k3 _ (List.mem_map.2 ⟨s', hs', rfl⟩)
        simp only [inst, canon, hc1.1] at this
        exact this
      · split at h
        · next hd => exact hkeys c d ts ss ht hcs hs hsub (.inl hd.1) h
        · split at h
          · next hd => exact hkeys c d ts ss ht hcs hs hsub (.inr hd.1) h
          · split at h
            · next hcd =>
              have hg : Ground (.seq ss) := by simpa [Ground, fvs] using hs
              obtain ⟨k1, k2, k3⟩ := hU _ _ q r hg hq h
              refine ⟨k1, k2, ?_⟩
              simp only [inst, canon, hcd]
              exact .args k3
            · split at h
              · next f hf =>
                split at h
                · next b hb =>
                  obtain ⟨e, he⟩ := findBase_mem _ hf
                  have hg := hT d e f ss b he (by simpa [Ground, fvs] using hs) hb
                  obtain ⟨k1, k2, k3⟩ := hU _ _ q r hg hq h
                  refine ⟨k1, k2, ?_⟩
                  simp only [inst, canon, hc1.1, hc2.1, hc2.2] at k3 ⊢
                  exact .base hsub he hb k3
                · cases h
              · cases h
    · cases h
  · next c d ss =>
    simp only [IsCanon, canon, Ty.gen.injEq] at ht hcs
    obtain ⟨k1, k2, k3⟩ := hU (.con c) (.con d) q r rfl hq h
    refine ⟨k1, k2, ?_⟩
    simp only [inst, canon] at k3 ⊢
    exact .origin k3
  · next d ss =>
    obtain ⟨k1, k2, k3⟩ := hU .any (.con d) q r rfl hq h
    exact ⟨k1, k2, .anyL _⟩
  · next c ts d =>
    simp only [IsCanon, canon, Ty.gen.injEq, Ty.con.injEq] at ht hcs
    split at h
    · next hsub =>
      simp only [Option.some.injEq] at h
      subst h
      refine ⟨hq, .refl _, ?_⟩
      simp only [inst, canon, ht.1, hcs]
      exact .bare hsub
    · cases h
  · cases h

theorem unifyCanon_sound {T : Table} (hT : GroundTable T) {U : Uni} (hU : SoundUni T U) {t s : Ty}
    {q r : Subs} (ht : IsCanon T t) (hcs : IsCanon T s) (hs : Ground s) (hq : GroundSubs q)
    (h : unifyCanon T U t s q = some (some r)) : Sound T t s q r := by
  unfold unifyCanon at h
  split at h
  · next he =>
    simp only [Option.some.injEq] at h
    subst h
    exact sound_of_eq hs hq (beq_eq t s he)
  · split at h
    · exact unifyVar_sound hU hs hq h
    · split at h
      · exact unifySeq_sound hT hU hs hq h
      · split at h
        · exact unifyUnion_sound hT hU hs hq h
        · split at h
          · exact unifyGen_sound hT hU ht hcs hs hq h
          · split at h
            · next c d =>
              split at h
              · next hsub =>
                simp only [Option.some.injEq] at h
                subst h
                refine ⟨hq, .refl _, ?_⟩
                simp only [IsCanon, canon, Ty.con.injEq] at ht hcs
                simp only [inst, canon, ht, hcs]
                exact .cls hsub
              · cases h
            · split at h
              · next hx =>
                simp only [Option.some.injEq] at h
                subst h
                refine ⟨hq, .refl _, ?_⟩
                simp only [Bool.or_eq_true] at hx
                rcases hx with ((hx | hx) | hx) | hx
                · cases t <;> simp [isAny] at hx
                  exact .anyL _
                · cases t <;> simp [isEll] at hx
                  exact .ellL _
                · cases s <;> simp [isAny] at hx
                  exact .anyR _
                · cases s <;> simp [isEll] at hx
                  exact .ellR _
              · cases h

theorem unify_sound {T : Table} (hT : GroundTable T) (hI : IdemTable T) :
    ∀ n, SoundUni T (unify T n) := by
  intro n
  induction n with
  | zero => intro t s q r _ _ h; cases h
  | succ n ih =>
    intro t s q r hs hq h
    simp only [unify] at h
    obtain ⟨k1, k2, k3⟩ := unifyCanon_sound hT ih (canon_idem hI t) (canon_idem hI s)
      (ground_canon hs) hq h
    refine ⟨k1, k2, ?_⟩
    rw [canon_inst, canon_idem hI] at k3
    rw [canon_idem hI] at k3
    rw [canon_inst]
    exact k3

end Verif.Unify
