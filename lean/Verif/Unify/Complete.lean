import Verif.Unify.Termination

/-!
# C106: `unify` accepts the types that a pattern describes

The converse of C32, for `unify` (`internals/unification.py` 204-299) and its parts as modelled in `Verif.Unify.Model`.
-/

namespace Verif.Unify

/-! ## Specification -/

/-- `Any`, `...` and classes. -/
def Atomic : Ty → Prop
  | .any | .ell | .con _ => True
  | _ => False

/-- `Any` and `...`. -/
def Loose : Ty → Prop
  | .any | .ell => True
  | _ => False

mutual

/-- The type on the right fits the pattern on the left. A variable fits every type. Unions, and tuples seen as sequences, are
compared with patterns without variables only. -/
inductive Fits (T : Table) : Ty → Ty → Prop
  | var (v s) : Fits T (.var v) s
  | refl {t} : Ground t → Fits T t t
  | cls {c d} : T.sub d c = true → Fits T (.con c) (.con d)
  | loose {t s} : Atomic t → Atomic s → Loose t ∨ Loose s → Fits T t s
  | anyGen {d ss} : Fits T .any (.gen d ss)
  | ellL {ss} : Fits T .ell (.seq ss)
  | ellR {ts} : Fits T (.seq ts) .ell
  | seq {ts ss} : FitsL T ts ss → Fits T (.seq ts) (.seq ss)
  /-- each member of a union on the right -/
  | unionR {t ss} : Ground t → isSeq t = false → (∀ s ∈ ss, Fits T t s) → Fits T t (.union ss)
  /-- some member of a union on the left -/
  | unionL {ts t s} : Ground (.union ts) → isSeq s = false → isUnion s = false → t ∈ ts → Fits T t s →
      Fits T (.union ts) s
  | args {c ts ss} : FitsL T ts ss → Fits T (.gen c ts) (.gen c ss)
  | origin {c d ss} : T.sub d c = true → Fits T (.con c) (.gen d ss)
  | bare {c d ts} : T.sub d c = true → Fits T (.gen c ts) (.con d)
  /-- a tuple as a sequence of each of its components -/
  | tuple {c ts ss} : Ground (.gen c ts) → c ≠ T.tuple → T.sub T.tuple c = true →
      (∀ s ∈ ss, Fits T (.gen c ts) (canon T (.gen T.sequence [s]))) → Fits T (.gen c ts) (.gen T.tuple ss)
  /-- mappings and generators as iterables of their keys or items -/
  | keys {c d a b ts ss} : T.sub d c = true → (d = T.tuple → c = T.tuple) →
      (d = T.mapping ∧ T.sub c T.mapping = false) ∨ (d = T.generator ∧ T.sub c T.generator = false) →
      Fits T a b → Fits T (.gen c (a :: ts)) (.gen d (b :: ss))
  /-- the first base that is a subclass of the class of the pattern -/
  | base {c d e f b ts ss pre post} : T.sub d c = true → c ≠ d → (d = T.tuple → c = T.tuple) →
      (d = T.mapping → T.sub c T.mapping = true) → (d = T.generator → T.sub c T.generator = true) →
      T.bases d = pre ++ (e, f) :: post → (∀ x ∈ pre, T.sub x.1 c = false) → T.sub e c = true → f ss = some b →
      Fits T (.gen c ts) (canon T b) → Fits T (.gen c ts) (.gen d ss)

inductive FitsL (T : Table) : List Ty → List Ty → Prop
  | nil : FitsL T [] []
  | cons {t s ts ss} : Fits T t s → FitsL T ts ss → FitsL T (t :: ts) (s :: ss)

end

/-- Every class is a subclass of itself. -/
def ReflTable (T : Table) : Prop := ∀ c, T.sub c c = true

/-- A dict has each key once. -/
def KeysOnce (q : Subs) : Prop := (q.map (·.1)).Nodup

/-- No variable occurs twice. -/
def Linear (t : Ty) : Prop := (fvs t).Nodup

/-! ## Equality and dicts -/

mutual
theorem beq_refl : ∀ t, Ty.beq t t = true
  | .var _ => by simp [Ty.beq]
  | .con _ => by simp [Ty.beq]
  | .any => by simp [Ty.beq]
  | .ell => by simp [Ty.beq]
  | .gen _ ts => by simp [Ty.beq, beqs_refl ts]
  | .union ts => by simp [Ty.beq, beqs_refl ts]
  | .seq ts => by simp [Ty.beq, beqs_refl ts]
theorem beqs_refl : ∀ ts, Ty.beqs ts ts = true
  | [] => by simp [Ty.beqs]
  | t :: ts => by simp [Ty.beqs, beq_refl t, beqs_refl ts]
end

theorem get_of_mem {q : Subs} (h : KeysOnce q) {p : Nat × Ty} (hp : p ∈ q) : get q p.1 = some p.2 := by
  induction q with
  | nil => cases hp
  | cons x q ih =>
    unfold KeysOnce at h
    rw [List.map_cons, List.nodup_cons] at h
    unfold get
    rcases List.mem_cons.1 hp with rfl | hp
    · simp [List.lookup]
    · have hne : (p.1 == x.1) = false := by
        simp only [beq_eq_false_iff_ne, ne_eq]
        intro e
        exact h.1 (List.mem_map.2 ⟨p, hp, e⟩)
      rw [List.lookup, hne]
      exact ih h.2 hp

theorem dictEq_refl {q : Subs} (h : KeysOnce q) : dictEq q q = true := by
  unfold dictEq
  simp only [beq_self_eq_true, Bool.true_and, List.all_eq_true]
  intro p hp
  rw [get_of_mem h hp]
  exact beq_refl _

theorem get_none_keys {q : Subs} {v : Nat} (h : get q v = none) : v ∉ q.map (·.1) := by
  induction q with
  | nil => simp
  | cons x q ih =>
    unfold get at h ih
    rw [List.lookup] at h
    split at h
    · cases h
    · rename_i hne
      rw [List.map_cons, List.mem_cons, not_or]
      exact ⟨by simpa using hne, ih h⟩

theorem keysOnce_add {v : Nat} {t : Ty} {q : Subs} (h : KeysOnce q) : KeysOnce (add v t q) := by
  unfold add
  cases e : get q v with
  | some _ => exact h
  | none =>
    unfold KeysOnce
    rw [List.map_cons, List.nodup_cons]
    exact ⟨get_none_keys e, h⟩

/-! ## Steps on canonical types -/

theorem unify_step {T : Table} {n : Nat} {t s : Ty} {q : Subs} (ht : IsCanon T t) (hs : IsCanon T s) :
    unify T (n + 1) t s q = unifyCanon T (unify T n) t s q := by
  show unifyCanon T (unify T n) (canon T t) (canon T s) q = _
  rw [ht, hs]

theorem unify_canon {T : Table} (hI : IdemTable T) (n : Nat) (t s : Ty) (q : Subs) :
    unify T n t (canon T s) q = unify T n t s q := by
  cases n with
  | zero => rfl
  | succ n =>
    show unifyCanon T (unify T n) (canon T t) (canon T (canon T s)) q = unifyCanon T (unify T n) (canon T t) (canon T s) q
    rw [canon_idem hI]

theorem canon_seq {T : Table} {ts : List Ty} (h : IsCanon T (.seq ts)) : canons T ts = ts := by
  unfold IsCanon at h
  simp only [canon, Ty.seq.injEq] at h
  exact h

theorem canon_union {T : Table} {ts : List Ty} (h : IsCanon T (.union ts)) : canons T ts = ts := by
  unfold IsCanon at h
  simp only [canon, Ty.union.injEq] at h
  exact h

theorem canon_gen {T : Table} {c : Nat} {ts : List Ty} (h : IsCanon T (.gen c ts)) : T.cn c = c ∧ canons T ts = ts := by
  unfold IsCanon at h
  simp only [canon, Ty.gen.injEq] at h
  exact h

theorem canon_cons {T : Table} {t : Ty} {ts : List Ty} (h : canons T (t :: ts) = t :: ts) :
    IsCanon T t ∧ canons T ts = ts := by
  simp only [canons, List.cons.injEq] at h
  exact h

theorem canon_mem {T : Table} : ∀ {ts : List Ty}, canons T ts = ts → ∀ t ∈ ts, IsCanon T t
  | [], _, _, h => by cases h
  | _ :: _, h, t, ht => by
    obtain ⟨h1, h2⟩ := canon_cons h
    rcases List.mem_cons.1 ht with rfl | ht
    · exact h1
    · exact canon_mem h2 t ht

theorem ground_mem {ts : List Ty} (h : fvsL ts = []) {t : Ty} (ht : t ∈ ts) : Ground t := mem_ground h ht

theorem ground_not_var {t : Ty} (h : Ground t) : isVar t = false := by
  cases t with
  | var v => simp [Ground, fvs] at h
  | _ => rfl

theorem findBase_split {T : Table} {c : Nat} {f : List Ty → Option Ty} : ∀ {bs : List (Nat × (List Ty → Option Ty))},
    findBase T c bs = some f ↔
      ∃ pre e post, bs = pre ++ (e, f) :: post ∧ (∀ x ∈ pre, T.sub x.1 c = false) ∧ T.sub e c = true
  | [] => by simp [findBase]
  | (e, g) :: bs => by
    simp only [findBase]
    split
    · rename_i h
      constructor
      · intro hf
        cases hf
        exact ⟨[], e, bs, rfl, by simp, h⟩
      · rintro ⟨pre, e', post, h1, h2, h3⟩
        cases pre with
        | nil => cases h1; rfl
        | cons x pre =>
          cases h1
          have := h2 _ List.mem_cons_self
          simp only [h] at this
          cases this
    · rename_i h
      rw [findBase_split]
      constructor
      · rintro ⟨pre, e', post, h1, h2, h3⟩
        refine ⟨(e, g) :: pre, e', post, by rw [h1]; rfl, ?_, h3⟩
        intro x hx
        rcases List.mem_cons.1 hx with rfl | hx
        · simpa using h
        · exact h2 x hx
      · rintro ⟨pre, e', post, h1, h2, h3⟩
        cases pre with
        | nil => cases h1; exact absurd h3 h
        | cons x pre =>
          cases h1
          exact ⟨pre, e', post, rfl, fun y hy => h2 y (List.mem_cons_of_mem _ hy), h3⟩

/-! ## Without variables nothing is bound -/

/-- The result of a unification without variables is the given substitution. -/
def KeepsAll (U : Uni) : Prop := ∀ t s q r, Ground t → Ground s → U t s q = some (some r) → r = q

theorem fold_keeps {U : Uni} (hU : KeepsAll U) : ∀ (ps : List (Ty × Ty)) (q r : Subs),
    (∀ p ∈ ps, Ground p.1 ∧ Ground p.2) → fold U ps q = some (some r) → r = q
  | [], q, r, _, h => by cases h; rfl
  | (t, s) :: ps, q, r, hg, h => by
    simp only [fold] at h
    cases e : U t s q with
    | none => rw [e] at h; cases h
    | some o =>
      cases o with
      | none => rw [e] at h; cases h
      | some q' =>
        rw [e] at h
        have hq := hU t s q q' (hg _ List.mem_cons_self).1 (hg _ List.mem_cons_self).2 e
        subst hq
        exact fold_keeps hU ps _ r (fun p hp => hg p (List.mem_cons_of_mem _ hp)) h

theorem alternatives_keeps {U : Uni} (hU : KeepsAll U) {s : Ty} {q : Subs} (hs : Ground s) :
    ∀ (ts : List Ty) (us : List Subs), fvsL ts = [] → alternatives U s q ts = some us → ∀ u ∈ us, u = q
  | [], us, _, h, u, hu => by cases h; cases hu
  | t :: ts, us, hg, h, u, hu => by
    have hgt : Ground t := mem_ground hg List.mem_cons_self
    have hgts : fvsL ts = [] := by
      simp only [fvsL, List.append_eq_nil_iff] at hg
      exact hg.2
    simp only [alternatives] at h
    cases e : U t s q with
    | none => rw [e] at h; cases h
    | some o =>
      cases e2 : alternatives U s q ts with
      | none => rw [e, e2] at h; cases o <;> cases h
      | some rs =>
        rw [e, e2] at h
        cases o with
        | none =>
          cases h
          exact alternatives_keeps hU hs ts _ hgts e2 u hu
        | some r =>
          cases h
          rcases List.mem_cons.1 hu with rfl | hu
          · exact hU t s q _ hgt hs e
          · exact alternatives_keeps hU hs ts _ hgts e2 u hu

theorem ground_gen {c : Nat} {ts : List Ty} (h : Ground (.gen c ts)) : fvsL ts = [] := by
  simpa [Ground, fvs] using h

theorem ground_seq {ts : List Ty} (h : Ground (.seq ts)) : fvsL ts = [] := by
  simpa [Ground, fvs] using h

theorem ground_union {ts : List Ty} (h : Ground (.union ts)) : fvsL ts = [] := by
  simpa [Ground, fvs] using h

theorem unifyCanon_keeps {T : Table} (hT : GroundTable T) {U : Uni} (hU : KeepsAll U) :
    KeepsAll (fun t s q => unifyCanon T U t s q) := by
  intro t s q r ht hs h
  simp only [unifyCanon, ground_not_var ht, ground_not_var hs, Bool.or_self, Bool.false_eq_true, if_false] at h
  split at h
  · cases h; rfl
  split at h
  · -- sequences
    unfold unifySeq at h
    split at h
    · cases h; rfl
    · split at h
      · split at h
        · refine fold_keeps hU _ q r ?_ h
          intro p hp
          obtain ⟨p1, p2⟩ := List.of_mem_zip hp
          exact ⟨mem_ground (ground_seq ht) p1, mem_ground (ground_seq hs) p2⟩
        · cases h
      · cases h
  split at h
  · -- unions
    unfold unifyUnion at h
    split at h
    · refine fold_keeps hU _ q r ?_ h
      intro p hp
      obtain ⟨a, ha, rfl⟩ := List.mem_map.1 hp
      exact ⟨ht, mem_ground (ground_union hs) ha⟩
    · split at h
      · rename_i ts _ _ _
        cases e : alternatives U s q ts with
        | none => rw [e] at h; cases h
        | some us =>
          rw [e] at h
          cases us with
          | nil => cases h
          | cons u us =>
            simp only at h
            split at h
            · cases h
              exact alternatives_keeps hU hs ts _ (ground_union ht) e _ List.mem_cons_self
            · cases h
      · cases h
  split at h
  · -- aliases
    unfold unifyGen at h
    split at h
    · rename_i c ts d ss _
      have hts := ground_gen ht
      have hss := ground_gen hs
      split at h
      · split at h
        · refine fold_keeps hU _ q r ?_ h
          intro p hp
          obtain ⟨a, ha, rfl⟩ := List.mem_map.1 hp
          refine ⟨ht, ?_⟩
          have := mem_ground hss ha
          simpa [Ground, fvs, fvsL] using this
        · split at h
          · split at h
            · exact hU _ _ q r (mem_ground hts List.mem_cons_self) (mem_ground hss List.mem_cons_self) h
            · cases h
          · split at h
            · split at h
              · exact hU _ _ q r (mem_ground hts List.mem_cons_self) (mem_ground hss List.mem_cons_self) h
              · cases h
            · split at h
              · exact hU _ _ q r (by simpa [Ground, fvs] using hts) (by simpa [Ground, fvs] using hss) h
              · split at h
                · rename_i f hf
                  split at h
                  · rename_i b hb
                    obtain ⟨e, he⟩ := findBase_mem _ hf
                    exact hU _ _ q r ht (hT _ _ _ _ _ he hss hb) h
                  · cases h
                · cases h
      · cases h
    · exact hU _ _ q r (by simp [Ground, fvs]) (by simp [Ground, fvs]) h
    · exact hU _ _ q r (by simp [Ground, fvs]) (by simp [Ground, fvs]) h
    · split at h
      · cases h; rfl
      · cases h
    · cases h
  split at h
  · split at h
    · cases h; rfl
    · cases h
  · split at h
    · cases h; rfl
    · cases h

theorem unify_keeps {T : Table} (hT : GroundTable T) : ∀ n, KeepsAll (unify T n)
  | 0 => by intro t s q r _ _ h; cases h
  | n + 1 => by
    intro t s q r ht hs h
    exact unifyCanon_keeps hT (unify_keeps hT n) _ _ q r (ground_canon ht) (ground_canon hs) h

/-! ## Completeness -/

/-- Unification succeeds, and binds variables of the pattern only. -/
def Accepts (T : Table) (t s : Ty) : Prop := ∀ q, GroundSubs q → KeysOnce q → (∀ v ∈ fvs t, get q v = none) →
  ∃ n r, unify T n t s q = some (some r) ∧ KeysOnce r ∧ ∀ v, v ∉ fvs t → get r v = get q v

def AcceptsL (T : Table) (ts ss : List Ty) : Prop := ∀ q, GroundSubs q → KeysOnce q → (∀ v ∈ fvsL ts, get q v = none) →
  ∃ n r, fold (unify T n) (ts.zip ss) q = some (some r) ∧ KeysOnce r ∧ ∀ v, v ∉ fvsL ts → get r v = get q v

/-- The calls of `unify` end. -/
def Ends (T : Table) : Prop := ∀ t s q, Ground s → GroundSubs q → Enough T t s q

theorem Accepts.ground {T : Table} (hT : GroundTable T) {t s : Ty} (h : Accepts T t s) (ht : Ground t) (hs : Ground s)
    {q : Subs} (hq : GroundSubs q) (hk : KeysOnce q) : ∃ n, unify T n t s q = some (some q) := by
  obtain ⟨n, r, e, _⟩ := h q hq hk (fun v hv => by rw [ht] at hv; cases hv)
  have := unify_keeps hT n t s q r ht hs e
  subst this
  exact ⟨n, e⟩

theorem fold_ground {T : Table} {q : Subs} : ∀ (ps : List (Ty × Ty)), (∀ p ∈ ps, ∃ n, unify T n p.1 p.2 q = some (some q)) →
    ∃ n, fold (unify T n) ps q = some (some q)
  | [], _ => ⟨0, rfl⟩
  | (t, s) :: ps, h => by
    obtain ⟨n, e⟩ := h _ List.mem_cons_self
    obtain ⟨m, e2⟩ := fold_ground ps (fun p hp => h p (List.mem_cons_of_mem _ hp))
    refine ⟨max n m, ?_⟩
    simp only [fold, unify_le T (Nat.le_max_left n m) _ _ _ _ e]
    exact (unify_le T (Nat.le_max_right n m)).fold _ _ _ e2

theorem accepts_step {T : Table} {t s : Ty} (ht : IsCanon T t) (hs : IsCanon T s)
    (h : ∀ q, GroundSubs q → KeysOnce q → (∀ v ∈ fvs t, get q v = none) → Ty.beq t s = false →
      ∃ n r, unifyCanon T (unify T n) t s q = some (some r) ∧ KeysOnce r ∧ ∀ v, v ∉ fvs t → get r v = get q v) :
    Accepts T t s := by
  intro q hq hk hf
  cases hb : Ty.beq t s with
  | true => exact ⟨1, q, by rw [unify_step ht hs]; unfold unifyCanon; rw [if_pos hb], hk, fun _ _ => rfl⟩
  | false =>
    obtain ⟨n, r, e, h2, h3⟩ := h q hq hk hf hb
    exact ⟨n + 1, r, by rw [unify_step ht hs]; exact e, h2, h3⟩

theorem accepts_now {T : Table} {t s : Ty} (ht : IsCanon T t) (hs : IsCanon T s)
    (h : ∀ q, Ty.beq t s = false → unifyCanon T (unify T 0) t s q = some (some q)) : Accepts T t s :=
  accepts_step ht hs fun q _ hk _ hb => ⟨0, q, h q hb, hk, fun _ _ => rfl⟩

theorem accepts_cls {T : Table} {c d : Nat} (hc : T.cn c = c) (hd : T.cn d = d) (h : T.sub d c = true) :
    Accepts T (.con c) (.con d) := by
  refine accepts_now (by simp [IsCanon, canon, hc]) (by simp [IsCanon, canon, hd]) fun q hb => ?_
  simp [unifyCanon, hb, isVar, isSeq, isUnion, isGen, h]

theorem accepts_loose {T : Table} {t s : Ty} (hc : IsCanon T t) (hd : IsCanon T s) (ht : Atomic t) (hs : Atomic s)
    (h : Loose t ∨ Loose s) : Accepts T t s := by
  refine accepts_now hc hd fun q hb => ?_
  cases t <;> simp only [Atomic] at ht <;> cases s <;> simp only [Atomic] at hs <;>
    first
    | (simp [Loose] at h; done)
    | simp [unifyCanon, hb, isVar, isSeq, isUnion, isGen, isAny, isEll]

theorem canon_isCanon {T : Table} (hI : IdemTable T) (t : Ty) : IsCanon T (canon T t) := canon_idem hI t

theorem alternatives_mem_of {U : Uni} {s : Ty} {q r : Subs} {t : Ty} (h : U t s q = some (some r)) :
    ∀ (ts : List Ty) (us : List Subs), t ∈ ts → alternatives U s q ts = some us → r ∈ us
  | [], _, ht, _ => by cases ht
  | a :: ts, us, ht, e => by
    simp only [alternatives] at e
    cases ea : U a s q with
    | none => rw [ea] at e; cases e
    | some o =>
      cases e2 : alternatives U s q ts with
      | none => rw [ea, e2] at e; cases o <;> cases e
      | some rs =>
        rw [ea, e2] at e
        rcases List.mem_cons.1 ht with rfl | ht
        · rw [h] at ea
          cases ea
          cases e
          exact List.mem_cons_self
        · have := alternatives_mem_of h ts rs ht e2
          cases o with
          | none => cases e; exact this
          | some r' => cases e; exact List.mem_cons_of_mem _ this

theorem unifyCanon_union {T : Table} {U : Uni} {t s : Ty} {q : Subs} (hb : Ty.beq t s = false) (vt : isVar t = false)
    (vs : isVar s = false) (nt : isSeq t = false) (ns : isSeq s = false) (hu : (isUnion t || isUnion s) = true) :
    unifyCanon T U t s q = unifyUnion U t s q := by
  unfold unifyCanon
  rw [if_neg (by simp [hb]), if_neg (by simp [vt, vs]), if_neg (by simp [nt, ns]), if_pos hu]

mutual

theorem fits_accepts {T : Table} (hT : GroundTable T) (hI : IdemTable T) (hR : ReflTable T) (hE : Ends T) : ∀ {t s : Ty},
    Fits T t s → IsCanon T t → IsCanon T s → Ground s → Linear t → Accepts T t s
  | _, _, .var v s, ct, cs, gs, _ => by
    refine accepts_step ct cs fun q _ hk hf hb => ?_
    have hv : get q v = none := hf v (by simp [fvs])
    refine ⟨1, add v s q, ?_, keysOnce_add hk, ?_⟩
    · simp only [unifyCanon, hb, isVar, Bool.true_or, if_true, Bool.false_eq_true, if_false]
      have : unifyVar T (unify T 1) (.var v) s q = unify T 1 ((get q v).getD s) s (add v s q) := by
        cases s with
        | var w => simp [Ground, fvs] at gs
        | _ => rfl
      rw [this, hv, Option.getD_none, unify_step cs cs]
      simp [unifyCanon, beq_refl]
    · intro w hw
      have hne : w ≠ v := by simpa [fvs] using hw
      rw [get_add]
      simp [hne]
  | _, _, .refl g, ct, cs, _, _ => by
    refine accepts_now ct cs fun q hb => ?_
    rw [beq_refl] at hb
    cases hb
  | _, _, .cls h, ct, cs, _, _ => by
    simp only [IsCanon, canon, Ty.con.injEq] at ct cs
    exact accepts_cls ct cs h
  | _, _, .loose h1 h2 h3, ct, cs, _, _ => accepts_loose ct cs h1 h2 h3
  | _, _, .anyGen (d := d) (ss := ss), ct, cs, _, _ => by
    refine accepts_step ct cs fun q hq hk hf hb => ?_
    have hd : IsCanon T (.con d) := by simp [IsCanon, canon, (canon_gen cs).1]
    obtain ⟨n, r, e, h2, h3⟩ := accepts_loose ct hd (by simp [Atomic]) (by simp [Atomic]) (Or.inl (by simp [Loose])) q hq hk hf
    refine ⟨n, r, ?_, h2, h3⟩
    simp only [unifyCanon, hb, isVar, isSeq, isUnion, isGen, Bool.or_self, Bool.or_true, Bool.false_eq_true, if_false, if_true,
      unifyGen]
    exact e
  | _, _, .ellL, ct, cs, _, _ => by
    refine accepts_now ct cs fun q hb => ?_
    simp [unifyCanon, hb, isVar, isSeq, unifySeq, isEll]
  | _, _, .ellR, ct, cs, _, _ => by
    refine accepts_now ct cs fun q hb => ?_
    simp [unifyCanon, hb, isVar, isSeq, unifySeq, isEll]
  | _, _, .seq h, ct, cs, gs, lt => by
    refine accepts_step ct cs fun q hq hk hf hb => ?_
    obtain ⟨hl, h1⟩ := fitsL_accepts hT hI hR hE h (canon_seq ct) (canon_seq cs) (ground_seq gs) (by simpa [Linear, fvs] using lt)
    obtain ⟨n, r, e, h2, h3⟩ := h1 q hq hk (by simpa [fvs] using hf)
    refine ⟨n, r, ?_, h2, by simpa [fvs] using h3⟩
    simp only [unifyCanon, hb, isVar, isSeq, Bool.or_self, Bool.false_eq_true, if_false, if_true, unifySeq, isEll, hl]
    exact e
  | t, _, .unionR (ss := ss) gt nt h, ct, cs, gs, lt => by
    refine accepts_step ct cs fun q hq hk _ hb => ?_
    obtain ⟨n, e⟩ := fold_ground (T := T) (q := q) (ss.map (fun a => (t, a))) (by
      intro p hp
      obtain ⟨a, ha, rfl⟩ := List.mem_map.1 hp
      have ga := mem_ground (ground_union gs) ha
      exact (fits_accepts hT hI hR hE (h a ha) ct (canon_mem (canon_union cs) a ha) ga lt).ground hT gt ga hq hk)
    refine ⟨n, q, ?_, hk, fun _ _ => rfl⟩
    rw [unifyCanon_union hb (ground_not_var gt) rfl nt rfl (by simp [isUnion])]
    exact e
  | _, s, .unionL (ts := ts) (t := t) gt ns nu ht h, ct, cs, gs, lt => by
    refine accepts_step ct cs fun q hq hk _ hb => ?_
    have gm := mem_ground (ground_union gt) ht
    have lm : Linear t := by unfold Linear; rw [gm]; exact List.nodup_nil
    obtain ⟨n, e⟩ := (fits_accepts hT hI hR hE h (canon_mem (canon_union ct) t ht) cs gs lm).ground hT gm gs hq hk
    obtain ⟨m, us, e2⟩ := enough_alternatives (T := T) (s := s) (q := q) ts (fun a _ => hE a s q gs hq)
    have e3 := unify_le T (Nat.le_max_left n m) _ _ _ _ e
    have e4 := (unify_le T (Nat.le_max_right n m)).alternatives _ _ e2
    have hall := alternatives_keeps (unify_keeps hT (max n m)) gs ts us (ground_union gt) e4
    have hmem := alternatives_mem_of e3 ts us ht e4
    refine ⟨max n m, q, ?_, hk, fun _ _ => rfl⟩
    rw [unifyCanon_union hb rfl (ground_not_var gs) rfl ns (by simp [isUnion])]
    have hu : unifyUnion (unify T (max n m)) (.union ts) s q = (match alternatives (unify T (max n m)) s q ts with
      | none => none
      | some [] => some none
      | some (u :: us) => if us.all (dictEq · u) then some (some u) else some none) := by
      cases s with
      | union ss => cases nu
      | _ => rfl
    rw [hu, e4]
    cases us with
    | nil => cases hmem
    | cons u us =>
      have hu := hall u List.mem_cons_self
      subst hu
      have : us.all (dictEq · u) = true := by
        rw [List.all_eq_true]
        intro w hw
        rw [hall w (List.mem_cons_of_mem _ hw)]
        exact dictEq_refl hk
      simp only [this, if_true]
  | _, _, .args (c := c) (ts := ts) (ss := ss) h, ct, cs, gs, lt => by
    obtain ⟨hl, h1⟩ := fitsL_accepts hT hI hR hE h (canon_gen ct).2 (canon_gen cs).2 (ground_gen gs) (by simpa [Linear, fvs] using lt)
    have hseq : Accepts T (.seq ts) (.seq ss) := by
      refine accepts_step (by simp [IsCanon, canon, (canon_gen ct).2]) (by simp [IsCanon, canon, (canon_gen cs).2])
        fun q hq hk hf hb => ?_
      obtain ⟨n, r, e, h2, h3⟩ := h1 q hq hk (by simpa [fvs] using hf)
      refine ⟨n, r, ?_, h2, by simpa [fvs] using h3⟩
      simp only [unifyCanon, hb, isVar, isSeq, Bool.or_self, Bool.false_eq_true, if_false, if_true, unifySeq, isEll, hl]
      exact e
    refine accepts_step ct cs fun q hq hk hf hb => ?_
    obtain ⟨n, r, e, h2, h3⟩ := hseq q hq hk (by simpa [fvs] using hf)
    refine ⟨n, r, ?_, h2, by simpa [fvs] using h3⟩
    have m1 : ¬(c = T.tuple ∧ c ≠ T.tuple) := fun h => h.2 h.1
    have m2 : ¬(c = T.mapping ∧ T.sub c T.mapping = false) := by
      rintro ⟨a, b⟩
      rw [← a, hR] at b
      cases b
    have m3 : ¬(c = T.generator ∧ T.sub c T.generator = false) := by
      rintro ⟨a, b⟩
      rw [← a, hR] at b
      cases b
    simp only [unifyCanon, hb, isVar, isSeq, isUnion, isGen, Bool.or_self, Bool.false_eq_true, if_false, if_true, unifyGen, hR c,
      if_neg m1, if_neg m2, if_neg m3]
    exact e
  | _, _, .origin (c := c) (d := d) h, ct, cs, _, _ => by
    refine accepts_step ct cs fun q hq hk hf hb => ?_
    have hc : T.cn c = c := by simpa [IsCanon, canon] using ct
    obtain ⟨n, r, e, h2, h3⟩ := accepts_cls hc (canon_gen cs).1 h q hq hk hf
    refine ⟨n, r, ?_, h2, h3⟩
    simp only [unifyCanon, hb, isVar, isSeq, isUnion, isGen, Bool.or_self, Bool.or_true, Bool.false_eq_true, if_false, if_true,
      unifyGen]
    exact e
  | _, _, .bare h, ct, cs, _, _ => by
    refine accepts_now ct cs fun q hb => ?_
    simp [unifyCanon, hb, isVar, isSeq, isUnion, isGen, unifyGen, h]
  | _, _, .tuple (c := c) (ts := ts) (ss := ss) gt hc hsub h, ct, cs, gs, lt => by
    refine accepts_step ct cs fun q hq hk _ hb => ?_
    obtain ⟨n, e⟩ := fold_ground (T := T) (q := q) (ss.map (fun a => (.gen c ts, .gen T.sequence [a]))) (by
      intro p hp
      obtain ⟨a, ha, rfl⟩ := List.mem_map.1 hp
      have ga : Ground (.gen T.sequence [a]) := by
        have := mem_ground (ground_gen gs) ha
        simpa [Ground, fvs, fvsL] using this
      have := (fits_accepts hT hI hR hE (h a ha) ct (canon_isCanon hI _) (ground_canon ga) lt).ground hT gt (ground_canon ga) hq hk
      simpa only [unify_canon hI] using this)
    refine ⟨n, q, ?_, hk, fun _ _ => rfl⟩
    simp only [unifyCanon, hb, isVar, isSeq, isUnion, isGen, Bool.or_self, Bool.false_eq_true, if_false, if_true, unifyGen, hsub,
      ne_eq, hc, not_false_eq_true, and_self]
    exact e
  | _, _, .keys (c := c) (d := d) (a := a) (b := b) (ts := ts) (ss := ss) hsub ht hd h, ct, cs, gs, lt => by
    refine accepts_step ct cs fun q hq hk hf hb => ?_
    have ga : Ground b := mem_ground (ground_gen gs) List.mem_cons_self
    have la : Linear a := by
      simp only [Linear, fvs, fvsL] at lt
      exact (List.nodup_append.1 lt).1
    obtain ⟨n, r, e, h2, h3⟩ := fits_accepts hT hI hR hE h (canon_cons (canon_gen ct).2).1 (canon_cons (canon_gen cs).2).1 ga la
      q hq hk (fun v hv => hf v (by simp [fvs, fvsL, hv]))
    refine ⟨n, r, ?_, h2, fun v hv => h3 v (fun hv' => hv (by simp [fvs, fvsL, hv']))⟩
    have m1 : ¬(d = T.tuple ∧ c ≠ T.tuple) := fun h => h.2 (ht h.1)
    simp only [unifyCanon, hb, isVar, isSeq, isUnion, isGen, Bool.or_self, Bool.false_eq_true, if_false, if_true, unifyGen, hsub,
      if_neg m1]
    split
    · exact e
    · rename_i hm
      rcases hd with hd | hd
      · exact absurd hd hm
      · rw [if_pos hd]
        exact e
  | _, _, .base (c := c) (d := d) (e := e') (f := f) (b := b) (ts := ts) (ss := ss) (pre := pre) (post := post)
      hsub hne ht hmap hgen hbs hpre he hf' h, ct, cs, gs, lt => by
    refine accepts_step ct cs fun q hq hk hf hb => ?_
    have gb : Ground b := hT d e' f ss b (by rw [hbs]; simp) (ground_gen gs) hf'
    obtain ⟨n, r, e, h2, h3⟩ := fits_accepts hT hI hR hE h ct (canon_isCanon hI _) (ground_canon gb) lt q hq hk hf
    rw [unify_canon hI] at e
    refine ⟨n, r, ?_, h2, h3⟩
    have m1 : ¬(d = T.tuple ∧ c ≠ T.tuple) := fun h => h.2 (ht h.1)
    have m2 : ¬(d = T.mapping ∧ T.sub c T.mapping = false) := by
      rintro ⟨x, y⟩
      rw [hmap x] at y
      cases y
    have m3 : ¬(d = T.generator ∧ T.sub c T.generator = false) := by
      rintro ⟨x, y⟩
      rw [hgen x] at y
      cases y
    have hfb : findBase T c (T.bases d) = some f := findBase_split.2 ⟨pre, e', post, hbs, hpre, he⟩
    simp only [unifyCanon, hb, isVar, isSeq, isUnion, isGen, Bool.or_self, Bool.false_eq_true, if_false, if_true, unifyGen, hsub,
      if_neg m1, if_neg m2, if_neg m3, if_neg hne, hfb, hf']
    exact e

theorem fitsL_accepts {T : Table} (hT : GroundTable T) (hI : IdemTable T) (hR : ReflTable T) (hE : Ends T) : ∀ {ts ss : List Ty},
    FitsL T ts ss → canons T ts = ts → canons T ss = ss → fvsL ss = [] → (fvsL ts).Nodup →
    ts.length = ss.length ∧ AcceptsL T ts ss
  | _, _, .nil, _, _, _, _ => ⟨rfl, fun q _ hk _ => ⟨0, q, rfl, hk, fun _ _ => rfl⟩⟩
  | _, _, .cons (t := t) (s := s) (ts := ts) (ss := ss) h hl, ct, cs, gs, lt => by
    simp only [fvsL, List.append_eq_nil_iff] at gs
    simp only [fvsL, List.nodup_append] at lt
    have h1 := fits_accepts hT hI hR hE h (canon_cons ct).1 (canon_cons cs).1 gs.1 lt.1
    obtain ⟨hlen, h2⟩ := fitsL_accepts hT hI hR hE hl (canon_cons ct).2 (canon_cons cs).2 gs.2 lt.2.1
    refine ⟨by simp [hlen], fun q hq hk hf => ?_⟩
    obtain ⟨n, r, e, k1, f1⟩ := h1 q hq hk (fun v hv => hf v (by simp [fvsL, hv]))
    have gr : GroundSubs r := (unify_sound hT hI n t s q r gs.1 hq e).1
    obtain ⟨m, r', e2, k2, f2⟩ := h2 r gr k1 (fun v hv => by
      rw [f1 v (fun hv' => lt.2.2 v hv' v hv rfl)]
      exact hf v (by simp [fvsL, hv]))
    refine ⟨max n m, r', ?_, k2, fun v hv => ?_⟩
    · simp only [List.zip_cons_cons, fold, unify_le T (Nat.le_max_left n m) _ _ _ _ e]
      exact (unify_le T (Nat.le_max_right n m)).fold _ _ _ e2
    · simp only [fvsL, List.mem_append, not_or] at hv
      rw [f2 v hv.2, f1 v hv.1]

end

/-! ## Soundness without variables -/

theorem fitsL_refl {T : Table} : ∀ (ts : List Ty), fvsL ts = [] → FitsL T ts ts
  | [], _ => .nil
  | t :: ts, h => by
    simp only [fvsL, List.append_eq_nil_iff] at h
    exact .cons (.refl h.1) (fitsL_refl ts h.2)

/-- A unification without variables that succeeds is of types that fit. -/
def FitsUni (T : Table) (U : Uni) : Prop := ∀ t s q r, Ground t → Ground s → U t s q = some (some r) →
  Fits T (canon T t) (canon T s)

theorem fold_fits {T : Table} {U : Uni} (hU : FitsUni T U) : ∀ (ps : List (Ty × Ty)) (q r : Subs),
    (∀ p ∈ ps, Ground p.1 ∧ Ground p.2) → fold U ps q = some (some r) →
    ∀ p ∈ ps, Fits T (canon T p.1) (canon T p.2)
  | [], _, _, _, _, _, hp => by cases hp
  | (t, s) :: ps, q, r, hg, h, p, hp => by
    simp only [fold] at h
    cases e : U t s q with
    | none => rw [e] at h; cases h
    | some o =>
      cases o with
      | none => rw [e] at h; cases h
      | some q' =>
        rw [e] at h
        rcases List.mem_cons.1 hp with rfl | hp
        · exact hU t s q q' (hg _ List.mem_cons_self).1 (hg _ List.mem_cons_self).2 e
        · exact fold_fits hU ps q' r (fun p hp => hg p (List.mem_cons_of_mem _ hp)) h p hp

theorem fitsL_zip {T : Table} : ∀ (ts ss : List Ty), ts.length = ss.length → (∀ p ∈ ts.zip ss, Fits T p.1 p.2) → FitsL T ts ss
  | [], [], _, _ => .nil
  | [], _ :: _, h, _ => by cases h
  | _ :: _, [], h, _ => by cases h
  | t :: ts, s :: ss, hl, h =>
    .cons (h (t, s) (by simp)) (fitsL_zip ts ss (by simpa using hl) (fun p hp => h p (by simp [hp])))

theorem unifyCanon_fits {T : Table} (hT : GroundTable T) (hR : ReflTable T) {U : Uni} (hU : FitsUni T U)
    {t s : Ty} {q r : Subs} (ct : IsCanon T t) (cs : IsCanon T s) (ht : Ground t) (hs : Ground s)
    (h : unifyCanon T U t s q = some (some r)) : Fits T t s := by
  simp only [unifyCanon, ground_not_var ht, ground_not_var hs, Bool.or_self, Bool.false_eq_true, if_false] at h
  split at h
  · next hb => rw [beq_eq _ _ hb]; exact .refl hs
  split at h
  · -- sequences
    next hq =>
    unfold unifySeq at h
    split at h
    · next he =>
      cases t <;> cases s <;> first | (simp [isEll] at he; done) | (simp [isSeq] at hq; done) | exact .ellL | exact .ellR
    · split at h
      · split at h
        · next hl =>
          refine .seq (fitsL_zip _ _ hl ?_)
          intro p hp
          obtain ⟨p1, p2⟩ := List.of_mem_zip hp
          have := fold_fits hU _ q r (by
            intro p hp
            obtain ⟨p1, p2⟩ := List.of_mem_zip hp
            exact ⟨mem_ground (ground_seq ht) p1, mem_ground (ground_seq hs) p2⟩) h p hp
          rwa [canon_mem (canon_seq ct) _ p1, canon_mem (canon_seq cs) _ p2] at this
        · cases h
      · cases h
  next hns =>
  simp only [Bool.or_eq_true, not_or, Bool.not_eq_true] at hns
  split at h
  · -- unions
    unfold unifyUnion at h
    split at h
    · rename_i ss _
      refine .unionR ht hns.1 ?_
      intro a ha
      have := fold_fits hU _ q r (by
        intro p hp
        obtain ⟨a, ha, rfl⟩ := List.mem_map.1 hp
        exact ⟨ht, mem_ground (ground_union hs) ha⟩) h (t, a) (List.mem_map.2 ⟨a, ha, rfl⟩)
      rwa [ct, canon_mem (canon_union cs) a ha] at this
    · next hnu =>
      have nu : isUnion s = false := by
        cases s with
        | union ss => exact absurd rfl (hnu ss)
        | _ => rfl
      split at h
      · rename_i ts _ _
        cases e : alternatives U s q ts with
        | none => rw [e] at h; cases h
        | some us =>
          rw [e] at h
          cases us with
          | nil => cases h
          | cons u us =>
            obtain ⟨t, hm, e2⟩ := alternatives_mem ts _ e u List.mem_cons_self
            have := hU t s q u (mem_ground (ground_union ht) hm) hs e2
            rw [canon_mem (canon_union ct) t hm, cs] at this
            exact .unionL ht hns.2 nu hm this
      · cases h
  split at h
  · -- aliases
    unfold unifyGen at h
    split at h
    · rename_i c ts d ss _ _ _
      have hts := ground_gen ht
      have hss := ground_gen hs
      split at h
      · next hsub =>
        split at h
        · next h1 =>
          obtain ⟨rfl, hc⟩ := h1
          refine .tuple ht hc hsub ?_
          intro a ha
          have := fold_fits hU _ q r (by
            intro p hp
            obtain ⟨a, ha, rfl⟩ := List.mem_map.1 hp
            refine ⟨ht, ?_⟩
            have := mem_ground hss ha
            simpa [Ground, fvs, fvsL] using this) h _ (List.mem_map.2 ⟨a, ha, rfl⟩)
          rwa [ct] at this
        · next h1 =>
          have h1' : d = T.tuple → c = T.tuple := fun e =>
            Decidable.byContradiction fun hc => h1 ⟨e, hc⟩
          split at h
          · next h2 =>
            split at h
            · have := hU _ _ q r (mem_ground hts List.mem_cons_self) (mem_ground hss List.mem_cons_self) h
              rw [(canon_cons (canon_gen ct).2).1, (canon_cons (canon_gen cs).2).1] at this
              exact .keys hsub h1' (.inl h2) this
            · cases h
          · next h2 =>
            split at h
            · next h3 =>
              split at h
              · have := hU _ _ q r (mem_ground hts List.mem_cons_self) (mem_ground hss List.mem_cons_self) h
                rw [(canon_cons (canon_gen ct).2).1, (canon_cons (canon_gen cs).2).1] at this
                exact .keys hsub h1' (.inr h3) this
              · cases h
            · next h3 =>
              split at h
              · next h4 =>
                subst h4
                have := hU _ _ q r (by simpa [Ground, fvs] using hts) (by simpa [Ground, fvs] using hss) h
                simp only [canon, (canon_gen ct).2, (canon_gen cs).2] at this
                exact .args (by
                  cases this with
                  | refl _ => exact fitsL_refl _ hss
                  | seq h => exact h
                  | loose h1 _ _ => simp [Atomic] at h1)
              · next h4 =>
                split at h
                · rename_i f hf
                  split at h
                  · rename_i b hb
                    obtain ⟨pre, e, post, hbs, hpre, he⟩ := findBase_split.1 hf
                    have hm : (e, f) ∈ T.bases d := by rw [hbs]; simp
                    have := hU _ _ q r ht (hT _ _ _ _ _ hm hss hb) h
                    rw [ct] at this
                    refine .base hsub h4 h1' ?_ ?_ hbs hpre he hb this
                    · exact fun e => Decidable.byContradiction fun hx => h2 ⟨e, by simpa using hx⟩
                    · exact fun e => Decidable.byContradiction fun hx => h3 ⟨e, by simpa using hx⟩
                  · cases h
                · cases h
      · cases h
    · rename_i c d ss _ _ _
      have := hU _ _ q r (by simp [Ground, fvs]) (by simp [Ground, fvs]) h
      simp only [canon] at this
      rw [(canon_gen cs).1, show T.cn c = c by simpa [IsCanon, canon] using ct] at this
      refine .origin ?_
      cases this with
      | refl _ => exact hR _
      | cls h => exact h
      | loose _ _ h => simp [Loose] at h
    · exact .anyGen
    · split at h
      · next hd => exact .bare hd
      · cases h
    · cases h
  next hng =>
  split at h
  · split at h
    · next hd => exact .cls hd
    · cases h
  · split at h
    · next hl =>
      have vt := ground_not_var ht
      have vs := ground_not_var hs
      cases t <;>
        first
        | (simp [isVar] at vt; done)
        | (simp [isSeq] at hns; done)
        | (simp_all [isUnion]; done)
        | (simp [isGen] at hng; done)
        | (cases s <;>
            first
            | (simp [isVar] at vs; done)
            | (simp [isSeq] at hns; done)
            | (simp_all [isUnion]; done)
            | (simp [isGen] at hng; done)
            | (simp [isAny, isEll] at hl; done)
            | exact .loose (by simp [Atomic]) (by simp [Atomic]) (by simp [Loose]))
    · cases h

theorem unify_fits {T : Table} (hT : GroundTable T) (hI : IdemTable T) (hR : ReflTable T) : ∀ n, FitsUni T (unify T n)
  | 0 => by intro t s q r _ _ h; cases h
  | n + 1 => by
    intro t s q r ht hs h
    exact unifyCanon_fits hT hR (unify_fits hT hI hR n) (canon_isCanon hI t) (canon_isCanon hI s) (ground_canon ht)
      (ground_canon hs) h

theorem unify_canons {T : Table} (hI : IdemTable T) (n : Nat) (t s : Ty) (q : Subs) :
    unify T n (canon T t) (canon T s) q = unify T n t s q := by
  cases n with
  | zero => rfl
  | succ n =>
    show unifyCanon T (unify T n) (canon T (canon T t)) (canon T (canon T s)) q =
      unifyCanon T (unify T n) (canon T t) (canon T s) q
    rw [canon_idem hI, canon_idem hI]

/-! ## Theorems -/

/-- `unify(t, s, subs)` succeeds if the type `s`, without variables, fits `t`, no variable occurs twice in `t`, and `subs` does
not bind them. It binds variables of `t` only. -/
theorem C106_accepts_partial {T : Table} {μ : Ty → Nat} (hT : GroundTable T) (hI : IdemTable T) (hR : ReflTable T)
    (hμ : Measured T μ) {t s : Ty} (hs : Ground s) (hl : Linear t) (h : Fits T (canon T t) (canon T s)) {q : Subs}
    (hq : GroundSubs q) (hk : KeysOnce q) (hf : ∀ v ∈ fvs t, get q v = none) :
    ∃ N r, (∀ n ≥ N, unify T n t s q = some (some r)) ∧ ∀ v, v ∉ fvs t → get r v = get q v := by
  have hE : Ends T := fun t s q hs hq => by
    obtain ⟨N, x, e⟩ := C33_unify_partial hT hI hμ t hs hq
    exact ⟨N, x, e N (Nat.le_refl _)⟩
  obtain ⟨n, r, e, _, h3⟩ := fits_accepts hT hI hR hE h (canon_isCanon hI t) (canon_isCanon hI s) (ground_canon hs)
    (by unfold Linear; rw [fvs_canon]; exact hl) q hq hk (by rw [fvs_canon]; exact hf)
  rw [unify_canons hI] at e
  rw [fvs_canon] at h3
  exact ⟨n, r, fun m hm => unify_le T hm _ _ _ _ e, h3⟩

/-- The types of the arguments of a call fit the annotations of the parameters. -/
theorem C106_signature_partial {T : Table} {μ : Ty → Nat} (hT : GroundTable T) (hI : IdemTable T) (hR : ReflTable T)
    (hμ : Measured T μ) {ps : List (Ty × Ty)} (hs : ∀ p ∈ ps, Ground p.2) (hl : (fvsL (ps.map (·.1))).Nodup)
    (h : ∀ p ∈ ps, Fits T (canon T p.1) (canon T p.2)) {q : Subs} (hq : GroundSubs q) (hk : KeysOnce q)
    (hf : ∀ v ∈ fvsL (ps.map (·.1)), get q v = none) :
    ∃ N r, (∀ n ≥ N, unifySignature T n ps q = some (some r)) ∧ ∀ v, v ∉ fvsL (ps.map (·.1)) → get r v = get q v := by
  have hE : Ends T := fun t s q hs hq => by
    obtain ⟨N, x, e⟩ := C33_unify_partial hT hI hμ t hs hq
    exact ⟨N, x, e N (Nat.le_refl _)⟩
  suffices hC : ∀ (ps : List (Ty × Ty)) (q : Subs), (∀ p ∈ ps, Ground p.2) → (fvsL (ps.map (·.1))).Nodup →
      (∀ p ∈ ps, Fits T (canon T p.1) (canon T p.2)) → GroundSubs q → KeysOnce q →
      (∀ v ∈ fvsL (ps.map (·.1)), get q v = none) →
      ∃ n r, fold (unify T n) ps q = some (some r) ∧ ∀ v, v ∉ fvsL (ps.map (·.1)) → get r v = get q v by
    obtain ⟨n, r, e, h3⟩ := hC ps q hs hl h hq hk hf
    exact ⟨n, r, fun m hm => (unify_le T hm).fold _ _ _ e, h3⟩
  clear hs hl h hq hk hf q ps
  intro ps
  induction ps with
  | nil => exact fun q _ _ _ _ _ _ => ⟨0, q, rfl, fun _ _ => rfl⟩
  | cons p ps ih =>
    intro q hs hl h hq hk hf
    obtain ⟨t, s⟩ := p
    simp only [List.map_cons, fvsL, List.nodup_append] at hl
    have gs := hs _ List.mem_cons_self
    obtain ⟨n, r, e, k1, f1⟩ := fits_accepts hT hI hR hE (h _ List.mem_cons_self) (canon_isCanon hI t) (canon_isCanon hI s)
      (ground_canon gs) (by unfold Linear; rw [fvs_canon]; exact hl.1) q hq hk
      (by rw [fvs_canon]; exact fun v hv => hf v (by simp [fvsL, hv]))
    rw [unify_canons hI] at e
    rw [fvs_canon] at f1
    have gr : GroundSubs r := (unify_sound hT hI n t s q r gs hq e).1
    obtain ⟨m, r', e2, f2⟩ := ih r (fun p hp => hs p (List.mem_cons_of_mem _ hp)) hl.2.1
      (fun p hp => h p (List.mem_cons_of_mem _ hp)) gr k1 (fun v hv => by
        rw [f1 v (fun hv' => hl.2.2 v hv' v hv rfl)]
        exact hf v (by simp only [List.map_cons, fvsL, List.mem_append]; exact .inr hv))
    refine ⟨max n m, r', ?_, fun v hv => ?_⟩
    · simp only [fold, unify_le T (Nat.le_max_left n m) _ _ _ _ e]
      exact (unify_le T (Nat.le_max_right n m)).fold _ _ _ e2
    · simp only [List.map_cons, fvsL, List.mem_append, not_or] at hv
      rw [f2 v hv.2, f1 v hv.1]

/-- On types without variables `unify` decides whether the second fits the first: it returns the given substitution, or raises
TypeError. -/
theorem C106_decides {T : Table} {μ : Ty → Nat} (hT : GroundTable T) (hI : IdemTable T) (hR : ReflTable T)
    (hμ : Measured T μ) {t s : Ty} (ht : Ground t) (hs : Ground s) {q : Subs} (hq : GroundSubs q) (hk : KeysOnce q) :
    (Fits T (canon T t) (canon T s) → ∃ N, ∀ n ≥ N, unify T n t s q = some (some q)) ∧
    (¬ Fits T (canon T t) (canon T s) → ∃ N, ∀ n ≥ N, unify T n t s q = some none) := by
  obtain ⟨N, x, e⟩ := C33_unify_partial hT hI hμ t hs hq
  refine ⟨fun h => ?_, fun h => ?_⟩
  · obtain ⟨M, r, e2, _⟩ := C106_accepts_partial hT hI hR hμ hs (by unfold Linear; rw [ht]; exact List.nodup_nil) h hq hk
      (fun v hv => by rw [ht] at hv; cases hv)
    have := unify_keeps hT M t s q r ht hs (e2 M (Nat.le_refl _))
    subst this
    exact ⟨M, e2⟩
  · cases x with
    | none => exact ⟨N, e⟩
    | some r => exact absurd (unify_fits hT hI hR N t s q r ht hs (e N (Nat.le_refl _))) h

/-! ### Unions -/

/-- The members of a union are neither unions nor parameter lists, as in Python. -/
def FlatU (ts : List Ty) : Prop := ∀ t ∈ ts, isUnion t = false ∧ isSeq t = false

theorem isUnion_canon (T : Table) (t : Ty) : isUnion (canon T t) = isUnion t := by cases t <;> simp [canon, isUnion]
theorem isSeq_canon (T : Table) (t : Ty) : isSeq (canon T t) = isSeq t := by cases t <;> simp [canon, isSeq]

theorem flatU_canons {T : Table} {ts : List Ty} (h : FlatU ts) : FlatU (canons T ts) := by
  intro t ht
  rw [canons_eq_map] at ht
  obtain ⟨u, hu, rfl⟩ := List.mem_map.1 ht
  rw [isUnion_canon, isSeq_canon]
  exact h u hu

theorem fits_wider {T : Table} {ts ts' : List Ty} (hf : FlatU ts) (hg' : Ground (.union ts')) (hsub : ∀ t ∈ ts, t ∈ ts') {s : Ty}
    (hs : ∀ ss, s = .union ss → FlatU ss) (h : Fits T (.union ts) s) : Fits T (.union ts') s := by
  -- types that are not unions
  have one : ∀ s, isUnion s = false → Fits T (.union ts) s → Fits T (.union ts') s := by
    intro s nu h
    cases h with
    | refl _ => cases nu
    | loose h _ _ => simp [Atomic] at h
    | unionR _ _ _ => cases nu
    | unionL _ ns nu ht h => exact .unionL hg' ns nu (hsub _ ht) h
  cases e : isUnion s with
  | false => exact one s e h
  | true =>
    cases s with
    | union ss =>
      have hss := hs ss rfl
      cases h with
      | refl _ =>
        refine .unionR hg' rfl fun a ha => ?_
        exact .unionL hg' (hf a ha).2 (hf a ha).1 (hsub a ha) (.refl (mem_ground (ground_union hg') (hsub a ha)))
      | unionR _ _ h => exact .unionR hg' rfl fun a ha => one a (hss a ha).1 (h a ha)
      | unionL _ _ nu _ _ => cases nu
      | loose h _ _ => simp [Atomic] at h
    | _ => cases e

theorem fits_narrower {T : Table} {t : Ty} {ss ss' : List Ty} (hf : FlatU ss) (ht : Ground t) (hsub : ∀ s ∈ ss', s ∈ ss)
    (h : Fits T t (.union ss)) : Fits T t (.union ss') := by
  cases h with
  | var v _ => simp [Ground, fvs] at ht
  | refl _ =>
    refine .unionR ht rfl fun a ha => ?_
    have hm := hsub a ha
    exact .unionL ht (hf a hm).2 (hf a hm).1 hm (.refl (mem_ground (ground_union ht) hm))
  | loose _ h _ => simp [Atomic] at h
  | unionR g ns h => exact .unionR g ns fun a ha => h a (hsub a ha)
  | unionL _ _ nu _ _ => cases nu

theorem mem_canons {T : Table} {ts ts' : List Ty} (h : ∀ t ∈ ts, t ∈ ts') : ∀ t ∈ canons T ts, t ∈ canons T ts' := by
  intro t ht
  rw [canons_eq_map] at ht ⊢
  obtain ⟨u, hu, rfl⟩ := List.mem_map.1 ht
  exact List.mem_map.2 ⟨u, h u hu, rfl⟩

theorem accepts_fits {T : Table} (hT : GroundTable T) (hI : IdemTable T) (hR : ReflTable T) {t s : Ty} (ht : Ground t)
    (hs : Ground s) {q r : Subs} {n : Nat} (h : unify T n t s q = some (some r)) : Fits T (canon T t) (canon T s) :=
  unify_fits hT hI hR n t s q r ht hs h

/-- An annotation that is a union without variables accepts what a union of some of its members accepts. So neither the order
nor the repetition of members matters. -/
theorem C106_union_wider {T : Table} {μ : Ty → Nat} (hT : GroundTable T) (hI : IdemTable T) (hR : ReflTable T)
    (hμ : Measured T μ) {ts ts' : List Ty} (hf : FlatU ts) (hg : Ground (.union ts)) (hg' : Ground (.union ts'))
    (hsub : ∀ t ∈ ts, t ∈ ts') {s : Ty} (hgs : Ground s) (hs : ∀ ss, s = .union ss → FlatU ss) {q : Subs} (hq : GroundSubs q)
    (hk : KeysOnce q) {n : Nat} (h : unify T n (.union ts) s q = some (some q)) :
    ∃ N, ∀ n ≥ N, unify T n (.union ts') s q = some (some q) := by
  refine (C106_decides hT hI hR hμ hg' hgs hq hk).1 ?_
  have := accepts_fits hT hI hR hg hgs h
  simp only [canon] at this ⊢
  refine fits_wider (flatU_canons hf) ?_ (mem_canons hsub) ?_ this
  · have := ground_canon (T := T) hg'
    simpa only [canon] using this
  · intro ss e
    cases s <;> simp only [canon] at e <;> cases e
    exact flatU_canons (hs _ rfl)

/-- An argument whose type is a union without variables is accepted where an argument of a wider union is. -/
theorem C106_union_narrower {T : Table} {μ : Ty → Nat} (hT : GroundTable T) (hI : IdemTable T) (hR : ReflTable T)
    (hμ : Measured T μ) {t : Ty} {ss ss' : List Ty} (hf : FlatU ss) (ht : Ground t) (hg : Ground (.union ss))
    (hg' : Ground (.union ss')) (hsub : ∀ s ∈ ss', s ∈ ss) {q : Subs} (hq : GroundSubs q) (hk : KeysOnce q) {n : Nat}
    (h : unify T n t (.union ss) q = some (some q)) : ∃ N, ∀ n ≥ N, unify T n t (.union ss') q = some (some q) := by
  refine (C106_decides hT hI hR hμ ht hg' hq hk).1 ?_
  have := accepts_fits hT hI hR ht hg h
  simp only [canon] at this ⊢
  exact fits_narrower (flatU_canons hf) (ground_canon ht) (mem_canons hsub) this

/-! ### Examples -/

theorem exT_refl : ReflTable exT := by
  intro c
  simp [exT]

theorem groundSubs_nil : GroundSubs [] := fun _ _ h => by cases h

/-- `tuple[T, Sequence[S], int | Any]` fits `tuple[bool, list[int], bool]`; `list` is canonicalised. -/
example : Fits exT (canon exT (ttuple [.var 0, tseq (.var 1), .union [Cls.int.ty, tlist .any]]))
    (canon exT (ttuple [Cls.bool.ty, tlist Cls.int.ty, Cls.bool.ty])) := by
  refine .args (.cons (.var _ _) (.cons ?_ (.cons ?_ .nil)))
  · exact .base (f := fun ts => some (.gen 4 ts)) (b := .gen 4 [Cls.int.ty]) (e := 4) (pre := []) (post := []) rfl (by decide)
      (by intro h; cases h) (by intro h; cases h) (by intro h; cases h) rfl (by simp) rfl rfl (.args (.cons (.var _ _) .nil))
  · exact .unionL rfl rfl rfl List.mem_cons_self (.cls rfl)

example : Linear (ttuple [.var 0, tseq (.var 1), .union [Cls.int.ty, tlist .any]]) := by
  unfold Linear
  decide

/-- Types that do not fit. -/
example : ¬ Fits exT (tseq Cls.bool.ty) (ttuple [Cls.bool.ty, Cls.int.ty]) := by
  intro h
  obtain ⟨N, hN⟩ := (C106_decides exT_ground exT_idem exT_refl exT_measured (t := tseq Cls.bool.ty)
    (s := ttuple [Cls.bool.ty, Cls.int.ty]) rfl rfl groundSubs_nil List.nodup_nil).1 h
  have h1 := hN (max N 10) (Nat.le_max_left _ _)
  have h2 : unify exT 10 (tseq Cls.bool.ty) (ttuple [Cls.bool.ty, Cls.int.ty]) [] = some none := rfl
  rw [unify_le exT (Nat.le_max_right N 10) _ _ _ _ h2] at h1
  cases h1

/-- `int | list[bool]` accepts `bool`, hence so does `list[bool] | Any | int`. -/
example : ∃ N, ∀ n ≥ N, unify exT n (.union [tlist Cls.bool.ty, .any, Cls.int.ty]) Cls.bool.ty [] = some (some []) :=
  C106_union_wider exT_ground exT_idem exT_refl exT_measured (ts := [Cls.int.ty, tlist Cls.bool.ty])
    (ts' := [tlist Cls.bool.ty, .any, Cls.int.ty]) (s := Cls.bool.ty)
    (by intro t ht; simp only [List.mem_cons, List.not_mem_nil, or_false] at ht; rcases ht with rfl | rfl <;> exact ⟨rfl, rfl⟩)
    rfl rfl (by intro t ht; simp only [List.mem_cons, List.not_mem_nil, or_false] at ht; rcases ht with rfl | rfl <;> simp) rfl
    (by intro ss h; cases h) groundSubs_nil List.nodup_nil (n := 10) rfl

/-- `int` accepts `int | bool`, hence also `bool`, written as a union. -/
example : ∃ N, ∀ n ≥ N, unify exT n Cls.int.ty (.union [Cls.bool.ty]) [] = some (some []) :=
  C106_union_narrower exT_ground exT_idem exT_refl exT_measured (t := Cls.int.ty) (ss := [Cls.int.ty, Cls.bool.ty]) (ss' := [Cls.bool.ty])
    (by intro t ht; simp only [List.mem_cons, List.not_mem_nil, or_false] at ht; rcases ht with rfl | rfl <;> exact ⟨rfl, rfl⟩)
    rfl rfl rfl (by simp) groundSubs_nil List.nodup_nil (n := 10) rfl

/-- A call of `f(x: T, y: list[S])` with an `int` and a `list[bool]`. -/
example : ∃ N r, (∀ n ≥ N, unifySignature exT n [(.var 0, Cls.int.ty), (tlist (.var 1), tlist Cls.bool.ty)] [] = some (some r)) ∧
    ∀ v, v ∉ [0, 1] → get r v = get [] v :=
  C106_signature_partial exT_ground exT_idem exT_refl exT_measured
    (ps := [(.var 0, Cls.int.ty), (tlist (.var 1), tlist Cls.bool.ty)])
    (by intro p hp; simp only [List.mem_cons, List.not_mem_nil, or_false] at hp; rcases hp with rfl | rfl <;> rfl) (by decide)
    (by
      intro p hp
      simp only [List.mem_cons, List.not_mem_nil, or_false] at hp
      rcases hp with rfl | rfl
      · exact .var _ _
      · exact .args (.cons (.var _ _) .nil))
    groundSubs_nil List.nodup_nil (fun _ _ => rfl)

/-! ## Where the property fails -/

/-- An argument of type `Any` is accepted for `int` but not for `list[int]`. -/
theorem C106_any_fails : ∃ (T : Table) (t a : Ty), GroundTable T ∧ IdemTable T ∧ Ground t ∧ Ground a ∧
    unify T 10 a .any [] = some (some []) ∧ ∀ n, unify T (n + 1) t .any [] = some none :=
  ⟨exT, tlist Cls.int.ty, Cls.int.ty, exT_ground, exT_idem, rfl, rfl, rfl, fun _ => rfl⟩

/-- `T | int` rejects an argument of type `int`, though each of its members accepts it: the unifiers differ. -/
theorem C106_union_fails : ∃ (T : Table) (a b s : Ty) (r1 r2 : Subs), GroundTable T ∧ IdemTable T ∧ Ground s ∧
    Linear (.union [a, b]) ∧ unify T 10 a s [] = some (some r1) ∧ unify T 10 b s [] = some (some r2) ∧
    ∀ n, unify T (n + 3) (.union [a, b]) s [] = some none :=
  ⟨exT, .var 0, Cls.int.ty, Cls.int.ty, _, _, exT_ground, exT_idem, rfl, by unfold Linear; decide, rfl, rfl, fun _ => rfl⟩

/-- With a variable the order of a union on the right matters: `list[T]` accepts `list[int] | list[bool]` but not
`list[bool] | list[int]`. -/
theorem C106_order_fails : ∃ (T : Table) (t a b : Ty) (r : Subs), GroundTable T ∧ IdemTable T ∧ Ground a ∧ Ground b ∧
    Linear t ∧ unify T 10 t (.union [a, b]) [] = some (some r) ∧ unify T 10 t (.union [b, a]) [] = some none :=
  ⟨exT, tlist (.var 0), tlist Cls.int.ty, tlist Cls.bool.ty, _, exT_ground, exT_idem, rfl, rfl, by unfold Linear; decide, rfl, rfl⟩

/-- `Sequence[T]` rejects `tuple[bool, int]`, which fits `Sequence[int]`. -/
theorem C106_tuple_fails : ∃ (T : Table) (t s : Ty) (r : Subs), GroundTable T ∧ IdemTable T ∧ GroundSubs r ∧ Linear t ∧ Ground s ∧
    unify T 10 (inst r t) s [] = some (some []) ∧ unify T 10 t s [] = some none := by
  refine ⟨exT, tseq (.var 0), ttuple [Cls.bool.ty, Cls.int.ty], [(0, Cls.int.ty)], exT_ground, exT_idem, ?_,
    by unfold Linear; decide, rfl, rfl, rfl⟩
  intro v t h
  simp only [get, List.lookup] at h
  split at h
  · cases h; rfl
  · cases h

end Verif.Unify
