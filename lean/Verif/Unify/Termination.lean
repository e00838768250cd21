import Verif.Unify.C33

/-!
# C33: termination of `unify` on types without type variables
-/

namespace Verif.Unify

/-! ## Specification -/

/-- A measure of types that decreases to the parts of a type, to the views of a tuple as sequences of its
components, and to the bases of a generic class. In Python bases are defined before the class, so such a
measure exists. -/
structure Measured (T : Table) (μ : Ty → Nat) : Prop where
  canon : ∀ s, μ (canon T s) ≤ μ s
  seq : ∀ s ss, s ∈ ss → μ s < μ (.seq ss)
  union : ∀ s ss, s ∈ ss → μ s < μ (.union ss)
  args : ∀ d ss, μ (.seq ss) < μ (.gen d ss)
  arg : ∀ d ss s, s ∈ ss → μ s < μ (.gen d ss)
  origin : ∀ d ss, μ (.con d) < μ (.gen d ss)
  tuple : ∀ s ss, s ∈ ss → μ (.gen T.sequence [s]) < μ (.gen T.tuple ss)
  base : ∀ d e f ss b, (e, f) ∈ T.bases d → f ss = some b → μ b < μ (.gen d ss)

/-! ## More fuel does not change the result -/

def Below (U V : Uni) : Prop := ∀ t s q x, U t s q = some x → V t s q = some x

theorem Below.fold {U V : Uni} (h : Below U V) : ∀ ps q x, fold U ps q = some x → fold V ps q = some x := by
  intro ps
  induction ps with
  | nil => intro q x e; exact e
  | cons p ps ih =>
    intro q x e
    obtain ⟨t, s⟩ := p
    simp only [Unify.fold] at e ⊢
    cases hU : U t s q with
    | none => rw [hU] at e; cases e
    | some y =>
      rw [h _ _ _ _ hU]
      rw [hU] at e
      cases y with
      | none => exact e
      | some r => exact ih r x e

theorem Below.alternatives {U V : Uni} (h : Below U V) {s : Ty} {q : Subs} : ∀ ts us,
    alternatives U s q ts = some us → alternatives V s q ts = some us := by
  intro ts
  induction ts with
  | nil => intro us e; exact e
  | cons t ts ih =>
    intro us e
    simp only [Unify.alternatives] at e ⊢
    cases hU : U t s q with
    | none => rw [hU] at e; cases e
    | some y =>
      rw [h _ _ _ _ hU]
      rw [hU] at e
      cases ha : Unify.alternatives U s q ts with
      | none => rw [ha] at e; cases y <;> cases e
      | some us' => rw [ih us' ha]; rw [ha] at e; exact e

theorem Below.unifyVar {T : Table} {U V : Uni} (h : Below U V) (t s : Ty) (q : Subs) (x : Option Subs)
    (e : unifyVar T U t s q = some x) : unifyVar T V t s q = some x := by
  cases t with
  | var a =>
    cases s with
    | var b => exact e
    | _ => exact h _ _ _ _ e
  | _ =>
    cases s with
    | var b =>
      simp only [Unify.unifyVar] at e ⊢
      split at e
      · next hb => rw [if_pos hb]; exact h _ _ _ _ e
      · next hb => rw [if_neg hb]; exact e
    | _ => exact e

theorem Below.unifySeq {U V : Uni} (h : Below U V) (t s : Ty) (q : Subs) (x : Option Subs)
    (e : unifySeq U t s q = some x) : unifySeq V t s q = some x := by
  unfold Unify.unifySeq at e ⊢
  split
  · next hb => rw [if_pos hb] at e; exact e
  · next hb =>
    rw [if_neg hb] at e
    split
    · simp only at e
      split
      · next hl => rw [if_pos hl] at e; exact h.fold _ _ _ e
      · next hl => rw [if_neg hl] at e; exact e
    · next hne =>
      split at e
      · exact absurd rfl (hne _ _ rfl)
      · exact e

theorem Below.unifyUnion {U V : Uni} (h : Below U V) (t s : Ty) (q : Subs) (x : Option Subs)
    (e : unifyUnion U t s q = some x) : unifyUnion V t s q = some x := by
  cases s with
  | union ss => exact h.fold _ _ _ e
  | _ =>
    cases t with
    | union ts =>
      simp only [Unify.unifyUnion] at e ⊢
      split at e
      · cases e
      · next ha => rw [h.alternatives _ _ ha]; exact e
      · next ha => rw [h.alternatives _ _ ha]; exact e
    | _ => exact e

theorem Below.unifyGen {T : Table} {U V : Uni} (h : Below U V) (t s : Ty) (q : Subs) (x : Option Subs)
    (e : unifyGen T U t s q = some x) : unifyGen T V t s q = some x := by
  cases t with
  | gen c ts =>
    cases s with
    | gen d ss =>
      simp only [Unify.unifyGen] at e ⊢
      split
      · next h1 =>
        rw [if_pos h1] at e
        split
        · next h2 => rw [if_pos h2] at e; exact h.fold _ _ _ e
        · next h2 =>
          rw [if_neg h2] at e
          split
          · next h3 =>
            rw [if_pos h3] at e
            cases ts with
            | nil => exact e
            | cons a ts =>
              cases ss with
              | nil => exact e
              | cons b ss => exact h _ _ _ _ e
          · next h3 =>
            rw [if_neg h3] at e
            split
            · next h4 =>
              rw [if_pos h4] at e
              cases ts with
              | nil => exact e
              | cons a ts =>
                cases ss with
                | nil => exact e
                | cons b ss => exact h _ _ _ _ e
            · next h4 =>
              rw [if_neg h4] at e
              split
              · next h5 => rw [if_pos h5] at e; exact h _ _ _ _ e
              · next h5 =>
                rw [if_neg h5] at e
                cases hf : findBase T c (T.bases d) with
                | none => rw [hf] at e; exact e
                | some f =>
                  rw [hf] at e
                  simp only at e ⊢
                  cases hb : f ss with
                  | none => rw [hb] at e; exact e
                  | some b => rw [hb] at e; exact h _ _ _ _ e
      · next h1 => rw [if_neg h1] at e; exact e
    | _ => exact e
  | con c =>
    cases s with
    | gen d ss => exact h _ _ _ _ e
    | _ => exact e
  | any =>
    cases s with
    | gen d ss => exact h _ _ _ _ e
    | _ => exact e
  | _ => cases s <;> exact e

theorem Below.unifyCanon {T : Table} {U V : Uni} (h : Below U V) (t s : Ty) (q : Subs) (x : Option Subs)
    (e : unifyCanon T U t s q = some x) : unifyCanon T V t s q = some x := by
  unfold Unify.unifyCanon at e ⊢
  split
  · next h1 => rw [if_pos h1] at e; exact e
  · next h1 =>
    rw [if_neg h1] at e
    split
    · next h2 => rw [if_pos h2] at e; exact h.unifyVar _ _ _ _ e
    · next h2 =>
      rw [if_neg h2] at e
      split
      · next h3 => rw [if_pos h3] at e; exact h.unifySeq _ _ _ _ e
      · next h3 =>
        rw [if_neg h3] at e
        split
        · next h4 => rw [if_pos h4] at e; exact h.unifyUnion _ _ _ _ e
        · next h4 =>
          rw [if_neg h4] at e
          split
          · next h5 => rw [if_pos h5] at e; exact h.unifyGen _ _ _ _ e
          · next h5 => rw [if_neg h5] at e; exact e

theorem unify_below (T : Table) : ∀ n, Below (unify T n) (unify T (n + 1)) := by
  intro n
  induction n with
  | zero => intro t s q x e; cases e
  | succ n ih => intro t s q x e; exact ih.unifyCanon _ _ _ _ e

theorem Below.trans {U V W : Uni} (h1 : Below U V) (h2 : Below V W) : Below U W :=
  fun _ _ _ _ e => h2 _ _ _ _ (h1 _ _ _ _ e)

theorem unify_le (T : Table) {n m : Nat} (h : n ≤ m) : Below (unify T n) (unify T m) := by
  induction h with
  | refl => exact fun _ _ _ _ e => e
  | step _ ih => exact ih.trans (unify_below T _)

/-! ## Termination -/

/-- Some amount of fuel suffices. -/
def Enough (T : Table) (t s : Ty) (q : Subs) : Prop := ∃ n x, unify T n t s q = some x

theorem enough_fold {T : Table} (hT : GroundTable T) (hI : IdemTable T) : ∀ ps q, GroundSubs q →
    (∀ p ∈ ps, Ground p.2) → (∀ p ∈ ps, ∀ q, GroundSubs q → Enough T p.1 p.2 q) →
    ∃ n x, fold (unify T n) ps q = some x := by
  intro ps
  induction ps with
  | nil => intro q _ _ _; exact ⟨0, some q, rfl⟩
  | cons p ps ih =>
    intro q hq hg h
    obtain ⟨t, s⟩ := p
    obtain ⟨n, x, e⟩ := h _ List.mem_cons_self q hq
    cases x with
    | none => exact ⟨n, none, by simp only [fold, e]⟩
    | some r =>
      have hr : GroundSubs r := (unify_sound hT hI n t s q r (hg _ List.mem_cons_self) hq e).1
      obtain ⟨m, y, e2⟩ := ih r hr (fun p hp => hg p (List.mem_cons_of_mem _ hp))
        (fun p hp => h p (List.mem_cons_of_mem _ hp))
      refine ⟨max n m, y, ?_⟩
      have e1 := unify_le T (Nat.le_max_left n m) _ _ _ _ e
      have e3 := (unify_le T (Nat.le_max_right n m)).fold _ _ _ e2
      simp only [fold, e1]
      exact e3

theorem enough_alternatives {T : Table} {s : Ty} {q : Subs} : ∀ ts,
    (∀ t ∈ ts, Enough T t s q) → ∃ n us, alternatives (unify T n) s q ts = some us := by
  intro ts
  induction ts with
  | nil => intro _; exact ⟨0, [], rfl⟩
  | cons t ts ih =>
    intro h
    obtain ⟨n, x, e⟩ := h t List.mem_cons_self
    obtain ⟨m, us, e2⟩ := ih (fun t ht => h t (List.mem_cons_of_mem _ ht))
    have e1 := unify_le T (Nat.le_max_left n m) _ _ _ _ e
    have e3 := (unify_le T (Nat.le_max_right n m)).alternatives _ _ e2
    cases x with
    | none => exact ⟨max n m, us, by simp only [alternatives, e1, e3]⟩
    | some r => exact ⟨max n m, r :: us, by simp only [alternatives, e1, e3]⟩

/-- A step of `unify` on canonical types that ends. -/
def EnoughC (T : Table) (t s : Ty) (q : Subs) : Prop := ∃ n x, unifyCanon T (unify T n) t s q = some x

mutual
/-- The number of constructors. -/
def tsz : Ty → Nat
  | .gen _ ts => 1 + tszs ts
  | .union ts => 1 + tszs ts
  | .seq ts => 1 + tszs ts
  | _ => 1
termination_by structural t => t
def tszs : List Ty → Nat
  | [] => 0
  | t :: ts => tsz t + tszs ts
termination_by structural t => t
end

mutual
theorem tsz_canon (T : Table) : ∀ t, tsz (canon T t) = tsz t
  | .var n => rfl
  | .con c => rfl
  | .any => rfl
  | .ell => rfl
  | .gen c ts => by simp [canon, tsz, tszs_canons T ts]
  | .union ts => by simp [canon, tsz, tszs_canons T ts]
  | .seq ts => by simp [canon, tsz, tszs_canons T ts]
theorem tszs_canons (T : Table) : ∀ ts, tszs (canons T ts) = tszs ts
  | [] => rfl
  | t :: ts => by simp [canons, tszs, tsz_canon T t, tszs_canons T ts]
end

theorem tsz_le_tszs {t : Ty} : ∀ {ts}, t ∈ ts → tsz t ≤ tszs ts := by
  intro ts
  induction ts with
  | nil => intro h; cases h
  | cons u us ih =>
    intro h
    simp only [tszs]
    rcases List.mem_cons.1 h with e | h
    · subst e; omega
    · have := ih h; omega

theorem enough_main {T : Table} {μ : Ty → Nat} (hT : GroundTable T) (hI : IdemTable T)
    (hμ : Measured T μ) : ∀ m, ∀ g : Bool, ∀ k, ∀ t s q, μ s < m → tsz t < k → (g = false → Ground t) →
      Ground s → GroundSubs q → Enough T t s q := by
  intro m
  induction m with
  | zero => intro g k t s q h; omega
  | succ m ihm =>
    -- smaller `s`
    have small : ∀ t s q, μ s < m → Ground s → GroundSubs q → Enough T t s q := fun t s q h hs hq =>
      ihm true _ t s q h (Nat.lt_succ_self _) (by simp) hs hq
    have level : ∀ g : Bool, (g = true → ∀ t s q, μ s < m + 1 → Ground t → Ground s → GroundSubs q →
        Enough T t s q) → ∀ k, ∀ t s q, μ s < m + 1 → tsz t < k → (g = false → Ground t) →
        Ground s → GroundSubs q → Enough T t s q := by
      intro g hg k
      induction k with
      | zero => intro t s q _ h; omega
      | succ k ihk =>
        intro t0 s0 q hm0 hk0 ht0 hs0 hq
        -- the step on canonical types
        suffices hC : EnoughC T (canon T t0) (canon T s0) q by
          obtain ⟨n, x, e⟩ := hC
          exact ⟨n + 1, x, e⟩
        have hm : μ (canon T s0) < m + 1 := Nat.lt_of_le_of_lt (hμ.canon s0) hm0
        have hk : tsz (canon T t0) < k + 1 := by rw [tsz_canon]; exact hk0
        have ht : g = false → Ground (canon T t0) := fun h => ground_canon (ht0 h)
        have hs : Ground (canon T s0) := ground_canon hs0
        generalize canon T t0 = t at hk ht
        generalize canon T s0 = s at hm hs
        clear hm0 hk0 ht0 hs0
        have hvar : ∀ b, s ≠ .var b := by
          intro b e; subst e; simp [Ground, fvs] at hs
        unfold EnoughC unifyCanon
        by_cases h1 : Ty.beq t s = true
        · exact ⟨0, _, if_pos h1⟩
        simp only [if_neg h1]
        by_cases h2 : (isVar t || isVar s) = true
        · simp only [if_pos h2]
          cases t with
          | var a =>
            have hgt : g = true := by
              cases g with
              | true => rfl
              | false => exact absurd (ht rfl) (by simp [Ground, fvs])
            have hadd := ground_add (v := a) hq hs
            have hget : get (add a s q) a = some ((get q a).getD s) := by rw [get_add]; simp
            obtain ⟨n, x, e⟩ := hg hgt _ s (add a s q) hm (hadd a _ hget) hs hadd
            refine ⟨n, x, ?_⟩
            cases s with
            | var b => exact absurd rfl (hvar b)
            | _ => exact e
          | _ =>
            cases s with
            | var b => exact absurd rfl (hvar b)
            | _ => exact ⟨0, none, rfl⟩
        simp only [if_neg h2]
        by_cases h3 : (isSeq t || isSeq s) = true
        · simp only [if_pos h3]
          unfold unifySeq
          by_cases h4 : (isEll t || isEll s) = true
          · exact ⟨0, _, if_pos h4⟩
          simp only [if_neg h4]
          cases t with
          | seq ts =>
            cases s with
            | seq ss =>
              simp only
              by_cases hl : ts.length = ss.length
              · simp only [if_pos hl]
                have hss : fvsL ss = [] := by simpa [Ground, fvs] using hs
                refine enough_fold hT hI _ q hq ?_ ?_
                · intro p hp; exact mem_ground hss (List.of_mem_zip hp).2
                · intro p hp q' hq'
                  have h5 := hμ.seq p.2 ss (List.of_mem_zip hp).2
                  exact small _ _ _ (by omega) (mem_ground hss (List.of_mem_zip hp).2) hq'
              · exact ⟨0, none, if_neg hl⟩
            | _ => exact ⟨0, none, rfl⟩
          | _ => exact ⟨0, none, rfl⟩
        simp only [if_neg h3]
        by_cases h4 : (isUnion t || isUnion s) = true
        · simp only [if_pos h4]
          have left : (∀ ss, s ≠ .union ss) → ∃ n x, unifyUnion (unify T n) t s q = some x := by
            intro hns
            cases t with
            | union ts =>
              have : ∃ n us, alternatives (unify T n) s q ts = some us := by
                refine enough_alternatives ts (fun t' ht' => ihk t' s q hm ?_ ?_ hs hq)
                · have := tsz_le_tszs ht'
                  simp only [tsz] at hk
                  omega
                · intro hf
                  have := ht hf
                  exact mem_ground (by simpa [Ground, fvs] using this) ht'
              obtain ⟨n, us, e⟩ := this
              cases us with
              | nil =>
                refine ⟨n, none, ?_⟩
                unfold unifyUnion
                split
                · next ss => exact absurd rfl (hns ss)
                · simp only [e]
              | cons u us =>
                by_cases hd : us.all (dictEq · u) = true
                · refine ⟨n, some u, ?_⟩
                  unfold unifyUnion
                  split
                  · next ss => exact absurd rfl (hns ss)
                  · simp only [e, if_pos hd]
                · refine ⟨n, none, ?_⟩
                  unfold unifyUnion
                  split
                  · next ss => exact absurd rfl (hns ss)
                  · simp only [e]; rw [if_neg hd]
            | _ =>
              refine ⟨0, none, ?_⟩
              unfold unifyUnion
              split
              · next ss => exact absurd rfl (hns ss)
              · rfl
          cases s with
          | union ss =>
            have hss : fvsL ss = [] := by simpa [Ground, fvs] using hs
            refine enough_fold hT hI _ q hq ?_ ?_
            · intro p hp
              obtain ⟨a, ha, rfl⟩ := List.mem_map.1 hp
              exact mem_ground hss ha
            · intro p hp q' hq'
              obtain ⟨a, ha, rfl⟩ := List.mem_map.1 hp
              have h5 := hμ.union a ss ha
              exact small _ _ _ (by simp only; omega) (mem_ground hss ha) hq'
          | _ => exact left (by simp)
        simp only [if_neg h4]
        by_cases h5 : (isGen t || isGen s) = true
        · simp only [if_pos h5]
          cases t with
          | gen c ts =>
            cases s with
            | gen d ss =>
              have hss : fvsL ss = [] := by simpa [Ground, fvs] using hs
              have keys : ∃ n x, (match ts, ss with
                  | a :: _, b :: _ => unify T n a b q
                  | _, _ => some none) = some x := by
                cases ts with
                | nil => exact ⟨0, none, rfl⟩
                | cons a ts =>
                  cases ss with
                  | nil => exact ⟨0, none, rfl⟩
                  | cons b ss =>
                    have h6 := hμ.arg d (b :: ss) b List.mem_cons_self
                    exact small a b q (by omega) (mem_ground hss List.mem_cons_self) hq
              simp only [unifyGen]
              by_cases g1 : T.sub d c = true
              · simp only [if_pos g1]
                by_cases g2 : d = T.tuple ∧ c ≠ T.tuple
                · simp only [if_pos g2]
                  refine enough_fold hT hI _ q hq ?_ ?_
                  · intro p hp
                    obtain ⟨a, ha, rfl⟩ := List.mem_map.1 hp
                    have := mem_ground hss ha
                    simpa [Ground, fvs, fvsL] using this
                  · intro p hp q' hq'
                    obtain ⟨a, ha, rfl⟩ := List.mem_map.1 hp
                    have h5 := hμ.tuple a ss ha
                    rw [← g2.1] at h5
                    have hga := mem_ground hss ha
                    exact small _ _ _ (by simp only; omega) (by simpa [Ground, fvs, fvsL] using hga) hq'
                simp only [if_neg g2]
                by_cases g3 : d = T.mapping ∧ T.sub c T.mapping = false
                · simp only [if_pos g3]; exact keys
                simp only [if_neg g3]
                by_cases g4 : d = T.generator ∧ T.sub c T.generator = false
                · simp only [if_pos g4]; exact keys
                simp only [if_neg g4]
                by_cases g5 : c = d
                · simp only [if_pos g5]
                  have h6 := hμ.args d ss
                  exact small _ _ q (by omega) (by simpa [Ground, fvs] using hs) hq
                simp only [if_neg g5]
                cases hf : findBase T c (T.bases d) with
                | none => exact ⟨0, none, rfl⟩
                | some f =>
                  simp only
                  cases hb : f ss with
                  | none => exact ⟨0, none, rfl⟩
                  | some b =>
                    simp only
                    obtain ⟨e, he⟩ := findBase_mem _ hf
                    have h6 := hμ.base d e f ss b he hb
                    exact small _ _ q (by omega) (hT d e f ss b he hss hb) hq
              · exact ⟨0, none, if_neg g1⟩
            | con d =>
              simp only [unifyGen]
              by_cases g1 : T.sub d c = true
              · exact ⟨0, _, if_pos g1⟩
              · exact ⟨0, _, if_neg g1⟩
            | _ => exact ⟨0, none, rfl⟩
          | con c =>
            cases s with
            | gen d ss =>
              have h6 := hμ.origin d ss
              exact small _ _ q (by omega) rfl hq
            | _ => exact ⟨0, none, rfl⟩
          | any =>
            cases s with
            | gen d ss =>
              have h6 := hμ.origin d ss
              exact small _ _ q (by omega) rfl hq
            | _ => exact ⟨0, none, rfl⟩
          | _ =>
            cases s with
            | _ => exact ⟨0, none, rfl⟩
        simp only [if_neg h5]
        refine ⟨0, ?_⟩
        split
        · split
          · exact ⟨_, rfl⟩
          · exact ⟨_, rfl⟩
        · split
          · exact ⟨_, rfl⟩
          · exact ⟨_, rfl⟩
    have ground : ∀ t s q, μ s < m + 1 → Ground t → Ground s → GroundSubs q → Enough T t s q :=
      fun t s q hm ht hs hq => level false (by simp) _ t s q hm (Nat.lt_succ_self _) (fun _ => ht) hs hq
    intro g k t s q hm hk _ hs hq
    exact level true (fun _ => ground) k t s q hm hk (by simp) hs hq

/-- `unify(t, s, subs)` terminates if `s` and the values of `subs` have no type variables. -/
theorem C33_unify_partial {T : Table} {μ : Ty → Nat} (hT : GroundTable T) (hI : IdemTable T)
    (hμ : Measured T μ) (t : Ty) {s : Ty} {q : Subs} (hs : Ground s) (hq : GroundSubs q) :
    ∃ N x, ∀ n ≥ N, unify T n t s q = some x := by
  obtain ⟨N, x, e⟩ := enough_main hT hI hμ _ true _ t s q (Nat.lt_succ_self _) (Nat.lt_succ_self _)
    (by simp) hs hq
  exact ⟨N, x, fun n hn => unify_le T hn _ _ _ _ e⟩

/-! ### The measure of the example -/

def exW (d : Nat) : Nat := if d = 3 ∨ d = 2 ∨ d = 5 then 2 else 1

mutual
def exM : Ty → Nat
  | .gen d ts => exW d + 1 + exMs ts
  | .union ts => 1 + exMs ts
  | .seq ts => 1 + exMs ts
  | _ => 1
termination_by structural t => t
def exMs : List Ty → Nat
  | [] => 0
  | t :: ts => exM t + exMs ts
termination_by structural t => t
end

theorem exM_mem {t : Ty} : ∀ {ts}, t ∈ ts → exM t ≤ exMs ts := by
  intro ts
  induction ts with
  | nil => intro h; cases h
  | cons u us ih =>
    intro h
    simp only [exMs]
    rcases List.mem_cons.1 h with e | h
    · subst e; omega
    · have := ih h; omega

theorem exW_cn (c : Nat) : exW (exT.cn c) ≤ exW c := by
  simp only [exT, exW]
  split
  · next h => subst h; decide
  · split
    · next h => subst h; decide
    · exact Nat.le_refl _

mutual
theorem exM_canon : ∀ t, exM (canon exT t) ≤ exM t
  | .var n => by simp [canon, exM]
  | .con c => by simp [canon, exM]
  | .any => by simp [canon, exM]
  | .ell => by simp [canon, exM]
  | .gen c ts => by
    have h1 := exW_cn c
    have h2 := exMs_canons ts
    simp only [canon, exM]; omega
  | .union ts => by
    have h2 := exMs_canons ts
    simp only [canon, exM]; omega
  | .seq ts => by
    have h2 := exMs_canons ts
    simp only [canon, exM]; omega
theorem exMs_canons : ∀ ts, exMs (canons exT ts) ≤ exMs ts
  | [] => by simp [canons, exMs]
  | t :: ts => by
    have h1 := exM_canon t
    have h2 := exMs_canons ts
    simp only [canons, exMs]; omega
end

theorem exW_pos (d : Nat) : 1 ≤ exW d := by unfold exW; split <;> omega

theorem exM_pos (t : Ty) : 1 ≤ exM t := by
  cases t <;> simp [exM] <;> omega

/-- The hypotheses of the theorem hold of the classes of the examples. -/
theorem exT_measured : Measured exT exM where
  canon := exM_canon
  seq s ss h := by have := exM_mem h; simp only [exM]; omega
  union s ss h := by have := exM_mem h; simp only [exM]; omega
  args d ss := by have := exW_pos d; simp only [exM]; omega
  arg d ss s h := by have := exM_mem h; simp only [exM]; omega
  origin d ss := by have := exW_pos d; simp only [exM]; omega
  tuple s ss h := by
    have := exM_mem h
    simp only [exM, exMs, exT, exW]
    simp
    omega
  base d e f ss b he hb := by
    simp only [exT] at he
    split at he
    · next hd =>
      simp only [List.mem_singleton, Prod.mk.injEq] at he
      rw [he.2] at hb
      cases hb
      subst hd
      simp only [exM, exW]
      simp
    · cases he

/-- So `unify(tuple[T, Sequence[T]], tuple[int, list[bool]])` terminates. -/
example : ∃ N x, ∀ n ≥ N, unify exT n (ttuple [.var 0, tseq (.var 0)])
    (ttuple [Cls.int.ty, tlist Cls.bool.ty]) [] = some x :=
  C33_unify_partial exT_ground exT_idem exT_measured _ rfl (fun _ _ h => by cases h)

end Verif.Unify
