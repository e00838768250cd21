import Verif.Unify.C32

/-!
# C33: termination of type inference
-/

namespace Verif.Unify

/-! ## Specification -/

/-- `substitute(t, r)` terminates. -/
def Terminates (r : Subs) (t : Ty) : Prop := ∃ n u, substitute r n t = some u

/-- Some order of the variables in which the value of a bound variable has only earlier bound variables. -/
def Acyclic (r : Subs) : Prop :=
  ∃ ρ : Nat → Nat, ∀ v b w, get r v = some b → w ∈ fvs b → (get r w).isSome → ρ w < ρ v

/-! ## `substitute` -/

theorem mapAll_mono {f g : Ty → Option Ty} (h : ∀ t u, f t = some u → g t = some u) :
    ∀ ts us, mapAll f ts = some us → mapAll g ts = some us := by
  intro ts
  induction ts with
  | nil => intro us e; exact e
  | cons t ts ih =>
    intro us e
    simp only [mapAll] at e ⊢
    split at e
    · next u us' h1 h2 => rw [h _ _ h1, ih _ h2]; exact e
    · cases e

/-- Neither a type variable nor a list of types. -/
def Other (t : Ty) : Prop := (∀ v, t ≠ .var v) ∧ ∀ ts, t ≠ .seq ts

theorem substitute_other (r : Subs) (n : Nat) {t : Ty} (h : Other t) : substitute r (n + 1) t =
    if (fvs t).any (fun v => (get r v).isSome) then substitute r n (inst r t) else some t := by
  rw [substitute]
  · exact fun v => h.1 v
  · exact fun v => h.2 v

theorem Other.inst {r : Subs} {t : Ty} (h : Other t) : Other (inst r t) := by
  cases t with
  | var v => exact absurd rfl (h.1 v)
  | seq ts => exact absurd rfl (h.2 ts)
  | _ => exact ⟨by simp [Unify.inst], by simp [Unify.inst]⟩

theorem cases_other (t : Ty) : (∃ v, t = .var v) ∨ (∃ ts, t = .seq ts) ∨ Other t := by
  cases t with
  | var v => exact .inl ⟨v, rfl⟩
  | seq ts => exact .inr (.inl ⟨ts, rfl⟩)
  | _ => exact .inr (.inr ⟨by simp, by simp⟩)

theorem substitute_mono (r : Subs) : ∀ n t u, substitute r n t = some u →
    substitute r (n + 1) t = some u := by
  intro n
  induction n with
  | zero => intro t u h; cases h
  | succ n ih =>
    intro t u h
    rcases cases_other t with ⟨v, rfl⟩ | ⟨ts, rfl⟩ | ho
    · simp only [substitute] at h ⊢
      cases hv : get r v with
      | none => rw [hv] at h; exact h
      | some b => rw [hv] at h; exact ih b u h
    · rw [substitute] at h ⊢
      cases hm : mapAll (substitute r n) ts with
      | none => rw [hm] at h; cases h
      | some us => rw [mapAll_mono ih ts us hm]; rw [hm] at h; exact h
    · rw [substitute_other r _ ho] at h ⊢
      split at h
      · next hb => rw [if_pos hb]; exact ih _ u h
      · next hb => rw [if_neg hb]; exact h

theorem substitute_mono_le (r : Subs) {n m : Nat} (h : n ≤ m) {t u : Ty}
    (e : substitute r n t = some u) : substitute r m t = some u := by
  induction h with
  | refl => exact e
  | step _ ih => exact substitute_mono r _ _ _ ih

theorem Terminates.seq {r : Subs} {ts : List Ty} (h : ∀ t ∈ ts, Terminates r t) :
    Terminates r (.seq ts) := by
  have : ∃ n us, mapAll (substitute r n) ts = some us := by
    induction ts with
    | nil => exact ⟨0, [], rfl⟩
    | cons t ts ih =>
      obtain ⟨n, us, h1⟩ := ih (fun t ht => h t (List.mem_cons_of_mem _ ht))
      obtain ⟨m, u, h2⟩ := h t List.mem_cons_self
      refine ⟨max n m, u :: us, ?_⟩
      simp only [mapAll]
      rw [substitute_mono_le r (Nat.le_max_right n m) h2,
        mapAll_mono (fun t u e => substitute_mono_le r (Nat.le_max_left n m) e) ts us h1]
  obtain ⟨n, us, h⟩ := this
  exact ⟨n + 1, .seq us, by simp [substitute, h]⟩

mutual
theorem mem_fvs_inst (r : Subs) : ∀ t, ∀ w ∈ fvs (inst r t),
    (w ∈ fvs t ∧ get r w = none) ∨ ∃ v b, v ∈ fvs t ∧ get r v = some b ∧ w ∈ fvs b
  | .var n, w, h => by
    simp only [inst] at h
    cases hn : get r n with
    | none =>
      rw [hn] at h
      simp only [Option.getD_none, fvs, List.mem_singleton] at h
      subst h
      exact .inl ⟨by simp [fvs], hn⟩
    | some b =>
      rw [hn] at h
      exact .inr ⟨n, b, by simp [fvs], hn, h⟩
  | .con c, w, h => by simp [inst, fvs] at h
  | .any, w, h => by simp [inst, fvs] at h
  | .ell, w, h => by simp [inst, fvs] at h
  | .gen c ts, w, h => by
    simp only [inst, fvs] at h
    simpa only [fvs] using mem_fvsL_insts r ts w h
  | .union ts, w, h => by
    simp only [inst, fvs] at h
    simpa only [fvs] using mem_fvsL_insts r ts w h
  | .seq ts, w, h => by
    simp only [inst, fvs] at h
    simpa only [fvs] using mem_fvsL_insts r ts w h
theorem mem_fvsL_insts (r : Subs) : ∀ ts, ∀ w ∈ fvsL (insts r ts),
    (w ∈ fvsL ts ∧ get r w = none) ∨ ∃ v b, v ∈ fvsL ts ∧ get r v = some b ∧ w ∈ fvs b
  | [], w, h => by simp [insts, fvsL] at h
  | t :: ts, w, h => by
    simp only [insts, fvsL, List.mem_append] at h ⊢
    rcases h with h | h
    · rcases mem_fvs_inst r t w h with ⟨h1, h2⟩ | ⟨v, b, h1, h2, h3⟩
      · exact .inl ⟨.inl h1, h2⟩
      · exact .inr ⟨v, b, .inl h1, h2, h3⟩
    · rcases mem_fvsL_insts r ts w h with ⟨h1, h2⟩ | ⟨v, b, h1, h2, h3⟩
      · exact .inl ⟨.inr h1, h2⟩
      · exact .inr ⟨v, b, .inr h1, h2, h3⟩
end

theorem terminates_below {r : Subs} {ρ : Nat → Nat}
    (hρ : ∀ v b w, get r v = some b → w ∈ fvs b → (get r w).isSome → ρ w < ρ v) :
    ∀ k m (t : Ty), sizeOf t < m → (∀ v ∈ fvs t, (get r v).isSome → ρ v < k) → Terminates r t := by
  intro k
  induction k with
  | zero =>
    intro m
    induction m with
    | zero => intro t h; omega
    | succ m ihm =>
      intro t hm h
      cases t with
      | var v =>
        have : get r v = none := by
          cases hv : get r v with
          | none => rfl
          | some b => exact absurd (h v (by simp [fvs]) (by simp [hv])) (by omega)
        exact ⟨1, .var v, by simp [substitute, this]⟩
      | seq ts =>
        refine .seq (fun t ht => ihm t ?_ ?_)
        · have := List.sizeOf_lt_of_mem ht; simp at hm; omega
        · intro v hv
          refine h v ?_
          simp only [fvs, fvsL_eq_flatMap, List.mem_flatMap]
          exact ⟨t, ht, hv⟩
      | _ =>
        refine ⟨1, _, (substitute_other r 0 ⟨by simp, by simp⟩).trans (if_neg ?_)⟩
        rw [any_bound_false]
        · simp
        · intro v hv
          cases hr : get r v with
          | none => rfl
          | some b => exact absurd (h v hv (by simp [hr])) (by omega)
  | succ k ihk =>
    intro m
    induction m with
    | zero => intro t h; omega
    | succ m ihm =>
      intro t hm h
      have other : (∀ v, t ≠ .var v) → (∀ ts, t ≠ .seq ts) → Terminates r t := by
        intro h1 h2
        have hi : Terminates r (inst r t) := by
          refine ihk _ _ (Nat.lt_succ_self _) ?_
          intro w hw hb
          rcases mem_fvs_inst r t w hw with ⟨_, hn⟩ | ⟨v, b, hv, hg, hwb⟩
          · simp [hn] at hb
          · have h3 := hρ v b w hg hwb hb
            have h4 := h v hv (by simp [hg])
            omega
        obtain ⟨n, u, hn⟩ := hi
        by_cases hb : (fvs t).any (fun v => (get r v).isSome) = true
        · exact ⟨n + 1, u, ((substitute_other r n ⟨h1, h2⟩).trans (if_pos hb)).trans hn⟩
        · exact ⟨1, t, (substitute_other r 0 ⟨h1, h2⟩).trans (if_neg hb)⟩
      cases t with
      | var v =>
        cases hv : get r v with
        | none => exact ⟨1, .var v, by simp [substitute, hv]⟩
        | some b =>
          have hb : Terminates r b := by
            refine ihk _ b (Nat.lt_succ_self _) ?_
            intro w hw hbd
            have h3 := hρ v b w hv hw hbd
            have h4 := h v (by simp [fvs]) (by simp [hv])
            omega
          obtain ⟨n, u, hn⟩ := hb
          exact ⟨n + 1, u, by simp [substitute, hv, hn]⟩
      | seq ts =>
        refine .seq (fun t ht => ihm t ?_ ?_)
        · have := List.sizeOf_lt_of_mem ht; simp at hm; omega
        · intro v hv
          refine h v ?_
          simp only [fvs, fvsL_eq_flatMap, List.mem_flatMap]
          exact ⟨t, ht, hv⟩
      | _ => exact other (by simp) (by simp)

theorem max_rank (ρ : Nat → Nat) : ∀ l : List Nat, ∃ k, ∀ v ∈ l, ρ v < k
  | [] => ⟨0, by simp⟩
  | v :: l => by
    obtain ⟨k, hk⟩ := max_rank ρ l
    refine ⟨max k (ρ v + 1), ?_⟩
    intro w hw
    rcases List.mem_cons.1 hw with e | hw
    · subst e; omega
    · have := hk w hw; omega

/-- `substitute` terminates for substitutions without cycles. -/
theorem C33_acyclic_partial {r : Subs} (h : Acyclic r) (t : Ty) : Terminates r t := by
  obtain ⟨ρ, hρ⟩ := h
  obtain ⟨k, hk⟩ := max_rank ρ (fvs t)
  exact terminates_below hρ k _ t (Nat.lt_succ_self _) (fun v hv _ => hk v hv)

/-- `{T: list[S], S: int}` applied to `tuple[T, S]`. -/
example : Acyclic [(0, tlist (.var 1)), (1, Cls.int.ty)] ∧
    substitute [(0, tlist (.var 1)), (1, Cls.int.ty)] 10 (ttuple [.var 0, .var 1])
      = some (ttuple [tlist Cls.int.ty, Cls.int.ty]) := by
  refine ⟨⟨fun v => 1 - v, ?_⟩, rfl⟩
  intro v b w h hw hb
  by_cases h0 : v = 0
  · subst h0
    cases h
    have : w = 1 := by simpa [tlist, fvs, fvsL] using hw
    subst this
    decide
  · by_cases h1 : v = 1
    · subst h1
      cases h
      simp [Cls.ty, fvs] at hw
    · have : get [(0, tlist (.var 1)), (1, Cls.int.ty)] v = none := by
        simp [get, List.lookup, beq_eq_false_iff_ne.2 h0, beq_eq_false_iff_ne.2 h1]
      rw [this] at h
      cases h

/-- For types without type variables `unify` returns a substitution on which `substitute` terminates. -/
theorem C33_ground_partial {T : Table} (hT : GroundTable T) (hI : IdemTable T) {n : Nat} {t s : Ty}
    {q r : Subs} (hs : Ground s) (hq : GroundSubs q) (h : unify T n t s q = some (some r)) :
    ∀ u, Terminates r u := by
  intro u
  obtain ⟨h1, _, _⟩ := unify_sound hT hI n t s q r hs hq h
  refine C33_acyclic_partial ⟨fun _ => 0, ?_⟩ u
  intro v b w hb hw
  have : fvs b = [] := h1 v b hb
  simp [this] at hw

/-- The same for a signature and argument types without type variables. -/
theorem C33_signature_partial {T : Table} (hT : GroundTable T) (hI : IdemTable T) {n : Nat}
    {ps : List (Ty × Ty)} {r : Subs} (hs : ∀ p ∈ ps, Ground p.2)
    (h : unifySignature T n ps [] = some (some r)) : ∀ u, Terminates r u := by
  intro u
  obtain ⟨h1, _, _⟩ := fold_sound hT (unify_sound hT hI n) ps [] r hs (fun v t e => by cases e) h
  refine C33_acyclic_partial ⟨fun _ => 0, ?_⟩ u
  intro v b w hb hw
  have : fvs b = [] := h1 v b hb
  simp [this] at hw

/-! ## Where it fails -/

/-- `MutableSequence[t]`, the canonical form of `list[t]`. -/
def tlist' (t : Ty) : Ty := .gen Cls.mutableSequence.n [t]

mutual
theorem fvs_inst_of (r : Subs) : ∀ t v b w, v ∈ fvs t → get r v = some b → w ∈ fvs b →
    w ∈ fvs (inst r t)
  | .var n, v, b, w, hv, hb, hw => by
    simp only [fvs, List.mem_singleton] at hv
    subst hv
    simp only [inst, hb, Option.getD_some]
    exact hw
  | .con c, v, b, w, hv, hb, hw => by simp [fvs] at hv
  | .any, v, b, w, hv, hb, hw => by simp [fvs] at hv
  | .ell, v, b, w, hv, hb, hw => by simp [fvs] at hv
  | .gen c ts, v, b, w, hv, hb, hw => by
    simp only [fvs, inst] at hv ⊢; exact fvsL_insts_of r ts v b w hv hb hw
  | .union ts, v, b, w, hv, hb, hw => by
    simp only [fvs, inst] at hv ⊢; exact fvsL_insts_of r ts v b w hv hb hw
  | .seq ts, v, b, w, hv, hb, hw => by
    simp only [fvs, inst] at hv ⊢; exact fvsL_insts_of r ts v b w hv hb hw
theorem fvsL_insts_of (r : Subs) : ∀ ts v b w, v ∈ fvsL ts → get r v = some b → w ∈ fvs b →
    w ∈ fvsL (insts r ts)
  | [], v, b, w, hv, hb, hw => by simp [fvsL] at hv
  | t :: ts, v, b, w, hv, hb, hw => by
    simp only [fvsL, insts, List.mem_append] at hv ⊢
    rcases hv with hv | hv
    · exact .inl (fvs_inst_of r t v b w hv hb hw)
    · exact .inr (fvsL_insts_of r ts v b w hv hb hw)
end

/-- If the value of each variable in `V` has a variable in `V`, `substitute` does not terminate on types with a
variable in `V`. -/
theorem diverges {r : Subs} {V : Nat → Prop}
    (hV : ∀ v, V v → ∃ b w, get r v = some b ∧ w ∈ fvs b ∧ V w) :
    ∀ n t, (∃ v, v ∈ fvs t ∧ V v) → substitute r n t = none := by
  intro n
  induction n with
  | zero => intro t _; rfl
  | succ n ih =>
    intro t ht
    obtain ⟨v, hv, hvV⟩ := ht
    rcases cases_other t with ⟨x, rfl⟩ | ⟨ts, rfl⟩ | ho
    · simp only [fvs, List.mem_singleton] at hv
      subst hv
      obtain ⟨b, w, hb, hw, hwV⟩ := hV v hvV
      simp only [substitute, hb]
      exact ih b ⟨w, hw, hwV⟩
    · have : ∀ us : List Ty, v ∈ fvsL us → mapAll (substitute r n) us = none := by
        intro us
        induction us with
        | nil => intro h; simp [fvsL] at h
        | cons u us ihu =>
          intro h
          simp only [fvsL, List.mem_append] at h
          simp only [mapAll]
          rcases h with h | h
          · rw [ih u ⟨v, h, hvV⟩]
          · rw [ihu h]
            cases substitute r n u <;> rfl
      simp only [substitute]
      rw [this ts (by simpa [fvs] using hv)]
      rfl
    · obtain ⟨b, w, hb, hw, hwV⟩ := hV v hvV
      rw [substitute_other r n ho, if_pos]
      · exact ih _ ⟨w, fvs_inst_of r t v b w hv hb hw, hwV⟩
      · rw [List.any_eq_true]
        exact ⟨v, hv, by simp [hb]⟩

theorem not_terminates {r : Subs} {V : Nat → Prop}
    (hV : ∀ v, V v → ∃ b w, get r v = some b ∧ w ∈ fvs b ∧ V w) {t : Ty} {v : Nat} (hv : v ∈ fvs t)
    (h : V v) : ¬ Terminates r t := by
  rintro ⟨n, u, e⟩
  rw [diverges hV n t ⟨v, hv, h⟩] at e
  cases e

/-- `unify(T, list[T])` has no occurs check: it returns `{T: MutableSequence[T]}`, and `substitute(T, …)` does
not terminate. -/
theorem C33_occurs_fails : ∃ (T : Table) (t s : Ty) (r : Subs), GroundTable T ∧ IdemTable T ∧
    unify T 10 t s [] = some (some r) ∧ ¬ Terminates r t := by
  refine ⟨exT, .var 0, tlist (.var 0), _, exT_ground, exT_idem, rfl, ?_⟩
  refine not_terminates (V := fun v => v = 0) ?_ (v := 0) (by simp [fvs]) rfl
  rintro v rfl
  exact ⟨tlist' (.var 0), 0, rfl, by simp [tlist', fvs, fvsL], rfl⟩

/-- Renaming the variables of the argument types apart, as `_unify_signature` does, does not help:
`unify(tuple[T, T], tuple[A, list[A]])` returns `{T: A, A: MutableSequence[A]}`. -/
theorem C33_disjoint_fails : ∃ (T : Table) (t s : Ty) (r : Subs), GroundTable T ∧ IdemTable T ∧
    (∀ v ∈ fvs t, v ∉ fvs s) ∧ unify T 20 t s [] = some (some r) ∧ ¬ Terminates r t := by
  refine ⟨exT, ttuple [.var 0, .var 0], ttuple [.var 1, tlist (.var 1)], _, exT_ground, exT_idem,
    ?_, rfl, ?_⟩
  · simp [ttuple, tlist, fvs, fvsL]
  · refine not_terminates (V := fun v => v = 0 ∨ v = 1) ?_ (v := 0) (by simp [ttuple, fvs, fvsL]) (.inl rfl)
    rintro v (rfl | rfl)
    · exact ⟨.var 1, 1, rfl, by simp [fvs], .inr rfl⟩
    · exact ⟨tlist' (.var 1), 1, rfl, by simp [tlist', fvs, fvsL], .inr rfl⟩

/-- Two variables bound to each other: `unify(tuple[T, S], tuple[S, T])`. -/
theorem C33_swap_fails : ∃ (T : Table) (t s : Ty) (r : Subs), GroundTable T ∧ IdemTable T ∧
    unify T 20 t s [] = some (some r) ∧ ¬ Terminates r t := by
  refine ⟨exT, ttuple [.var 0, .var 1], ttuple [.var 1, .var 0], _, exT_ground, exT_idem, rfl, ?_⟩
  refine not_terminates (V := fun v => v = 0 ∨ v = 1) ?_ (v := 0) (by simp [ttuple, fvs, fvsL]) (.inl rfl)
  rintro v (rfl | rfl)
  · exact ⟨.var 1, 1, rfl, by simp [fvs], .inr rfl⟩
  · exact ⟨.var 0, 0, rfl, by simp [fvs], .inl rfl⟩

/-- The substitution `{T: A, A: list[list[A]], S: B, B: list[list[B]], U: A}` in canonical form. -/
def loopSubs : Subs :=
  [(2, .var 3), (4, tlist' (tlist' (.var 4))), (1, .var 4), (3, tlist' (tlist' (.var 3))), (0, .var 3)]

theorem fold_none {U : Uni} {t s : Ty} {ps : List (Ty × Ty)} {q : Subs} (h : U t s q = none) :
    fold U ((t, s) :: ps) q = none := by
  simp only [fold, h]

theorem fold_some {U : Uni} {t s : Ty} {ps : List (Ty × Ty)} {q r : Subs} (h : U t s q = some (some r)) :
    fold U ((t, s) :: ps) q = fold U ps r := by
  simp only [fold, h]

theorem loop_step (n : Nat) (h : unify exT n (.var 3) (tlist' (.var 4)) loopSubs = none) :
    unify exT (n + 6) (.var 3) (tlist' (.var 4)) loopSubs = none := by
  have h1 : unify exT (n + 3) (tlist' (.var 3)) (.var 4) loopSubs
    = fold (unify exT n) [(.var 3, tlist' (.var 4))] loopSubs := rfl
  have h2 : unify exT (n + 6) (.var 3) (tlist' (.var 4)) loopSubs
    = fold (unify exT (n + 3)) [(tlist' (.var 3), .var 4)] loopSubs := rfl
  rw [h2]
  exact fold_none (h1.trans (fold_none h))

theorem loop_start (U : Uni) : unifyCanon exT U (.var 2) (tlist' (.var 4)) loopSubs
    = U (.var 3) (tlist' (.var 4)) loopSubs := rfl

theorem loop : ∀ n, unify exT n (.var 3) (tlist' (.var 4)) loopSubs = none ∧
    unify exT (n + 1) (.var 3) (tlist' (.var 4)) loopSubs = none ∧
    unify exT (n + 2) (.var 3) (tlist' (.var 4)) loopSubs = none ∧
    unify exT (n + 3) (.var 3) (tlist' (.var 4)) loopSubs = none ∧
    unify exT (n + 4) (.var 3) (tlist' (.var 4)) loopSubs = none ∧
    unify exT (n + 5) (.var 3) (tlist' (.var 4)) loopSubs = none := by
  intro n
  induction n with
  | zero => exact ⟨rfl, rfl, rfl, rfl, rfl, rfl⟩
  | succ n ih =>
    obtain ⟨h0, h1, h2, h3, h4, h5⟩ := ih
    exact ⟨h1, h2, h3, h4, h5, loop_step n h0⟩

/-- `unify` itself need not terminate, also with variables that are renamed apart:
`unify(tuple[T, T, S, S, U, U], tuple[A, list[list[A]], B, list[list[B]], A, list[B]])`. -/
theorem C33_unify_fails : ∃ (T : Table) (t s : Ty), GroundTable T ∧ IdemTable T ∧
    (∀ v ∈ fvs t, v ∉ fvs s) ∧ ∀ n, unify T n t s [] = none := by
  refine ⟨exT, ttuple [.var 0, .var 0, .var 1, .var 1, .var 2, .var 2],
    ttuple [.var 3, tlist (tlist (.var 3)), .var 4, tlist (tlist (.var 4)), .var 3, tlist (.var 4)],
    exT_ground, exT_idem, ?_, ?_⟩
  · simp [ttuple, tlist, fvs, fvsL]
  · intro n
    match n with
    | 0 => rfl
    | 1 => rfl
    | 2 => rfl
    | 3 => rfl
    | 4 => rfl
    | 5 => rfl
    | 6 => rfl
    | n + 7 =>
      have e : unify exT (n + 7) (ttuple [.var 0, .var 0, .var 1, .var 1, .var 2, .var 2])
        (ttuple [.var 3, tlist (tlist (.var 3)), .var 4, tlist (tlist (.var 4)), .var 3, tlist (.var 4)]) []
        = fold (unify exT (n + 5)) [(.var 0, .var 3), (.var 0, tlist' (tlist' (.var 3))), (.var 1, .var 4),
          (.var 1, tlist' (tlist' (.var 4))), (.var 2, .var 3), (.var 2, tlist' (.var 4))] [] := rfl
      rw [e]
      rw [fold_some (r := [(0, .var 3)]) rfl]
      rw [fold_some (r := [(3, tlist' (tlist' (.var 3))), (0, .var 3)]) rfl]
      rw [fold_some (r := [(1, .var 4), (3, tlist' (tlist' (.var 3))), (0, .var 3)]) rfl]
      rw [fold_some (r := [(4, tlist' (tlist' (.var 4))), (1, .var 4), (3, tlist' (tlist' (.var 3))),
        (0, .var 3)]) rfl]
      rw [fold_some (r := loopSubs) rfl]
      have e2 : unify exT (n + 5) (.var 2) (tlist' (.var 4)) loopSubs
        = unify exT (n + 4) (.var 3) (tlist' (.var 4)) loopSubs := loop_start (unify exT (n + 4))
      exact fold_none (e2.trans (loop n).2.2.2.2.1)

end Verif.Unify
