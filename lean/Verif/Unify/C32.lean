import Verif.Unify.Props

/-!
# C32: a unifier makes the pattern match

`Desc` compares type arguments in one direction only; whether a type parameter is contravariant or invariant
is ignored by the code and by the specification.
-/

namespace Verif.Unify

/-! ## `substitute` with ground values -/

theorem substitute_ground (r : Subs) : ∀ n (t : Ty), sizeOf t < n → Ground t →
    substitute r n t = some t := by
  intro n
  induction n with
  | zero => intro t h; omega
  | succ n ih =>
    intro t hsz hg
    cases t with
    | var v => simp [Ground, fvs] at hg
    | con c => simp [substitute, fvs]
    | any => simp [substitute, fvs]
    | ell => simp [substitute, fvs]
    | gen c ts =>
      have : fvsL ts = [] := by simpa [Ground, fvs] using hg
      simp [substitute, fvs, this]
    | union ts =>
      have : fvsL ts = [] := by simpa [Ground, fvs] using hg
      simp [substitute, fvs, this]
    | seq ts =>
      have hts : fvsL ts = [] := by simpa [Ground, fvs] using hg
      have : ∀ us : List Ty, (∀ u ∈ us, u ∈ ts) → mapAll (substitute r n) us = some us := by
        intro us
        induction us with
        | nil => intro _; rfl
        | cons u us ihu =>
          intro hu
          have hm := hu u List.mem_cons_self
          have h1 := List.sizeOf_lt_of_mem hm
          have h2 : sizeOf (Ty.seq ts) = 1 + sizeOf ts := by simp
          simp only [mapAll]
          rw [ih u (by omega) (mem_ground hts hm), ihu (fun w hw => hu w (List.mem_cons_of_mem _ hw))]
      simp only [substitute]
      rw [this ts (fun _ h => h)]
      rfl

mutual
theorem fvs_inst {r : Subs} (hr : GroundSubs r) : ∀ t, ∀ v ∈ fvs (inst r t), get r v = none
  | .var n, v, h => by
    simp only [inst] at h
    cases hn : get r n with
    | none =>
      rw [hn] at h
      simp only [Option.getD_none, fvs, List.mem_singleton] at h
      rw [h]; exact hn
    | some b =>
      rw [hn] at h
      have : fvs b = [] := hr n b hn
      simp [this] at h
  | .con c, v, h => by simp [inst, fvs] at h
  | .any, v, h => by simp [inst, fvs] at h
  | .ell, v, h => by simp [inst, fvs] at h
  | .gen c ts, v, h => fvsL_insts hr ts v (by simpa [inst, fvs] using h)
  | .union ts, v, h => fvsL_insts hr ts v (by simpa [inst, fvs] using h)
  | .seq ts, v, h => fvsL_insts hr ts v (by simpa [inst, fvs] using h)
theorem fvsL_insts {r : Subs} (hr : GroundSubs r) : ∀ ts, ∀ v ∈ fvsL (insts r ts), get r v = none
  | [], v, h => by simp [insts, fvsL] at h
  | t :: ts, v, h => by
    simp only [insts, fvsL, List.mem_append] at h
    rcases h with h | h
    · exact fvs_inst hr t v h
    · exact fvsL_insts hr ts v h
end

mutual
/-- A substitution none of whose variables occurs. -/
theorem inst_unbound (r : Subs) : ∀ t, (∀ v ∈ fvs t, get r v = none) → inst r t = t
  | .var n, h => by simp [inst, h n (by simp [fvs])]
  | .con c, _ => rfl
  | .any, _ => rfl
  | .ell, _ => rfl
  | .gen c ts, h => by simp [inst, insts_unbound r ts (by simpa [fvs] using h)]
  | .union ts, h => by simp [inst, insts_unbound r ts (by simpa [fvs] using h)]
  | .seq ts, h => by simp [inst, insts_unbound r ts (by simpa [fvs] using h)]
theorem insts_unbound (r : Subs) : ∀ ts, (∀ v ∈ fvsL ts, get r v = none) → insts r ts = ts
  | [], _ => rfl
  | t :: ts, h => by
    simp only [fvsL, List.mem_append] at h
    simp [insts, inst_unbound r t (fun v hv => h v (.inl hv)), insts_unbound r ts (fun v hv => h v (.inr hv))]
end

theorem any_bound_false {r : Subs} {t : Ty} (h : ∀ v ∈ fvs t, get r v = none) :
    (fvs t).any (fun v => (get r v).isSome) = false := by
  rw [List.any_eq_false]
  intro v hv
  simp [h v hv]

theorem any_bound_false' {r : Subs} {t : Ty} (h : (fvs t).any (fun v => (get r v).isSome) = false) :
    ∀ v ∈ fvs t, get r v = none := by
  rw [List.any_eq_false] at h
  intro v hv
  simpa using h v hv

/-- An upper bound of the sizes of the values. -/
theorem bounded (r : Subs) : ∃ B, ∀ v b, get r v = some b → sizeOf b < B := by
  induction r with
  | nil => exact ⟨0, fun v b h => by cases h⟩
  | cons p r ih =>
    obtain ⟨B, hB⟩ := ih
    refine ⟨B + sizeOf p.2 + 1, ?_⟩
    intro v b h
    simp only [get, List.lookup] at h
    split at h
    · cases h; omega
    · have := hB v b h; omega

theorem substitute_inst_aux {r : Subs} (hr : GroundSubs r) {B : Nat}
    (hB : ∀ v b, get r v = some b → sizeOf b < B) :
    ∀ n (t : Ty), sizeOf t + B + 2 ≤ n → substitute r n t = some (inst r t) := by
  intro n
  induction n with
  | zero => intro t h; omega
  | succ n ih =>
    intro t hn
    have step : ∀ u : Ty, (∀ ts, u ≠ .seq ts) → (∀ v, u ≠ .var v) → (∀ v ∈ fvs u, get r v = none) →
        ∀ m, substitute r (m + 1) u = some u := by
      intro u h1 h2 h3 m
      unfold substitute
      split
      · exact absurd rfl (h2 _)
      · exact absurd rfl (h1 _)
      · rw [any_bound_false h3]; rfl
    have other : ∀ u : Ty, (∀ ts, u ≠ .seq ts) → (∀ v, u ≠ .var v) → (∀ ts, inst r u ≠ .seq ts) →
        (∀ v, inst r u ≠ .var v) → 2 ≤ n + 1 → substitute r (n + 1) u = some (inst r u) := by
      intro u h1 h2 h3 h4 h5
      unfold substitute
      split
      · exact absurd rfl (h2 _)
      · exact absurd rfl (h1 _)
      · split
        · obtain ⟨m, rfl⟩ : ∃ m, n = m + 1 := ⟨n - 1, by omega⟩
          exact step _ h3 h4 (fvs_inst hr u) m
        · next hb =>
          rw [inst_unbound r u (any_bound_false' (by simpa using hb))]
    cases t with
    | var v =>
      simp only [substitute, inst]
      cases hv : get r v with
      | none => rfl
      | some b =>
        have := hB v b hv
        exact substitute_ground r n b (by simp at hn; omega) (hr v b hv)
    | con c => exact other _ (by simp) (by simp) (by simp [inst]) (by simp [inst]) (by omega)
    | any => exact other _ (by simp) (by simp) (by simp [inst]) (by simp [inst]) (by omega)
    | ell => exact other _ (by simp) (by simp) (by simp [inst]) (by simp [inst]) (by omega)
    | gen c ts => exact other _ (by simp) (by simp) (by simp [inst]) (by simp [inst]) (by omega)
    | union ts => exact other _ (by simp) (by simp) (by simp [inst]) (by simp [inst]) (by omega)
    | seq ts =>
      have : ∀ us : List Ty, (∀ u ∈ us, u ∈ ts) →
          mapAll (substitute r n) us = some (us.map (inst r)) := by
        intro us
        induction us with
        | nil => intro _; rfl
        | cons u us ihu =>
          intro hu
          have hm := hu u List.mem_cons_self
          have h1 := List.sizeOf_lt_of_mem hm
          have h2 : sizeOf (Ty.seq ts) = 1 + sizeOf ts := by simp
          simp only [mapAll]
          rw [ih u (by omega), ihu (fun w hw => hu w (List.mem_cons_of_mem _ hw))]
          rfl
      simp only [substitute]
      rw [this ts (fun _ h => h)]
      simp [inst, insts_eq_map]

/-- With values without type variables `substitute` terminates and replaces the variables. -/
theorem substitute_inst {r : Subs} (hr : GroundSubs r) (t : Ty) :
    ∃ N, ∀ n ≥ N, substitute r n t = some (inst r t) := by
  obtain ⟨B, hB⟩ := bounded r
  exact ⟨sizeOf t + B + 2, fun n hn => substitute_inst_aux hr hB n t hn⟩

/-! ## Theorems -/

/-- For types `s` without type variables and substitutions whose values have none: if `unify(t, s, subs)`
returns `r` then `r` keeps the bindings of `subs`, and `substitute(t, r)` terminates with a type that
describes `s`, up to `canonicalize`. -/
theorem C32_match_partial {T : Table} (hT : GroundTable T) (hI : IdemTable T) {n : Nat} {t s : Ty}
    {q r : Subs} (hs : Ground s) (hq : GroundSubs q) (h : unify T n t s q = some (some r)) :
    Keeps q r ∧ ∃ u N, (∀ m ≥ N, substitute r m t = some u) ∧ Desc T (canon T u) (canon T s) := by
  obtain ⟨h1, h2, h3⟩ := unify_sound hT hI n t s q r hs hq h
  obtain ⟨N, hN⟩ := substitute_inst h1 t
  exact ⟨h2, inst r t, N, hN, h3⟩

/-- The same for the parameters of a signature: the final substitution makes every annotation describe the
type of its argument. -/
theorem C32_signature_partial {T : Table} (hT : GroundTable T) (hI : IdemTable T) {n : Nat}
    {ps : List (Ty × Ty)} {q r : Subs} (hs : ∀ p ∈ ps, Ground p.2) (hq : GroundSubs q)
    (h : unifySignature T n ps q = some (some r)) :
    Keeps q r ∧ ∀ p ∈ ps, ∃ u N, (∀ m ≥ N, substitute r m p.1 = some u) ∧
      Desc T (canon T u) (canon T p.2) := by
  obtain ⟨h1, h2, h3⟩ := fold_sound hT (unify_sound hT hI n) ps q r hs hq h
  refine ⟨h2, fun p hp => ?_⟩
  obtain ⟨N, hN⟩ := substitute_inst h1 p.1
  exact ⟨inst r p.1, N, hN, h3 p hp⟩

/-- Classes for the examples. -/
inductive Cls where
  | int | bool | list | mutableSequence | sequence | tuple | mapping | generator | userB | userA

def Cls.n : Cls → Nat
  | .int => 0
  | .bool => 1
  | .list => 2
  | .mutableSequence => 3
  | .sequence => 4
  | .tuple => 5
  | .mapping => 6
  | .generator => 7
  | .userB => 8
  | .userA => 9

/-- `int`, `bool`, `list`, `MutableSequence`, `Sequence`, `tuple`, `Mapping`, `Generator`, a class `B`
without bases, and `class A(B)`. -/
def exT : Table :=
  { sub := fun d c => d == c || (d == 1 && c == 0) || (d == 2 && c == 3) || (d == 2 && c == 4) ||
      (d == 3 && c == 4) || (d == 5 && c == 4) || (d == 9 && c == 8)
    cn := fun c => if c = 2 then 3 else if c = 9 then 8 else c
    bases := fun d => if d = 3 then [(4, fun ts => some (.gen 4 ts))] else []
    tuple := 5
    sequence := 4
    mapping := 6
    generator := 7 }

def Cls.ty (c : Cls) : Ty := .con c.n
def tlist (t : Ty) : Ty := .gen Cls.list.n [t]
def ttuple (ts : List Ty) : Ty := .gen Cls.tuple.n ts
def tseq (t : Ty) : Ty := .gen Cls.sequence.n [t]

theorem exT_ground : GroundTable exT := by
  intro d e f ss b he hss hb
  simp only [exT] at he
  split at he
  · simp only [List.mem_singleton, Prod.mk.injEq] at he
    rw [he.2] at hb
    cases hb
    simpa [Ground, fvs] using hss
  · cases he

theorem exT_idem : IdemTable exT := by
  intro c
  simp only [exT]
  split
  · simp
  · split
    · simp
    · simp_all

/-- The theorem applies to
`unify(tuple[T, Sequence[T]], tuple[int, list[bool]])`, which gives `T = int`. -/
example : ∃ r, unify exT 10 (ttuple [.var 0, tseq (.var 0)]) (ttuple [Cls.int.ty, tlist Cls.bool.ty]) []
    = some (some r) ∧ get r 0 = some Cls.int.ty := ⟨_, rfl, rfl⟩

example : Ground (ttuple [Cls.int.ty, tlist Cls.bool.ty]) := rfl

/-- In a signature `f(x: T, y: list[S], z: T)`. -/
example : ∃ r, unifySignature exT 10
    [(.var 0, Cls.int.ty), (tlist (.var 1), tlist Cls.bool.ty), (.var 0, Cls.bool.ty)] []
    = some (some r) ∧ get r 0 = some Cls.int.ty ∧ get r 1 = some Cls.bool.ty := ⟨_, rfl, rfl, rfl⟩

/-- Types that do not match are rejected. -/
example : unify exT 10 (ttuple [.var 0, .var 0]) (ttuple [Cls.bool.ty, Cls.int.ty]) [] = some none := rfl

/-! ## Where the property fails -/

/-- What describes the class `B`: `B` itself, its superclasses, `Any`, `...` and unions of those. -/
theorem desc_con {T : Table} {t s : Ty} (h : Desc T t s) : ∀ c d, t = .con c → s = .con d →
    c = d ∨ T.sub d c = true := by
  intro c d e1 e2
  cases h with
  | refl t => rw [e1] at e2; cases e2; exact .inl rfl
  | cls h => cases e1; cases e2; exact .inr h
  | _ => first | (cases e1; done) | (cases e2; done)

/-- `canonicalize` replaces a class of the user by its base: `unify(A, B)` succeeds for `class A(B)` although
`B` is not a subclass of `A`. -/
theorem C32_subclass_fails : ∃ (T : Table) (t s : Ty), GroundTable T ∧ IdemTable T ∧ Ground t ∧ Ground s ∧
    unify T 10 t s [] = some (some []) ∧ ¬ Desc T t s := by
  refine ⟨exT, Cls.userA.ty, Cls.userB.ty, exT_ground, exT_idem, rfl, rfl, rfl, ?_⟩
  intro h
  rcases desc_con h 9 8 rfl rfl with h | h
  · cases h
  · cases h

/-- A type variable on the right is not compared with the binding of the pattern variable:
`unify(T, S, {T: int})` returns `{T: int}` without binding `S`. Then `S` stays free, and the pattern `int`
does not describe `S` for, say, `S = str`. -/
theorem C32_variable_fails : ∃ (T : Table) (t s : Ty) (q : Subs), GroundTable T ∧ IdemTable T ∧
    GroundSubs q ∧ unify T 10 t s q = some (some q) ∧
    ∀ m, ∀ u, substitute q m t = some u → ¬ Desc T (canon T u) (canon T s) := by
  refine ⟨exT, .var 0, .var 1, [(0, Cls.int.ty)], exT_ground, exT_idem, ?_, rfl, ?_⟩
  · intro v t h
    simp only [get, List.lookup] at h
    split at h
    · cases h; rfl
    · cases h
  · intro m u h hd
    have hu : u = Cls.int.ty := by
      match m, h with
      | m + 2, h => cases h; rfl
    subst hu
    cases hd

/-- The order of the arguments decides: with `x: T, y: T` the types `bool, int` are rejected although `T = int`
describes both, and `int, bool` are accepted. -/
theorem C32_order : ∃ (T : Table) (t s1 s2 : Ty), GroundTable T ∧ IdemTable T ∧ Ground s1 ∧ Ground s2 ∧
    unifySignature T 10 [(t, s1), (t, s2)] [] = some none ∧
    ∃ r, unifySignature T 10 [(t, s2), (t, s1)] [] = some (some r) :=
  ⟨exT, .var 0, Cls.bool.ty, Cls.int.ty, exT_ground, exT_idem, rfl, rfl, rfl, _, rfl⟩

end Verif.Unify
