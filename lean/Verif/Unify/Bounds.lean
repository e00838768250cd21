import Verif.Unify.Typeof

/-!
# C32, C77: bounds of type variables

`_unify_typevar` (`internals/unification.py` 314-326) looks at the bound of a type variable only where the variable is on the
right. The model is that of `Verif.Unify.Model`, with `Table.bounds`.
-/

namespace Verif.Unify

/-- The same classes, with other bounds. -/
def Table.withBounds (T : Table) (f : Nat → Option Ty) : Table := { T with bounds := f }

section

variable {T : Table} {f : Nat → Option Ty}

mutual

theorem canon_withBounds : ∀ t, canon (T.withBounds f) t = canon T t
  | .var _ | .con _ | .any | .ell => rfl
  | .gen _ ts => by simp only [canon, canons_withBounds ts]; rfl
  | .union ts => by simp only [canon, canons_withBounds ts]
  | .seq ts => by simp only [canon, canons_withBounds ts]

theorem canons_withBounds : ∀ ts, canons (T.withBounds f) ts = canons T ts
  | [] => rfl
  | t :: ts => by simp only [canons, canon_withBounds t, canons_withBounds ts]

end

theorem findBase_withBounds (c : Nat) : ∀ bs, findBase (T.withBounds f) c bs = findBase T c bs
  | [] => rfl
  | b :: bs => by
    obtain ⟨e, g⟩ := b
    simp only [findBase, findBase_withBounds c bs]
    rfl

/-- Two unifications that agree where the type on the right and the substitution have no variables, and keep it so. -/
def Agree (U V : Uni) : Prop := ∀ t s q, Ground s → GroundSubs q → U t s q = V t s q

def KeepsGround (U : Uni) : Prop := ∀ t s q r, Ground s → GroundSubs q → U t s q = some (some r) → GroundSubs r

theorem Agree.fold {U V : Uni} (h : Agree U V) (hk : KeepsGround U) : ∀ (ps : List (Ty × Ty)) (q : Subs),
    (∀ p ∈ ps, Ground p.2) → GroundSubs q → fold U ps q = fold V ps q
  | [], _, _, _ => rfl
  | (t, s) :: ps, q, hps, hq => by
    have hs : Ground s := hps (t, s) List.mem_cons_self
    simp only [Unify.fold, ← h t s q hs hq]
    cases hU : U t s q with
    | none => rfl
    | some o =>
      cases o with
      | none => rfl
      | some r => exact h.fold hk ps r (fun p hp => hps p (List.mem_cons_of_mem _ hp)) (hk t s q r hs hq hU)

theorem Agree.alternatives {U V : Uni} (h : Agree U V) {s : Ty} {q : Subs} (hs : Ground s) (hq : GroundSubs q) :
    ∀ ts, alternatives U s q ts = alternatives V s q ts
  | [] => rfl
  | t :: ts => by simp only [Unify.alternatives, h t s q hs hq, h.alternatives hs hq ts]

theorem agree_unifyCanon (hT : GroundTable T) {U V : Uni} (h : Agree U V) (hk : KeepsGround U) (t s : Ty) (q : Subs)
    (hs : Ground s) (hq : GroundSubs q) : unifyCanon T U t s q = unifyCanon (T.withBounds f) V t s q := by
  have hvar : ∀ b, s ≠ .var b := by
    intro b e; subst e; simp [Ground, fvs] at hs
  have e1 : unifyVar T U t s q = unifyVar (T.withBounds f) V t s q := by
    cases t with
    | var a =>
      cases s with
      | var b => exact absurd rfl (hvar b)
      | _ => exact h _ _ _ hs (ground_add hq hs)
    | _ =>
      cases s with
      | var b => exact absurd rfl (hvar b)
      | _ => rfl
  have e2 : unifySeq U t s q = unifySeq V t s q := by
    unfold unifySeq
    split
    · rfl
    · split
      · split
        · exact h.fold hk _ _ (fun p hp => mem_ground (by simpa [Ground, fvs] using hs) (List.of_mem_zip hp).2) hq
        · rfl
      · rfl
  have e3 : unifyUnion U t s q = unifyUnion V t s q := by
    cases s with
    | union ss =>
      refine h.fold hk _ _ (fun p hp => ?_) hq
      obtain ⟨a, ha, e⟩ := List.mem_map.1 hp
      rw [← e]
      exact mem_ground (by simpa [Ground, fvs] using hs) ha
    | _ =>
      cases t with
      | union ts => simp only [unifyUnion, h.alternatives hs hq ts]
      | _ => rfl
  have e4 : unifyGen T U t s q = unifyGen (T.withBounds f) V t s q := by
    cases s with
    | gen d ss =>
      have hss : fvsL ss = [] := by simpa [Ground, fvs] using hs
      cases t with
      | gen c ts =>
        have k1 : fold U (ss.map fun a => (Ty.gen c ts, Ty.gen T.sequence [a])) q
            = fold V (ss.map fun a => (Ty.gen c ts, Ty.gen T.sequence [a])) q := by
          refine h.fold hk _ _ (fun p hp => ?_) hq
          obtain ⟨a, ha, e⟩ := List.mem_map.1 hp
          rw [← e]
          have := mem_ground hss ha
          simpa [Ground, fvs, fvsL] using this
        have k2 : ∀ a b, a ∈ ts → b ∈ ss → U a b q = V a b q := fun a b _ hb => h a b q (mem_ground hss hb) hq
        have k3 : U (.seq ts) (.seq ss) q = V (.seq ts) (.seq ss) q := h _ _ _ (by simpa [Ground, fvs] using hss) hq
        have k4 : (match findBase T c (T.bases d) with
            | some g =>
              match g ss with
              | some b => U (.gen c ts) b q
              | none => some none
            | none => some none) = (match findBase (T.withBounds f) c ((T.withBounds f).bases d) with
            | some g =>
              match g ss with
              | some b => V (.gen c ts) b q
              | none => some none
            | none => some none) := by
          rw [findBase_withBounds]
          show _ = (match findBase T c (T.bases d) with
            | some g =>
              match g ss with
              | some b => V (.gen c ts) b q
              | none => some none
            | none => some none)
          cases hf : findBase T c (T.bases d) with
          | none => rfl
          | some g =>
            simp only
            cases hb : g ss with
            | none => rfl
            | some b =>
              obtain ⟨e, he⟩ := findBase_mem _ hf
              exact h _ _ _ (hT d e g ss b he hss hb) hq
        simp only [unifyGen]
        by_cases h1 : T.sub d c = true
        · rw [if_pos h1, if_pos (show (T.withBounds f).sub d c = true from h1)]
          by_cases h2 : d = T.tuple ∧ c ≠ T.tuple
          · rw [if_pos h2, if_pos (show d = (T.withBounds f).tuple ∧ c ≠ (T.withBounds f).tuple from h2)]
            exact k1
          · rw [if_neg h2, if_neg (show ¬ (d = (T.withBounds f).tuple ∧ c ≠ (T.withBounds f).tuple) from h2)]
            by_cases h3 : d = T.mapping ∧ T.sub c T.mapping = false
            · rw [if_pos h3, if_pos (show d = (T.withBounds f).mapping ∧ (T.withBounds f).sub c (T.withBounds f).mapping = false from h3)]
              cases ts with
              | nil => rfl
              | cons a ts =>
                cases ss with
                | nil => rfl
                | cons b ss => exact k2 a b List.mem_cons_self List.mem_cons_self
            · rw [if_neg h3, if_neg (show ¬ (d = (T.withBounds f).mapping ∧ (T.withBounds f).sub c (T.withBounds f).mapping = false) from h3)]
              by_cases h4 : d = T.generator ∧ T.sub c T.generator = false
              · rw [if_pos h4,
                  if_pos (show d = (T.withBounds f).generator ∧ (T.withBounds f).sub c (T.withBounds f).generator = false from h4)]
                cases ts with
                | nil => rfl
                | cons a ts =>
                  cases ss with
                  | nil => rfl
                  | cons b ss => exact k2 a b List.mem_cons_self List.mem_cons_self
              · rw [if_neg h4,
                  if_neg (show ¬ (d = (T.withBounds f).generator ∧ (T.withBounds f).sub c (T.withBounds f).generator = false) from h4)]
                by_cases h5 : c = d
                · rw [if_pos h5, if_pos h5]
                  exact k3
                · rw [if_neg h5, if_neg h5]
                  exact k4
        · rw [if_neg h1, if_neg (show ¬ (T.withBounds f).sub d c = true from h1)]
      | con c => exact h _ _ _ rfl hq
      | any => exact h _ _ _ rfl hq
      | _ => rfl
    | con d => cases t <;> rfl
    | _ => cases t <;> rfl
  unfold unifyCanon
  rw [e1, e2, e3, e4]
  rfl

/-- The bounds of type variables are not looked at where the types of the arguments have no type variables: the result, a
solution or a TypeError, is the same with any bounds. -/
theorem C32_bounds_ignored (hT : GroundTable T) (hI : IdemTable T) (f : Nat → Option Ty) (n : Nat) (t s : Ty) (q : Subs)
    (hs : Ground s) (hq : GroundSubs q) : unify (T.withBounds f) n t s q = unify T n t s q := by
  induction n generalizing t s q with
  | zero => rfl
  | succ n ih =>
    simp only [unify, canon_withBounds]
    refine (agree_unifyCanon hT (fun t s q hs hq => (ih t s q hs hq).symm) ?_ _ _ q (ground_canon hs) hq).symm
    intro t s q r hs hq h
    exact (unify_sound hT hI n t s q r hs hq h).1

end

/-- Variable 0 has the bound `int`; a class `B` that is no subclass of `int` is a solution for it. -/
theorem C32_bound_fails : ∃ (T : Table) (b s : Ty), GroundTable T ∧ IdemTable T ∧ Ground b ∧ Ground s ∧ T.bounds 0 = some b ∧
    unify T 10 (.var 0) s [] = some (some [(0, s)]) ∧ ¬ Desc T b s := by
  refine ⟨exT.withBounds fun v => if v = 0 then some Cls.int.ty else none, Cls.int.ty, Cls.userB.ty, exT_ground, exT_idem, rfl, rfl,
    rfl, rfl, ?_⟩
  intro h
  rcases desc_con h _ _ rfl rfl with h | h
  · cases h
  · cases h

/-- A type variable with a bound, on the right, is rejected for every type that is no variable, the bound included; without a
bound it stands for that type. -/
theorem C32_bounded_fails (T : Table) (n v c : Nat) (q : Subs) (b : Ty) (hv : T.bounds v = some b) (t : Ty)
    (ht : isVar (canon T t) = false) : unify T (n + 1) t (.var v) q = some none ∧
      unify (T.withBounds fun _ => none) (n + 2) (.con c) (.var v) [] = some (some [(v, .con (T.cn c))]) := by
  constructor
  · have hne : Ty.beq (canon T t) (.var v) = false := by
      cases h : canon T t with
      | var a => rw [h] at ht; cases ht
      | _ => rfl
    have hu : unifyVar T (unify T n) (canon T t) (.var v) q = some none := by
      cases h : canon T t with
      | var a => rw [h] at ht; cases ht
      | _ => simp [unifyVar, hv]
    have hc : canon T (.var v) = .var v := rfl
    simp only [unify, hc, unifyCanon, hne, hu, isVar, Bool.or_true, if_true]
    rfl
  · simp only [unify, unifyCanon, canon, Ty.beq, isVar, Bool.or_true, if_true, unifyVar, Table.withBounds, Option.isNone_none, get,
      List.lookup, Option.getD_none, add]
    simp

example : isVar (canon exT Cls.int.ty) = false := rfl

/-- Two type variables always agree, whatever their bounds are: the one on the left stands for the other, or keeps what it stands
for. -/
theorem C32_variables (T : Table) (n a b : Nat) (q : Subs) (hab : a ≠ b) :
    (get q a = none → unify T (n + 1) (.var a) (.var b) q = some (some ((a, .var b) :: q))) ∧
      ((get q a).isSome → unify T (n + 1) (.var a) (.var b) q = some (some q)) := by
  constructor
  · intro h
    simp [unify, unifyCanon, canon, Ty.beq, hab, isVar, unifyVar, add, h]
  · intro h
    obtain ⟨u, hu⟩ := Option.isSome_iff_exists.1 h
    simp [unify, unifyCanon, canon, Ty.beq, hab, isVar, unifyVar, add, hu]

/-- Variable 0 has the bound `int`. A call of `def f[T: int](x: T) -> T` with a `B` has the type `B`; and with `g()` of the type of
an unsolved variable with that bound, `k(g(), 1)` raises a TypeError where `def k[S](x: int, y: S) -> S`, although `typeof` of
`g()` is `int`. Without the bound, `k(g(), 1)` is an `int`. -/
theorem C77_bound_fails : ∃ (T : Table) (f k : Typeof.Op), T.bounds 0 = some Cls.int.ty ∧ f.params = [.var 0] ∧ f.ret = .var 0 ∧
    T.sub Cls.userB.n Cls.int.n = false ∧ Typeof.typeRule T 10 f [Cls.userB.ty] = some Cls.userB.ty ∧
    k.params = [Cls.int.ty, .var 1] ∧ k.ret = .var 1 ∧ Typeof.typeRule T 10 k [.var 0, Cls.int.ty] = none ∧
    Typeof.typeRule (T.withBounds fun _ => none) 10 k [.var 0, Cls.int.ty] = some Cls.int.ty :=
  ⟨exT.withBounds fun v => if v = 0 then some Cls.int.ty else none, ⟨0, [.var 0], .var 0⟩, ⟨1, [Cls.int.ty, .var 1], .var 1⟩,
    rfl, rfl, rfl, rfl, rfl, rfl, rfl, rfl, rfl⟩

end Verif.Unify
