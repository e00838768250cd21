import Verif.Unify.Typeof

/-!
# C83: types of arithmetic on number terms

The signatures of the methods of `_NumberTerm` (`ops/syntax.py` 1006-1338) with the model of `Operation.__type_rule__` of C77.
The type decides the class of a term (`apply_cast`, `ops/syntax.py` 511-515): `_IntegralTerm`, `_RealTerm` and so on.

Simplifications: as in C77. `self` without an annotation (590-592 of `internals/unification.py` skip it) is `Any`. Numbers are `bool`,
`int`, `float` and `complex`; what classes the results of Python's arithmetic have is a hypothesis.
-/

namespace Verif.Unify.NumTypes

open Verif.Unify Verif.Unify.Typeof

variable {V : Type}

/-- Classes of numbers. -/
inductive Num where
  | bool | int | float | complex
deriving DecidableEq

def Num.rank : Num → Nat
  | .bool => 0
  | .int => 1
  | .float => 2
  | .complex => 3

/-- A number of one class is accepted where the other is expected (PEP 484). -/
def Num.le (a b : Num) : Prop := a.rank ≤ b.rank

instance (a b : Num) : Decidable (a.le b) := inferInstanceAs (Decidable (_ ≤ _))

inductive Un where
  | neg | pos | abs | invert | conjugate | trunc | floor | ceil | index
deriving DecidableEq

inductive Bin where
  | add | sub | mul | truediv | floordiv | mod | pow | lshift | rshift | and | xor | or
deriving DecidableEq

inductive Cmp where
  | lt | le | gt | ge
deriving DecidableEq

/-! ## The model -/

/-- Numbers of the classes in a table. -/
def numTy (cls : Num → Nat) (k : Num) : Ty := .con (cls k)

/-- The signatures of methods of one operand (1041-1123). -/
def unOp (cls : Num → Nat) (u : Un) : Op where
  name := match u with
    | .neg => 0 | .pos => 1 | .abs => 2 | .invert => 3 | .conjugate => 4 | .trunc => 5 | .floor => 6 | .ceil => 7 | .index => 8
  params := match u with
    | .neg => [.var 0]
    | .pos => [.var 0]
    | _ => [.any]
  ret := match u with
    | .neg => .var 0
    | .pos => .var 0
    | .abs => numTy cls .float
    | .conjugate => numTy cls .complex
    | _ => numTy cls .int

/-- The signatures of methods of two operands (1159-1331): `(self, other: T) -> T`. -/
def binOp (o : Bin) : Op where
  name := match o with
    | .add => 10 | .sub => 11 | .mul => 12 | .truediv => 13 | .floordiv => 14 | .mod => 15 | .pow => 16 | .lshift => 17
    | .rshift => 18 | .and => 19 | .xor => 20 | .or => 21
  params := [.any, .var 0]
  ret := .var 0

/-- The signatures of comparisons (1132-1158). -/
def cmpOp (cls : Num → Nat) (c : Cmp) : Op where
  name := match c with
    | .lt => 30 | .le => 31 | .gt => 32 | .ge => 33
  params := [.any, .any]
  ret := numTy cls .bool

/-- A variable `defop(k)`. -/
def varOp (cls : Num → Nat) (i : Nat) (k : Num) : Op where
  name := 100 + i
  params := []
  ret := numTy cls k

/-- Arithmetic on values; `none` if it raises. -/
structure Arith (V : Type) where
  cls : V → Num
  un : Un → V → Option V
  bin : Bin → V → V → Option V
  cmp : Cmp → V → V → Option V

/-- A program. -/
inductive Prog (V : Type) where
  | var (i : Nat) (k : Num)
  | const (v : V)
  | un (u : Un) (p : Prog V)
  | bin (o : Bin) (p q : Prog V)
  | cmp (c : Cmp) (p q : Prog V)

/-- What Python makes of a program when nothing is handled: it computes with numbers at once, and makes terms else (C30). The term of
a reflected comparison has the same type. -/
def build (A : Arith V) (cls : Num → Nat) : Prog V → Option (Tm V)
  | .var i k => some (.app (varOp cls i k) [])
  | .const v => some (.con v)
  | .un u p =>
    match build A cls p with
    | none => none
    | some (.con v) => (A.un u v).map .con
    | some t => some (.app (unOp cls u) [t])
  | .bin o p q =>
    match build A cls p, build A cls q with
    | some (.con v), some (.con w) => (A.bin o v w).map .con
    | some s, some t => some (.app (binOp o) [s, t])
    | _, _ => none
  | .cmp c p q =>
    match build A cls p, build A cls q with
    | some (.con v), some (.con w) => (A.cmp c v w).map .con
    | some s, some t => some (.app (cmpOp cls c) [s, t])
    | _, _ => none

/-- `nested_type` of numbers. -/
def valTy (A : Arith V) (cls : Num → Nat) (v : V) : Ty := numTy cls (A.cls v)

/-! ## Specification -/

/-- The program on numbers. -/
def Prog.eval (A : Arith V) (ρ : Nat → V) : Prog V → Option V
  | .var i _ => some (ρ i)
  | .const v => some v
  | .un u p => (p.eval A ρ).bind (A.un u)
  | .bin o p q => (p.eval A ρ).bind fun v => (q.eval A ρ).bind (A.bin o v)
  | .cmp c p q => (p.eval A ρ).bind fun v => (q.eval A ρ).bind (A.cmp c v)

/-- The variables have numbers of their types. -/
def Prog.Agrees (A : Arith V) (ρ : Nat → V) : Prog V → Prop
  | .var i k => (A.cls (ρ i)).le k
  | .const _ => True
  | .un _ p => p.Agrees A ρ
  | .bin _ p q => p.Agrees A ρ ∧ q.Agrees A ρ
  | .cmp _ p q => p.Agrees A ρ ∧ q.Agrees A ρ

def Prog.hasVars : Prog V → Bool
  | .var _ _ => true
  | .const _ => false
  | .un _ p => p.hasVars
  | .bin _ p q => p.hasVars || q.hasVars
  | .cmp _ p q => p.hasVars || q.hasVars

/-- The class of the result of Python's operators, from the classes of the operands. -/
def binResult (o : Bin) (a b c : Num) : Prop :=
  match o with
  | .truediv => c.rank = max (max a.rank b.rank) 2
  | .pow => True
  | .lshift => c = .int
  | .rshift => c = .int
  | .and => c.rank = max a.rank b.rank
  | .xor => c.rank = max a.rank b.rank
  | .or => c.rank = max a.rank b.rank
  | _ => c.rank = max (max a.rank b.rank) 1

def unResult (u : Un) (a c : Num) : Prop :=
  match u with
  | .neg => c.rank = max a.rank 1
  | .pos => c.rank = max a.rank 1
  | .abs => c.le .float
  | .conjugate => True
  | _ => c = .int

structure Arith.Lawful (A : Arith V) : Prop where
  un : ∀ u a v, A.un u a = some v → unResult u (A.cls a) (A.cls v)
  bin : ∀ o a b v, A.bin o a b = some v → binResult o (A.cls a) (A.cls b) (A.cls v)
  cmp : ∀ c a b v, A.cmp c a b = some v → A.cls v = .bool

/-- The classes are different and canonical. -/
structure Table.Numbers (T : Table) (cls : Num → Nat) : Prop where
  inj : ∀ a b, cls a = cls b → a = b
  cn : ∀ k, T.cn (cls k) = cls k

/-- Operands for which the type of the right one describes the result. -/
def fits (o : Bin) (a b : Num) : Prop :=
  match o with
  | .truediv => a.le b ∧ Num.float.le b
  | .pow => b = .complex
  | .lshift => Num.int.le b
  | .rshift => Num.int.le b
  | .and => a.le b
  | .xor => a.le b
  | .or => a.le b
  | _ => a.le b ∧ Num.int.le b

def fitsUn (u : Un) (a : Num) : Prop :=
  match u with
  | .neg => a ≠ .bool
  | .pos => a ≠ .bool
  | _ => True

/-- The class that the program's term has, for a term with the classes of the operands. -/
def unKind (u : Un) (a : Num) : Num :=
  match u with
  | .neg => a
  | .pos => a
  | .abs => .float
  | .conjugate => .complex
  | _ => .int

/-- The type of the program: of numbers their class, of operators with two operands the type of the right one. -/
inductive Kind (A : Arith V) : Prog V → Num → Prop
  | var (i k) : Kind A (.var i k) k
  /-- A program without variables is a number. -/
  | value {p v ρ} : p.hasVars = false → p.eval A ρ = some v → Kind A p (A.cls v)
  | un {u p a} : p.hasVars = true → Kind A p a → Kind A (.un u p) (unKind u a)
  | bin {o p q a b} : (p.hasVars || q.hasVars) = true → Kind A p a → Kind A q b → Kind A (.bin o p q) b
  | cmp {c p q a b} : (p.hasVars || q.hasVars) = true → Kind A p a → Kind A q b → Kind A (.cmp c p q) .bool

/-- In all operators that are applied to terms, the types of the operands fit. -/
def Prog.Fit (A : Arith V) : Prog V → Prop
  | .var _ _ => True
  | .const _ => True
  | .un u p => p.Fit A ∧ (p.hasVars = true → ∀ a, Kind A p a → fitsUn u a)
  | .bin o p q => p.Fit A ∧ q.Fit A ∧ ((p.hasVars || q.hasVars) = true → ∀ a b, Kind A p a → Kind A q b → fits o a b)
  | .cmp _ p q => p.Fit A ∧ q.Fit A

/-! ## Proofs -/

theorem eval_const (A : Arith V) (ρ ρ' : Nat → V) : ∀ p : Prog V, p.hasVars = false → p.eval A ρ = p.eval A ρ'
  | .var _ _, h => nomatch h
  | .const _, _ => rfl
  | .un u p, h => by
    simp only [Prog.eval]
    rw [eval_const A ρ ρ' p h]
  | .bin o p q, h => by
    obtain ⟨h1, h2⟩ := Bool.or_eq_false_iff.mp h
    simp only [Prog.eval]
    rw [eval_const A ρ ρ' p h1, eval_const A ρ ρ' q h2]
  | .cmp o p q, h => by
    obtain ⟨h1, h2⟩ := Bool.or_eq_false_iff.mp h
    simp only [Prog.eval]
    rw [eval_const A ρ ρ' p h1, eval_const A ρ ρ' q h2]

/-- Programs without variables are computed, others are terms. -/
theorem build_shape (A : Arith V) (cls : Num → Nat) (ρ : Nat → V) : ∀ (p : Prog V) (t : Tm V), build A cls p = some t →
    (p.hasVars = false → ∃ v, t = .con v ∧ p.eval A ρ = some v) ∧ (p.hasVars = true → ∃ op ts, t = .app op ts) := by
  intro p
  induction p with
  | var i k =>
    intro t h
    cases h
    exact ⟨fun h => (nomatch h), fun _ => ⟨_, _, rfl⟩⟩
  | const v =>
    intro t h
    cases h
    exact ⟨fun _ => ⟨v, rfl, rfl⟩, fun h => (nomatch h)⟩
  | un u p ih =>
    intro t h
    simp only [build] at h
    split at h
    · cases h
    · next v hp =>
      obtain ⟨v', h1, rfl⟩ := Option.map_eq_some_iff.mp h
      obtain ⟨i1, i2⟩ := ih _ hp
      have hv : p.hasVars = false := by
        cases hb : p.hasVars with
        | false => rfl
        | true => obtain ⟨_, _, e⟩ := i2 hb; cases e
      obtain ⟨w, e, hw⟩ := i1 hv
      cases e
      exact ⟨fun _ => ⟨v', rfl, by rw [Prog.eval, hw]; exact h1⟩, fun h => absurd (hv.symm.trans h) (by decide)⟩
    · next s hs hp =>
      cases h
      obtain ⟨i1, i2⟩ := ih _ hp
      refine ⟨fun hv => ?_, fun _ => ⟨_, _, rfl⟩⟩
      obtain ⟨v, rfl, _⟩ := i1 hv
      exact absurd rfl (hs v)
  | bin o p q ihp ihq =>
    intro t h
    simp only [build] at h
    split at h
    · next v w hp hq =>
      obtain ⟨v', h1, rfl⟩ := Option.map_eq_some_iff.mp h
      obtain ⟨i1, i2⟩ := ihp _ hp
      obtain ⟨j1, j2⟩ := ihq _ hq
      have hv : p.hasVars = false := by
        cases hb : p.hasVars with
        | false => rfl
        | true => obtain ⟨_, _, e⟩ := i2 hb; cases e
      have hw : q.hasVars = false := by
        cases hb : q.hasVars with
        | false => rfl
        | true => obtain ⟨_, _, e⟩ := j2 hb; cases e
      obtain ⟨a, e, ha⟩ := i1 hv
      cases e
      obtain ⟨b, e, hb⟩ := j1 hw
      cases e
      refine ⟨fun _ => ⟨v', rfl, by rw [Prog.eval, ha, hb]; exact h1⟩, fun h => ?_⟩
      rw [Prog.hasVars, hv, hw] at h
      cases h
    · next s t' hs hp hq =>
      cases h
      refine ⟨fun hv => ?_, fun _ => ⟨_, _, rfl⟩⟩
      obtain ⟨h1, h2⟩ := Bool.or_eq_false_iff.mp hv
      obtain ⟨v, rfl, _⟩ := (ihp _ hp).1 h1
      obtain ⟨w, rfl, _⟩ := (ihq _ hq).1 h2
      exact absurd rfl (hs v w rfl)
    · cases h
  | cmp c p q ihp ihq =>
    intro t h
    simp only [build] at h
    split at h
    · next v w hp hq =>
      obtain ⟨v', h1, rfl⟩ := Option.map_eq_some_iff.mp h
      obtain ⟨i1, i2⟩ := ihp _ hp
      obtain ⟨j1, j2⟩ := ihq _ hq
      have hv : p.hasVars = false := by
        cases hb : p.hasVars with
        | false => rfl
        | true => obtain ⟨_, _, e⟩ := i2 hb; cases e
      have hw : q.hasVars = false := by
        cases hb : q.hasVars with
        | false => rfl
        | true => obtain ⟨_, _, e⟩ := j2 hb; cases e
      obtain ⟨a, e, ha⟩ := i1 hv
      cases e
      obtain ⟨b, e, hb⟩ := j1 hw
      cases e
      refine ⟨fun _ => ⟨v', rfl, by rw [Prog.eval, ha, hb]; exact h1⟩, fun h => ?_⟩
      rw [Prog.hasVars, hv, hw] at h
      cases h
    · next s t' hs hp hq =>
      cases h
      refine ⟨fun hv => ?_, fun _ => ⟨_, _, rfl⟩⟩
      obtain ⟨h1, h2⟩ := Bool.or_eq_false_iff.mp hv
      obtain ⟨v, rfl, _⟩ := (ihp _ hp).1 h1
      obtain ⟨w, rfl, _⟩ := (ihq _ hq).1 h2
      exact absurd rfl (hs v w rfl)
    · cases h

variable {T : Table} {cls : Num → Nat}

theorem unify_any (n : Nat) (a : Num) (r : Subs) : unify T (n + 1) .any (numTy cls a) r = some (some r) := rfl

theorem unify_same (hT : Table.Numbers T cls) (n : Nat) (a : Num) (r : Subs) :
    unify T (n + 1) (numTy cls a) (numTy cls a) r = some (some r) := by
  simp [unify, numTy, canon, hT.cn, unifyCanon, Ty.beq]

theorem unify_var (hT : Table.Numbers T cls) (n : Nat) (b : Num) :
    unify T (n + 2) (.var 0) (numTy cls b) [] = some (some [(0, numTy cls b)]) := by
  have h := unify_same hT n b [(0, numTy cls b)]
  have e : canon T (numTy cls b) = numTy cls b := by simp [numTy, canon, hT.cn]
  rw [unify, e]
  exact h

theorem substitute_var (n : Nat) (b : Num) : substitute [(0, numTy cls b)] (n + 2) (.var 0) = some (numTy cls b) := rfl

theorem rule_bin (hT : Table.Numbers T cls) (n : Nat) (o : Bin) (a b : Num) :
    typeRule T (n + 2) (binOp o) [numTy cls a, numTy cls b] = some (numTy cls b) := by
  have h : unifySignature T (n + 2) [(.any, numTy cls a), (.var 0, numTy cls b)] [] = some (some [(0, numTy cls b)]) := by
    simp only [unifySignature, fold, unify_any, unify_var hT]
  show (match unifySignature T (n + 2) [(.any, numTy cls a), (.var 0, numTy cls b)] [] with
    | some (some r) => substitute r (n + 2) (.var 0)
    | _ => none) = _
  rw [h]
  rfl

theorem rule_un (hT : Table.Numbers T cls) (n : Nat) (u : Un) (a : Num) :
    typeRule T (n + 2) (unOp cls u) [numTy cls a] = some (numTy cls (unKind u a)) := by
  have h : unifySignature T (n + 2) [(.var 0, numTy cls a)] [] = some (some [(0, numTy cls a)]) := by
    simp only [unifySignature, fold, unify_var hT]
  have key : (match unifySignature T (n + 2) [(.var 0, numTy cls a)] [] with
    | some (some r) => substitute r (n + 2) (.var 0)
    | _ => none) = some (numTy cls a) := by
    rw [h]
    rfl
  cases u with
  | neg => exact key
  | pos => exact key
  | abs => rfl
  | invert => rfl
  | conjugate => rfl
  | trunc => rfl
  | floor => rfl
  | ceil => rfl
  | index => rfl

theorem kind_value {A : Arith V} {p : Prog V} {ρ : Nat → V} {v : V} (hp : p.hasVars = false) (h : p.eval A ρ = some v) :
    ∀ k, Kind A p k → k = A.cls v := by
  intro k hk
  cases hk with
  | var i k => cases hp
  | @value _ w ρ' _ hw =>
    rw [eval_const A ρ' ρ p hp, h] at hw
    cases hw
    rfl
  | un hb _ => exact absurd (hb.symm.trans hp) (fun e => nomatch e)
  | bin hb _ _ => exact absurd (hb.symm.trans hp) (fun e => nomatch e)
  | cmp hb _ _ => exact absurd (hb.symm.trans hp) (fun e => nomatch e)

/-- Types computed are kinds, and kinds are unique. -/
theorem typeOf_kind (hT : Table.Numbers T cls) (A : Arith V) (ρ : Nat → V) (n : Nat) : ∀ (p : Prog V) (t : Tm V),
    build A cls p = some t → ∃ k, typeOf T (n + 2) (valTy A cls) t = some (numTy cls k) ∧ Kind A p k ∧ ∀ k', Kind A p k' → k' = k := by
  intro p
  induction p with
  | var i k =>
    intro t h
    cases h
    refine ⟨k, by simp [typeOf, typesOf, typeRule, varOp, numTy, fvs], .var i k, fun k' hk => ?_⟩
    cases hk with
    | var _ _ => rfl
    | value h _ => cases h
  | const v =>
    intro t h
    cases h
    exact ⟨A.cls v, by rw [typeOf, valTy], .value (ρ := ρ) rfl rfl, kind_value (ρ := ρ) rfl rfl⟩
  | un u p ih =>
    intro t h
    have sh := build_shape A cls ρ _ _ h
    cases hb : p.hasVars with
    | false =>
      obtain ⟨v, rfl, hv⟩ := sh.1 hb
      exact ⟨A.cls v, by rw [typeOf, valTy], .value hb hv, kind_value hb hv⟩
    | true =>
      simp only [build] at h
      split at h
      · cases h
      · next v hp => obtain ⟨_, _, e⟩ := (build_shape A cls ρ _ _ hp).2 hb; cases e
      · next s _ hp =>
        cases h
        obtain ⟨a, h1, h2, h3⟩ := ih _ hp
        refine ⟨unKind u a, ?_, .un hb h2, fun k' hk => ?_⟩
        · rw [typeOf, typesOf, typesOf, h1]
          exact rule_un hT n u a
        · cases hk with
          | value h _ => rw [Prog.hasVars, hb] at h; cases h
          | un _ hk => rw [h3 _ hk]
  | bin o p q ihp ihq =>
    intro t h
    have sh := build_shape A cls ρ _ _ h
    cases hb : (p.hasVars || q.hasVars) with
    | false =>
      obtain ⟨v, rfl, hv⟩ := sh.1 hb
      exact ⟨A.cls v, by rw [typeOf, valTy], .value hb hv, kind_value hb hv⟩
    | true =>
      obtain ⟨op, ts, rfl⟩ := sh.2 hb
      simp only [build] at h
      split at h
      · obtain ⟨_, _, e⟩ := Option.map_eq_some_iff.mp h; cases e
      · next s t' _ hp hq =>
        cases h
        obtain ⟨a, h1, h2, h3⟩ := ihp _ hp
        obtain ⟨b, k1, k2, k3⟩ := ihq _ hq
        refine ⟨b, ?_, .bin hb h2 k2, fun k' hk => ?_⟩
        · rw [typeOf, typesOf, typesOf, typesOf, h1, k1]
          exact rule_bin hT n o a b
        · cases hk with
          | value h _ => rw [Prog.hasVars, hb] at h; cases h
          | bin _ _ hk => exact k3 _ hk
      · cases h
  | cmp c p q ihp ihq =>
    intro t h
    have sh := build_shape A cls ρ _ _ h
    cases hb : (p.hasVars || q.hasVars) with
    | false =>
      obtain ⟨v, rfl, hv⟩ := sh.1 hb
      exact ⟨A.cls v, by rw [typeOf, valTy], .value hb hv, kind_value hb hv⟩
    | true =>
      obtain ⟨op, ts, rfl⟩ := sh.2 hb
      simp only [build] at h
      split at h
      · obtain ⟨_, _, e⟩ := Option.map_eq_some_iff.mp h; cases e
      · next s t' _ hp hq =>
        cases h
        obtain ⟨a, h1, h2, h3⟩ := ihp _ hp
        obtain ⟨b, k1, k2, k3⟩ := ihq _ hq
        refine ⟨.bool, ?_, .cmp hb h2 k2, fun k' hk => ?_⟩
        · rw [typeOf, typesOf, typesOf, typesOf, h1, k1]
          rfl
        · cases hk with
          | value h _ => rw [Prog.hasVars, hb] at h; cases h
          | cmp _ _ _ => rfl
      · cases h

theorem rank_le_three (a : Num) : a.rank ≤ 3 := by cases a <;> decide

theorem fits_sound {o : Bin} {a b a' b' c : Num} (h : fits o a b) (ha : a'.le a) (hb : b'.le b) (hc : binResult o a' b' c) :
    c.le b := by
  unfold Num.le at *
  have h3 := rank_le_three c
  cases o <;> simp only [fits, binResult, Num.le] at h hc
  case pow => subst h; exact h3
  case lshift => subst hc; exact h
  case rshift => subst hc; exact h
  case truediv => have h2 : 2 ≤ b.rank := h.2; omega
  case and => omega
  case xor => omega
  case or => omega
  all_goals have h1 : 1 ≤ b.rank := h.2; omega

theorem fitsUn_sound {u : Un} {a a' c : Num} (h : fitsUn u a) (ha : a'.le a) (hc : unResult u a' c) : c.le (unKind u a) := by
  have h3 := rank_le_three c
  unfold Num.le at *
  have h1 : a ≠ .bool → 1 ≤ a.rank := by cases a <;> simp [Num.rank]
  cases u <;> simp only [fitsUn, unResult, unKind] at h hc ⊢
  case neg => have := h1 h; omega
  case pos => have := h1 h; omega
  case abs => exact hc
  case conjugate => exact h3
  all_goals subst hc; exact Nat.le_refl _

/-! ## Theorems -/

/-- The type of an operator applied to terms is the type of its right operand, whatever the operator and the left operand are. -/
theorem C83_right (hT : Table.Numbers T cls) (A : Arith V) (n : Nat) (o : Bin) (p q : Prog V) (s t u : Tm V)
    (h : (p.hasVars || q.hasVars) = true) (hp : build A cls p = some s) (hq : build A cls q = some t)
    (hu : build A cls (.bin o p q) = some u) (ρ : Nat → V) :
    typeOf T (n + 2) (valTy A cls) u = typeOf T (n + 2) (valTy A cls) t := by
  obtain ⟨b, k1, k2, _⟩ := typeOf_kind hT A ρ n q t hq
  obtain ⟨a, _, h2, _⟩ := typeOf_kind hT A ρ n p s hp
  obtain ⟨c, c1, _, c3⟩ := typeOf_kind hT A ρ n _ u hu
  rw [c1, k1, c3 b (.bin h h2 k2)]

/-- If in all operators that are applied to terms the types of operands fit, the number that is computed has the type of the term. -/
theorem C83_sound_partial (hT : Table.Numbers T cls) (A : Arith V) (hA : A.Lawful) (n : Nat) (ρ : Nat → V) (p : Prog V) (t : Tm V)
    (ht : build A cls p = some t) (hf : p.Fit A) (hρ : p.Agrees A ρ) (v : V) (hv : p.eval A ρ = some v) :
    ∃ k, typeOf T (n + 2) (valTy A cls) t = some (numTy cls k) ∧ (A.cls v).le k := by
  have main : ∀ (p : Prog V) (t : Tm V), build A cls p = some t → p.Fit A → p.Agrees A ρ → ∀ v, p.eval A ρ = some v →
      ∀ k, Kind A p k → (A.cls v).le k := by
    intro p
    induction p with
    | var i k =>
      intro t _ _ hρ v hv k' hk
      cases hv
      cases hk with
      | var _ _ => exact hρ
      | value h _ => cases h
    | const w =>
      intro t _ _ _ v hv k hk
      rw [kind_value (ρ := ρ) rfl hv k hk]
      exact Nat.le_refl _
    | un u p ih =>
      intro t ht hf hρ v hv k hk
      cases hb : p.hasVars with
      | false =>
        rw [kind_value (p := .un u p) (ρ := ρ) hb hv k hk]
        exact Nat.le_refl _
      | true =>
        obtain ⟨w, hw, hv⟩ := Option.bind_eq_some_iff.mp hv
        have hs : ∃ s, build A cls p = some s := by
          simp only [build] at ht
          split at ht
          · cases ht
          · next hp => exact ⟨_, hp⟩
          · next hp => exact ⟨_, hp⟩
        obtain ⟨s, hs⟩ := hs
        cases hk with
        | value h _ => rw [Prog.hasVars, hb] at h; cases h
        | un _ hk => exact fitsUn_sound (hf.2 hb _ hk) (ih s hs hf.1 hρ w hw _ hk) (hA.un _ _ _ hv)
    | bin o p q ihp ihq =>
      intro t ht hf hρ v hv k hk
      cases hb : (p.hasVars || q.hasVars) with
      | false =>
        rw [kind_value (p := .bin o p q) (ρ := ρ) hb hv k hk]
        exact Nat.le_refl _
      | true =>
        obtain ⟨w, hw, hv⟩ := Option.bind_eq_some_iff.mp hv
        obtain ⟨x, hx, hv⟩ := Option.bind_eq_some_iff.mp hv
        have hs : ∃ s s', build A cls p = some s ∧ build A cls q = some s' := by
          simp only [build] at ht
          split at ht
          · next hp hq => exact ⟨_, _, hp, hq⟩
          · next hp hq => exact ⟨_, _, hp, hq⟩
          · cases ht
        obtain ⟨s, s', hs, hs'⟩ := hs
        cases hk with
        | value h _ => rw [Prog.hasVars, hb] at h; cases h
        | bin _ h1 h2 =>
          exact fits_sound (hf.2.2 hb _ _ h1 h2) (ihp s hs hf.1 hρ.1 w hw _ h1) (ihq s' hs' hf.2.1 hρ.2 x hx _ h2) (hA.bin _ _ _ _ hv)
    | cmp c p q _ _ =>
      intro t ht hf hρ v hv k hk
      cases hb : (p.hasVars || q.hasVars) with
      | false =>
        rw [kind_value (p := .cmp c p q) (ρ := ρ) hb hv k hk]
        exact Nat.le_refl _
      | true =>
        obtain ⟨w, hw, hv⟩ := Option.bind_eq_some_iff.mp hv
        obtain ⟨x, hx, hv⟩ := Option.bind_eq_some_iff.mp hv
        rw [hA.cmp _ _ _ _ hv]
        exact Nat.zero_le _
  obtain ⟨k, h1, h2, _⟩ := typeOf_kind hT A ρ n p t ht
  exact ⟨k, h1, main p t ht hf hρ v hv k h2⟩

/-! ## One class -/

/-- Operators on two numbers of one class with a result of that class. -/
def keeps (o : Bin) (k : Num) : Prop :=
  match o with
  | .truediv => k = .float ∨ k = .complex
  | .pow => False
  | .lshift => k = .int
  | .rshift => k = .int
  | _ => k ≠ .bool

/-- All variables and constants have the class `k`, and the operators keep it. -/
def Prog.Only (A : Arith V) (k : Num) : Prog V → Prop
  | .var _ k' => k' = k
  | .const v => A.cls v = k
  | .un u p => p.Only A k ∧ k ≠ .bool ∧ (u = .neg ∨ u = .pos)
  | .bin o p q => p.Only A k ∧ q.Only A k ∧ keeps o k
  | .cmp _ _ _ => False

theorem rank_inj {a b : Num} (h : a.rank = b.rank) : a = b := by
  cases a <;> cases b <;> first | rfl | cases h

theorem one_le {k : Num} (h : k ≠ .bool) : 1 ≤ k.rank := by
  cases k <;> first | exact absurd rfl h | decide

theorem keeps_result {o : Bin} {k c : Num} (h : keeps o k) (hc : binResult o k k c) : c = k := by
  cases o <;> simp only [keeps, binResult] at h hc
  case truediv => rcases h with rfl | rfl <;> exact rank_inj hc
  case lshift => rw [hc, h]
  case rshift => rw [hc, h]
  case and => exact rank_inj (by omega)
  case xor => exact rank_inj (by omega)
  case or => exact rank_inj (by omega)
  all_goals have := one_le h; exact rank_inj (by omega)

theorem keeps_fits {o : Bin} {k : Num} (h : keeps o k) : fits o k k := by
  cases o <;> simp only [keeps] at h
  case truediv => rcases h with rfl | rfl <;> exact ⟨by decide, by decide⟩
  case lshift => subst h; exact Nat.le_refl _
  case rshift => subst h; exact Nat.le_refl _
  case and => exact Nat.le_refl _
  case xor => exact Nat.le_refl _
  case or => exact Nat.le_refl _
  all_goals exact ⟨Nat.le_refl _, one_le h⟩

theorem only_eval {A : Arith V} (hA : A.Lawful) {k : Num} {ρ : Nat → V} : ∀ p : Prog V, p.Only A k → p.hasVars = false →
    ∀ v, p.eval A ρ = some v → A.cls v = k := by
  intro p
  induction p with
  | var i k' => intro _ h; cases h
  | const w => intro h _ v hv; cases hv; exact h
  | un u p ih =>
    intro h hb v hv
    obtain ⟨w, hw, hv⟩ := Option.bind_eq_some_iff.mp hv
    have h1 := hA.un _ _ _ hv
    rw [ih h.1 hb w hw] at h1
    have := one_le h.2.1
    rcases h.2.2 with rfl | rfl <;> simp only [unResult] at h1 <;> exact rank_inj (by omega)
  | bin o p q ihp ihq =>
    intro h hb v hv
    obtain ⟨b1, b2⟩ := Bool.or_eq_false_iff.mp hb
    obtain ⟨w, hw, hv⟩ := Option.bind_eq_some_iff.mp hv
    obtain ⟨x, hx, hv⟩ := Option.bind_eq_some_iff.mp hv
    have h1 := hA.bin _ _ _ _ hv
    rw [ihp h.1 b1 w hw, ihq h.2.1 b2 x hx] at h1
    exact keeps_result h.2.2 h1
  | cmp c p q _ _ => intro h; exact h.elim

theorem only_kind {A : Arith V} (hA : A.Lawful) {k : Num} : ∀ p : Prog V, p.Only A k → ∀ a, Kind A p a → a = k := by
  intro p
  induction p with
  | var i k' =>
    intro h a ha
    cases ha with
    | var _ _ => exact h
    | value hb _ => cases hb
  | const w =>
    intro h a ha
    cases ha with
    | value hb hv => exact only_eval hA _ h hb _ hv
  | un u p ih =>
    intro h a ha
    cases ha with
    | value hb hv => exact only_eval hA _ h hb _ hv
    | un _ ha =>
      have := ih h.1 _ ha
      rcases h.2.2 with rfl | rfl <;> exact this
  | bin o p q _ ihq =>
    intro h a ha
    cases ha with
    | value hb hv => exact only_eval hA _ h hb _ hv
    | bin _ _ ha => exact ihq h.2.1 _ ha
  | cmp c p q _ _ => intro h; exact h.elim

theorem only_fit {A : Arith V} (hA : A.Lawful) {k : Num} : ∀ p : Prog V, p.Only A k → p.Fit A := by
  intro p
  induction p with
  | var i k' => intro _; trivial
  | const w => intro _; trivial
  | un u p ih =>
    intro h
    refine ⟨ih h.1, fun _ a ha => ?_⟩
    rw [only_kind hA p h.1 a ha]
    rcases h.2.2 with rfl | rfl <;> exact h.2.1
  | bin o p q ihp ihq =>
    intro h
    refine ⟨ihp h.1, ihq h.2.1, fun _ a b ha hb => ?_⟩
    rw [only_kind hA p h.1 a ha, only_kind hA q h.2.1 b hb]
    exact keeps_fits h.2.2
  | cmp c p q _ _ => intro h; exact h.elim

/-- Programs of numbers of one class, with operators that keep it, have the type of that class, and it describes the result. -/
theorem C83_uniform (hT : Table.Numbers T cls) (A : Arith V) (hA : A.Lawful) (n : Nat) (ρ : Nat → V) (k : Num) (p : Prog V) (t : Tm V)
    (ht : build A cls p = some t) (hk : p.Only A k) :
    typeOf T (n + 2) (valTy A cls) t = some (numTy cls k) ∧
      (p.Agrees A ρ → ∀ v, p.eval A ρ = some v → (A.cls v).le k) := by
  obtain ⟨k', h1, h2, _⟩ := typeOf_kind hT A ρ n p t ht
  have e := only_kind hA p hk k' h2
  subst e
  refine ⟨h1, fun hρ v hv => ?_⟩
  obtain ⟨k'', h3, h4⟩ := C83_sound_partial hT A hA n ρ p t ht (only_fit hA p hk) hρ v hv
  rw [h1] at h3
  have e : cls k' = cls k'' := by
    injection h3 with h3
    injection h3
  rw [hT.inj _ _ e]
  exact h4

/-! ## Where the type is wrong -/

/-- In these cases the type is wrong for all numbers of the variables' classes: the right operand's class is lower than the left one's,
or lower than all results of the operator. -/
theorem C83_sound_fails (hT : Table.Numbers T cls) (A : Arith V) (hA : A.Lawful) (n : Nat) (x y : Nat) (a b : Num) (o : Bin)
    (h : (o = .add ∨ o = .sub ∨ o = .mul ∨ o = .floordiv ∨ o = .mod) ∧ (b.rank < a.rank ∨ b = .bool) ∨
      o = .truediv ∧ (b.rank < a.rank ∨ b.rank < 2)) :
    ∃ t, build A cls (.bin o (.var x a) (.var y b)) = some t ∧ typeOf T (n + 2) (valTy A cls) t = some (numTy cls b) ∧
      ∀ ρ : Nat → V, A.cls (ρ x) = a → A.cls (ρ y) = b → ∀ v, (Prog.bin o (.var x a) (.var y b)).eval A ρ = some v →
        ¬ (A.cls v).le b := by
  refine ⟨_, rfl, ?_, fun ρ ha hb v hv => ?_⟩
  · have e1 : typeOf T (n + 2) (valTy A cls) (.app (varOp cls x a) []) = some (numTy cls a) := by
      simp [typeOf, typesOf, typeRule, varOp, numTy, fvs]
    have e2 : typeOf T (n + 2) (valTy A cls) (.app (varOp cls y b) []) = some (numTy cls b) := by
      simp [typeOf, typesOf, typeRule, varOp, numTy, fvs]
    rw [typeOf, typesOf, typesOf, typesOf, e1, e2]
    exact rule_bin hT n o a b
  · have h1 := hA.bin _ _ _ _ (show A.bin o (ρ x) (ρ y) = some v from hv)
    rw [ha, hb] at h1
    unfold Num.le
    rcases h with ⟨ho, hr⟩ | ⟨rfl, hr⟩
    · have hr : b.rank < a.rank ∨ b.rank = 0 := hr.imp id (fun e => by rw [e]; rfl)
      rcases ho with rfl | rfl | rfl | rfl | rfl <;> simp only [binResult] at h1 <;> omega
    · simp only [binResult] at h1
      omega

/-- `if_then_else(x: bool, a: T, b: T) -> T`, the operation in the documentation of `typeof` (`ops/semantics.py` 267). -/
def iteOp (cls : Num → Nat) : Op where
  name := 90
  params := [numTy cls .bool, .var 0, .var 0]
  ret := .var 0

/-- Two programs whose results have the same class, and no type for the operation that takes both: `if_then_else(c(), x(), x() + 1)`.
Building the term (`apply_type`, `ops/syntax.py` 504-509) raises. -/
theorem C83_branch_fails (hT : Table.Numbers T cls) (hs : T.sub (cls .int) (cls .float) = false) (A : Arith V) (hA : A.Lawful)
    (one : V) (h1 : A.cls one = .int) (n : Nat) :
    ∃ s, build A cls (.bin .add (.var 0 .float) (.const one)) = some s ∧
      (∀ ρ : Nat → V, A.cls (ρ 0) = .float → ∀ v, (Prog.bin .add (.var 0 .float) (.const one)).eval A ρ = some v → A.cls v = .float) ∧
      typeOf T (n + 2) (valTy A cls) (.app (iteOp cls) [.app (varOp cls 1 .bool) [], .app (varOp cls 0 .float) [], s]) = none ∧
      unifySignature T (n + 2) ((iteOp cls).params.zip [numTy cls .bool, numTy cls .float, numTy cls .int]) [] = some none := by
  have e3 : unifySignature T (n + 2) [(numTy cls .bool, numTy cls .bool), (.var 0, numTy cls .float), (.var 0, numTy cls .int)] [] =
      some none := by
    have hne : cls .float ≠ cls .int := fun h => nomatch hT.inj _ _ h
    have u : unify T (n + 1) (numTy cls .float) (numTy cls .int) [(0, numTy cls .float)] = some none := by
      simp [unify, numTy, canon, hT.cn, unifyCanon, Ty.beq, hs, hne, isVar, isSeq, isUnion, isGen]
    have e : canon T (numTy cls .int) = numTy cls .int := by simp [numTy, canon, hT.cn]
    have w : unify T (n + 2) (.var 0) (numTy cls .int) [(0, numTy cls .float)] = some none := by
      rw [unify, e]
      exact u
    simp only [unifySignature, fold, unify_same hT, unify_var hT, w]
  refine ⟨_, rfl, fun ρ h v hv => ?_, ?_, e3⟩
  · have h2 := hA.bin _ _ _ _ (show A.bin .add (ρ 0) one = some v from hv)
    rw [h, h1] at h2
    exact rank_inj h2
  · have e0 : typeOf T (n + 2) (valTy A cls) (.app (varOp cls 1 .bool) []) = some (numTy cls .bool) := by
      simp [typeOf, typesOf, typeRule, varOp, numTy, fvs]
    have e1 : typeOf T (n + 2) (valTy A cls) (.app (varOp cls 0 .float) []) = some (numTy cls .float) := by
      simp [typeOf, typesOf, typeRule, varOp, numTy, fvs]
    have e2 : typeOf T (n + 2) (valTy A cls) (.app (binOp .add) [.app (varOp cls 0 .float) [], .con one]) = some (numTy cls .int) := by
      rw [typeOf, typesOf, typesOf, typesOf, e1, typeOf, valTy, h1]
      exact rule_bin hT n .add .float .int
    rw [typeOf, typesOf, typesOf, typesOf, typesOf, e0, e1, e2]
    show (match unifySignature T (n + 2)
        [(numTy cls .bool, numTy cls .bool), (.var 0, numTy cls .float), (.var 0, numTy cls .int)] [] with
      | some (some r) => substitute r (n + 2) (.var 0)
      | _ => none) = _
    rw [e3]

/-- The unary minus of a `bool` is an `int`, its term a `bool`. -/
theorem C83_minus_fails (hT : Table.Numbers T cls) (A : Arith V) (hA : A.Lawful) (n : Nat) (x : Nat) :
    ∃ t, build A cls (.un .neg (.var x .bool)) = some t ∧ typeOf T (n + 2) (valTy A cls) t = some (numTy cls .bool) ∧
      ∀ ρ : Nat → V, A.cls (ρ x) = .bool → ∀ v, (Prog.un .neg (.var x .bool)).eval A ρ = some v → A.cls v = .int := by
  refine ⟨_, rfl, ?_, fun ρ h v hv => ?_⟩
  · have e1 : typeOf T (n + 2) (valTy A cls) (.app (varOp cls x .bool) []) = some (numTy cls .bool) := by
      simp [typeOf, typesOf, typeRule, varOp, numTy, fvs]
    rw [typeOf, typesOf, typesOf, e1]
    exact rule_un hT n .neg .bool
  · have h1 := hA.un _ _ _ (show A.un .neg (ρ x) = some v from hv)
    rw [h] at h1
    exact rank_inj h1

/-! ## Examples -/

/-- Numbers are their classes with a whole number. -/
def demo : Arith (Num × Int) where
  cls v := v.1
  un u v := match u with
    | .neg => some (if v.1 = .bool then .int else v.1, - v.2)
    | .pos => some (if v.1 = .bool then .int else v.1, v.2)
    | .abs => some (if v.1 = .complex then .float else if v.1 = .bool then .int else v.1, v.2.natAbs)
    | .conjugate => some v
    | _ => if v.1 = .complex then none else some (.int, v.2)
  bin o v w :=
    let top := if w.1.rank ≤ v.1.rank then v.1 else w.1
    let num := if top = .bool then .int else top
    match o with
    | .add => some (num, v.2 + w.2)
    | .sub => some (num, v.2 - w.2)
    | .mul => some (num, v.2 * w.2)
    | .truediv => if w.2 = 0 then none else some (if top = .complex then .complex else .float, v.2 / w.2)
    | .floordiv => if w.2 = 0 then none else some (num, v.2 / w.2)
    | .mod => if w.2 = 0 then none else some (num, v.2 % w.2)
    | .pow => some (if w.2 < 0 then .float else num, 0)
    | .lshift => some (.int, 0)
    | .rshift => some (.int, 0)
    | _ => some (top, 0)
  cmp _ v w := some (.bool, if v.2 < w.2 then 1 else 0)

theorem demo_lawful : demo.Lawful where
  un u a v h := by
    obtain ⟨k, z⟩ := a
    cases k <;> cases u <;> simp [demo] at h <;> first | (subst h; simp [unResult, demo, Num.rank, Num.le]) | trivial
  bin o a b v h := by
    obtain ⟨k, z⟩ := a
    obtain ⟨l, y⟩ := b
    cases o <;> simp only [demo] at h
    case pow => trivial
    case truediv =>
      split at h
      · cases h
      · cases h; cases k <;> cases l <;> rfl
    case floordiv =>
      split at h
      · cases h
      · cases h; cases k <;> cases l <;> rfl
    case mod =>
      split at h
      · cases h
      · cases h; cases k <;> cases l <;> rfl
    all_goals cases h; cases k <;> cases l <;> rfl
  cmp c a b v h := by cases h; rfl

/-- `bool`, `int`, `float` and `complex` are the classes 10 to 13; `bool` is a subclass of `int`. -/
def demoTable : Table where
  sub d c := d == c || (d == 10 && c == 11)
  cn := id
  bases _ := []
  tuple := 0
  sequence := 1
  mapping := 2
  generator := 3

def demoCls (k : Num) : Nat := 10 + k.rank

theorem demo_numbers : Table.Numbers demoTable demoCls where
  inj a b h := rank_inj (by unfold demoCls at h; omega)
  cn _ := rfl

/-- `x() * 2.0 - y() / z()` of floats. -/
def floats : Prog (Num × Int) :=
  .bin .sub (.bin .mul (.var 0 .float) (.const (.float, 2))) (.bin .truediv (.var 1 .float) (.un .neg (.var 2 .float)))

example : floats.Only demo .float ∧ (∃ t, build demo demoCls floats = some t ∧ typeOf demoTable 2 (valTy demo demoCls) t = some (.con 12)) :=
  ⟨⟨⟨rfl, rfl, fun h => (nomatch h)⟩, ⟨rfl, ⟨rfl, fun h => (nomatch h), .inl rfl⟩, .inl rfl⟩, fun h => (nomatch h)⟩, _, rfl,
    (C83_uniform demo_numbers demo demo_lawful 0 (fun _ => (.float, 1)) .float floats _ rfl
      ⟨⟨rfl, rfl, fun h => (nomatch h)⟩, ⟨rfl, ⟨rfl, fun h => (nomatch h), .inl rfl⟩, .inl rfl⟩, fun h => (nomatch h)⟩).1⟩

/-- `(1 + x()) * ((y() < 2) - z())` of floats `x` and `z`: operands whose types fit though they differ. -/
def mixed : Prog (Num × Int) :=
  .bin .mul (.bin .add (.const (.int, 1)) (.var 0 .float)) (.bin .sub (.cmp .lt (.var 1 .int) (.const (.int, 2))) (.var 2 .float))

theorem mixed_fit : mixed.Fit demo := by
  have c : ∀ k, Kind demo (.const (.int, 1)) k → k = .int :=
    fun k h => kind_value (A := demo) (ρ := fun _ => (Num.int, 0)) (v := (Num.int, 1)) rfl rfl k h
  have v : ∀ i l k, Kind demo (.var i l) k → k = l := by
    intro i l k h
    cases h with
    | var _ _ => rfl
    | value hb _ => cases hb
  have cm : ∀ k, Kind demo (.cmp .lt (.var 1 .int) (.const (.int, 2))) k → k = .bool := by
    intro k h
    cases h with
    | value hb _ => cases hb
    | cmp _ _ _ => rfl
  refine ⟨⟨trivial, trivial, fun _ a b ha hb => ?_⟩, ⟨⟨trivial, trivial⟩, trivial, fun _ a b ha hb => ?_⟩, fun _ a b ha hb => ?_⟩
  · rw [c a ha, v _ _ b hb]; exact ⟨by decide, by decide⟩
  · rw [cm a ha, v _ _ b hb]; exact ⟨by decide, by decide⟩
  · cases ha with
    | value h _ => cases h
    | bin _ _ ha =>
      cases hb with
      | value h _ => cases h
      | bin _ _ hb => rw [v _ _ a ha, v _ _ b hb]; exact ⟨by decide, by decide⟩

example : ∃ k, typeOf demoTable 2 (valTy demo demoCls) ((build demo demoCls mixed).getD (.con (.bool, 0))) = some (numTy demoCls k) ∧
    Num.le .float k :=
  C83_sound_partial demo_numbers demo demo_lawful 0 (fun i => (if i = 1 then .int else .float, 5)) mixed _ rfl mixed_fit
    ⟨⟨trivial, Nat.le_refl _⟩, ⟨Nat.le_refl _, trivial⟩, Nat.le_refl _⟩ (.float, 0 + (1 + 5) * (0 - 5)) (by decide)

/-- `x() + 1` of a float `x`: the term is an `int`. -/
example : ∃ t, build demo demoCls (.bin .add (.var 0 .float) (.const (.int, 1))) = some t ∧
    typeOf demoTable 2 (valTy demo demoCls) t = some (.con 11) ∧
    (Prog.bin .add (.var 0 .float) (.const (.int, 1))).eval demo (fun _ => (.float, 5)) = some (.float, 6) :=
  ⟨_, rfl, C83_right demo_numbers demo 0 .add (.var 0 .float) (.const (.int, 1)) _ _ _ rfl rfl rfl rfl (fun _ => (.int, 0)), by decide⟩

/-- `int / int` is typed `int`. -/
example := C83_sound_fails demo_numbers demo demo_lawful 0 0 1 .int .int .truediv (.inr ⟨rfl, .inr (by decide)⟩)

example : (Prog.bin .truediv (.var 0 .int) (.var 1 .int)).eval demo (fun _ => (.int, 5)) = some (.float, 1) := by decide

example := C83_branch_fails demo_numbers rfl demo demo_lawful (.int, 1) rfl 0

example := C83_minus_fails demo_numbers demo demo_lawful 0 0

end Verif.Unify.NumTypes
