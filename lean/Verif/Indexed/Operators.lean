/-!
# C79: operators on tensor and array terms

Model of the operator methods of `_TensorTerm` (`handlers/torch.py` 384-490) and of `_ArrayTerm` (`handlers/jax/_terms.py`
113-219), and of what happens when the term that they make is evaluated.

Simplifications: values and library functions are arbitrary. Constants are numbers (for jax also arrays), whose own methods give
`NotImplemented` for terms, so that Python calls the reflected method. Operands without named dimensions; for those see C70.
-/

namespace Verif.Indexed.Operators

/-- Operators with two operands. -/
inductive Bin where
  | add | sub | mul | truediv | pow | floordiv | mod | matmul | lshift | rshift | and | xor | or
  | eq | ne | lt | le | gt | ge
deriving DecidableEq

/-- Operators with one operand. -/
inductive Un where
  | neg | pos | abs | invert
deriving DecidableEq

/-- What a method calls: a function of the library, and whether its first argument is `self`. -/
structure Call where
  fn : String
  selfFirst : Bool
deriving DecidableEq

/-- A library: the functions called by the methods of terms, by the reflected methods, and by the methods of one operand. -/
structure Lib where
  method : Bin → Call
  reflected : Bin → Option Call
  unary : Un → String

/-- The comparison that Python calls when the operands are exchanged; other operators have methods of their own. -/
def mirror : Bin → Option Bin
  | .eq => some .eq
  | .ne => some .ne
  | .lt => some .gt
  | .le => some .ge
  | .gt => some .lt
  | .ge => some .le
  | _ => none

/-- `_TensorTerm` (384-490). -/
def torchLib : Lib where
  method := fun
    | .add => ⟨"add", true⟩
    | .sub => ⟨"sub", true⟩
    | .mul => ⟨"mul", true⟩
    | .truediv => ⟨"div", true⟩
    | .pow => ⟨"pow", true⟩
    | .eq => ⟨"eq", true⟩
    | .ne => ⟨"ne", true⟩
    | .floordiv => ⟨"floor_divide", true⟩
    | .mod => ⟨"fmod", true⟩
    | .lt => ⟨"lt", true⟩
    | .le => ⟨"le", true⟩
    | .gt => ⟨"gt", true⟩
    | .ge => ⟨"ge", true⟩
    | .lshift => ⟨"bitwise_left_shift", true⟩
    | .rshift => ⟨"bitwise_right_shift", true⟩
    | .and => ⟨"bitwise_and", true⟩
    | .xor => ⟨"bitwise_xor", true⟩
    | .or => ⟨"bitwise_or", true⟩
    | .matmul => ⟨"matmul", true⟩
  reflected := fun
    | .add => some ⟨"add", false⟩
    | .sub => some ⟨"sub", false⟩
    | .mul => some ⟨"mul", false⟩
    | .truediv => some ⟨"div", false⟩
    | .pow => some ⟨"pow", false⟩
    | .floordiv => some ⟨"floor_divide", false⟩
    | .mod => some ⟨"fmod", false⟩
    | .lshift => some ⟨"bitwise_left_shift", false⟩
    | .rshift => some ⟨"bitwise_right_shift", false⟩
    | .and => some ⟨"bitwise_and", false⟩
    | .xor => some ⟨"bitwise_xor", false⟩
    | .or => some ⟨"bitwise_or", false⟩
    | .matmul => some ⟨"matmul", false⟩
    | _ => none
  unary := fun
    | .neg => "neg"
    | .pos => "positive"
    | .abs => "abs"
    | .invert => "bitwise_not"

/-- `_ArrayTerm` (113-219). -/
def jaxLib : Lib where
  method := fun
    | .add => ⟨"add", true⟩
    | .sub => ⟨"subtract", true⟩
    | .mul => ⟨"multiply", true⟩
    | .truediv => ⟨"divide", true⟩
    | .pow => ⟨"power", true⟩
    | .eq => ⟨"equal", true⟩
    | .ne => ⟨"not_equal", true⟩
    | .floordiv => ⟨"floor_divide", true⟩
    | .mod => ⟨"mod", true⟩
    | .lt => ⟨"less", true⟩
    | .le => ⟨"less_equal", true⟩
    | .gt => ⟨"greater", true⟩
    | .ge => ⟨"greater_equal", true⟩
    | .lshift => ⟨"left_shift", true⟩
    | .rshift => ⟨"right_shift", true⟩
    | .and => ⟨"bitwise_and", true⟩
    | .xor => ⟨"bitwise_xor", true⟩
    | .or => ⟨"bitwise_or", true⟩
    | .matmul => ⟨"matmul", true⟩
  reflected := fun
    | .add => some ⟨"add", false⟩
    | .sub => some ⟨"subtract", false⟩
    | .mul => some ⟨"multiply", false⟩
    | .truediv => some ⟨"divide", false⟩
    | .pow => some ⟨"power", false⟩
    | .floordiv => some ⟨"floor_divide", false⟩
    | .mod => some ⟨"mod", false⟩
    | .lshift => some ⟨"left_shift", false⟩
    | .rshift => some ⟨"right_shift", false⟩
    | .and => some ⟨"bitwise_and", false⟩
    | .xor => some ⟨"bitwise_xor", false⟩
    | .or => some ⟨"bitwise_or", false⟩
    | .matmul => some ⟨"matmul", false⟩
    | _ => none
  unary := fun
    | .neg => "negative"
    | .pos => "positive"
    | .abs => "abs"
    | .invert => "bitwise_not"

/-! ## Programs -/

/-- A program that applies operators to variables and constants. -/
inductive Prog (α : Type) where
  | var (n : Nat)
  | const (a : α)
  | un (o : Un) (p : Prog α)
  | bin (o : Bin) (p q : Prog α)

/-- A value, or a term that calls functions of the library. -/
inductive Tm (α : Type) where
  | val (a : α)
  | var (n : Nat)
  | call1 (fn : String) (t : Tm α)
  | call2 (fn : String) (t u : Tm α)

variable {α : Type}

def Tm.isVal : Tm α → Bool
  | .val _ => true
  | _ => false

/-- The functions of the library on values. -/
structure Funs (α : Type) where
  f1 : String → α → α
  f2 : String → α → α → α

/-- A call of a function with `self` and the other operand. -/
def callWith (c : Call) (self other : Tm α) : Tm α :=
  if c.selfFirst then .call2 c.fn self other else .call2 c.fn other self

/-- What values do themselves for an operator: `sem`. -/
structure Native (α : Type) where
  un : Un → α → α
  bin : Bin → α → α → α

/-- Python's dispatch of an operator with two operands, of which the methods of values give `NotImplemented` for terms.
`none` for TypeError. -/
def applyBin (L : Lib) (N : Native α) (o : Bin) (t u : Tm α) : Option (Tm α) :=
  match t, u with
  | .val a, .val b => some (.val (N.bin o a b))
  | .val a, u =>
    match mirror o with
    | some o' => some (callWith (L.method o') u (.val a))
    | none => (L.reflected o).map fun c => callWith c u (.val a)
  | t, u => some (callWith (L.method o) t u)

/-- An operator with one operand. -/
def applyUn (L : Lib) (N : Native α) (o : Un) : Tm α → Tm α
  | .val a => .val (N.un o a)
  | t => .call1 (L.unary o) t

/-- Running the program with variables free. -/
def build (L : Lib) (N : Native α) : Prog α → Option (Tm α)
  | .var n => some (.var n)
  | .const a => some (.val a)
  | .un o p => (build L N p).map (applyUn L N o)
  | .bin o p q =>
    match build L N p, build L N q with
    | some t, some u => applyBin L N o t u
    | _, _ => none

/-- Evaluating the term with values for the variables. -/
def eval (F : Funs α) (env : Nat → α) : Tm α → α
  | .val a => a
  | .var n => env n
  | .call1 f t => F.f1 f (eval F env t)
  | .call2 f t u => F.f2 f (eval F env t) (eval F env u)

/-! ## Specification -/

/-- Running the program with values for the variables. -/
def direct (N : Native α) (env : Nat → α) : Prog α → α
  | .var n => env n
  | .const a => a
  | .un o p => N.un o (direct N env p)
  | .bin o p q => N.bin o (direct N env p) (direct N env q)

/-- The operators that occur. -/
def Uses (o : Bin) : Prog α → Prop
  | .var _ => False
  | .const _ => False
  | .un _ p => Uses o p
  | .bin o' p q => o = o' ∨ Uses o p ∨ Uses o q

/-- The functions that operators stand for on torch tensors, by the documentation of torch. -/
def torchDoc : Bin → String
  | .add => "add" | .sub => "sub" | .mul => "mul" | .truediv => "div" | .pow => "pow" | .floordiv => "floor_divide"
  | .mod => "remainder" | .matmul => "matmul" | .lshift => "bitwise_left_shift" | .rshift => "bitwise_right_shift"
  | .and => "bitwise_and" | .xor => "bitwise_xor" | .or => "bitwise_or"
  | .eq => "eq" | .ne => "ne" | .lt => "lt" | .le => "le" | .gt => "gt" | .ge => "ge"

def torchDocUn : Un → String
  | .neg => "neg" | .pos => "positive" | .abs => "abs" | .invert => "bitwise_not"

/-- The functions that operators stand for on jax arrays, by the documentation of jax. -/
def jaxDoc : Bin → String
  | .add => "add" | .sub => "subtract" | .mul => "multiply" | .truediv => "divide" | .pow => "power"
  | .floordiv => "floor_divide" | .mod => "mod" | .matmul => "matmul" | .lshift => "left_shift" | .rshift => "right_shift"
  | .and => "bitwise_and" | .xor => "bitwise_xor" | .or => "bitwise_or"
  | .eq => "equal" | .ne => "not_equal" | .lt => "less" | .le => "less_equal" | .gt => "greater" | .ge => "greater_equal"

def jaxDocUn : Un → String
  | .neg => "negative" | .pos => "positive" | .abs => "abs" | .invert => "bitwise_not"

/-- Operators of values are the functions they stand for, and comparisons with exchanged operands agree. -/
structure Documented (N : Native α) (F : Funs α) (doc : Bin → String) (docUn : Un → String) : Prop where
  bin : ∀ o a b, N.bin o a b = F.f2 (doc o) a b
  un : ∀ o a, N.un o a = F.f1 (docUn o) a
  mirror : ∀ o o' a b, mirror o = some o' → N.bin o a b = N.bin o' b a

/-! ## Proofs -/

theorem build_eval {L : Lib} {N : Native α} {F : Funs α} {doc : Bin → String} {docUn : Un → String}
    (hd : Documented N F doc docUn) (P : Bin → Prop) (hm : ∀ o, P o → L.method o = ⟨doc o, true⟩)
    (hmir : ∀ o o', P o → mirror o = some o' → P o')
    (hr : ∀ o, P o → mirror o = none → L.reflected o = some ⟨doc o, false⟩) (hu : ∀ o, L.unary o = docUn o) (env : Nat → α) :
    ∀ (p : Prog α), (∀ o, Uses o p → P o) → ∃ t, build L N p = some t ∧ eval F env t = direct N env p := by
  intro p
  induction p with
  | var n => intro _; exact ⟨.var n, rfl, rfl⟩
  | const a => intro _; exact ⟨.val a, rfl, rfl⟩
  | un o p ih =>
    intro hp
    obtain ⟨t, h1, h2⟩ := ih hp
    refine ⟨applyUn L N o t, by rw [build, h1]; rfl, ?_⟩
    rw [direct, ← h2]
    cases t with
    | val a => rfl
    | var n => exact (congrArg (F.f1 · _) (hu o)).trans (hd.un o _).symm
    | call1 f t => exact (congrArg (F.f1 · _) (hu o)).trans (hd.un o _).symm
    | call2 f t u => exact (congrArg (F.f1 · _) (hu o)).trans (hd.un o _).symm
  | bin o p q ihp ihq =>
    intro hp
    obtain ⟨t, h1, h2⟩ := ihp fun o' h => hp o' (.inr (.inl h))
    obtain ⟨u, h3, h4⟩ := ihq fun o' h => hp o' (.inr (.inr h))
    have ho : P o := hp o (.inl rfl)
    have hterm : ∃ s, applyBin L N o t u = some s ∧ eval F env s = N.bin o (eval F env t) (eval F env u) := by
      have hleft : eval F env (callWith (L.method o) t u) = N.bin o (eval F env t) (eval F env u) := by
        rw [hm o ho, callWith]
        simp only [if_true]
        rw [eval, hd.bin]
      have hright : ∀ a : α, ∃ s, (match mirror o with
            | some o' => some (callWith (L.method o') u (.val a))
            | none => (L.reflected o).map fun c => callWith c u (.val a)) = some s ∧
          eval F env s = N.bin o a (eval F env u) := by
        intro a
        cases hmo : mirror o with
        | some o' =>
          refine ⟨_, rfl, ?_⟩
          rw [hm o' (hmir o o' ho hmo), callWith]
          simp only [if_true]
          rw [eval, ← hd.bin, eval, hd.mirror o o' _ _ hmo]
        | none =>
          simp only
          rw [hr o ho hmo]
          refine ⟨_, rfl, ?_⟩
          exact (hd.bin o _ _).symm
      cases t with
      | val a =>
        cases u with
        | val b => exact ⟨_, rfl, rfl⟩
        | var n => exact hright a
        | call1 f u => exact hright a
        | call2 f u v => exact hright a
      | var n => exact ⟨_, rfl, hleft⟩
      | call1 f t => exact ⟨_, rfl, hleft⟩
      | call2 f t t' => exact ⟨_, rfl, hleft⟩
    obtain ⟨s, h5, h6⟩ := hterm
    exact ⟨s, by rw [build, h1, h3]; exact h5, by rw [h6, h2, h4, direct]⟩

/-- A program of operators on torch tensors other than `%` gives a term with the value that the program has. -/
theorem C79_torch_partial {N : Native α} {F : Funs α} (hd : Documented N F torchDoc torchDocUn) (env : Nat → α) (p : Prog α)
    (hp : ¬ Uses .mod p) : ∃ t, build torchLib N p = some t ∧ eval F env t = direct N env p := by
  refine build_eval hd (fun o => o ≠ .mod) ?_ ?_ ?_ ?_ env p (fun o h e => hp (e ▸ h))
  · intro o h
    cases o <;> first | rfl | exact absurd rfl h
  · intro o o' h hm
    cases o <;> cases hm <;> decide
  · intro o h hm
    cases o <;> first | rfl | exact absurd rfl h | cases hm
  · intro o
    cases o <;> rfl

/-- A program of operators on jax arrays gives a term with the value that the program has. -/
theorem C79_jax {N : Native α} {F : Funs α} (hd : Documented N F jaxDoc jaxDocUn) (env : Nat → α) (p : Prog α) :
    ∃ t, build jaxLib N p = some t ∧ eval F env t = direct N env p := by
  refine build_eval hd (fun _ => True) ?_ ?_ ?_ ?_ env p (fun _ _ => trivial)
  · intro o _
    cases o <;> rfl
  · intro _ _ _ _
    trivial
  · intro o _ hm
    cases o <;> first | rfl | cases hm
  · intro o
    cases o <;> rfl

/-! ## Examples -/

/-- Functions of integers: `remainder` has the sign of the divisor, `fmod` that of the dividend. -/
def intFuns : Funs Int where
  f1 := fun f a => if f = "neg" then -a else if f = "abs" then a.natAbs else a
  f2 := fun f a b =>
    if f = "add" then a + b else if f = "sub" then a - b else if f = "mul" then a * b
    else if f = "floor_divide" then a.fdiv b else if f = "remainder" then a.fmod b else if f = "fmod" then a.tmod b
    else if f = "lt" then (if a < b then 1 else 0) else if f = "le" then (if a ≤ b then 1 else 0)
    else if f = "gt" then (if b < a then 1 else 0) else if f = "ge" then (if b ≤ a then 1 else 0)
    else if f = "eq" then (if a = b then 1 else 0) else if f = "ne" then (if a = b then 0 else 1)
    else 0

/-- Operators of integers. -/
def intNative : Native Int where
  un := fun o => intFuns.f1 (torchDocUn o)
  bin := fun o => intFuns.f2 (torchDoc o)

theorem int_documented : Documented intNative intFuns torchDoc torchDocUn where
  bin := fun _ _ _ => rfl
  un := fun _ _ => rfl
  mirror := fun o o' a b h => by
    cases o <;> cases h
    · show (if a = b then (1 : Int) else 0) = if b = a then 1 else 0
      by_cases hab : a = b
      · rw [if_pos hab, if_pos hab.symm]
      · rw [if_neg hab, if_neg fun e => hab e.symm]
    · show (if a = b then (0 : Int) else 1) = if b = a then 0 else 1
      by_cases hab : a = b
      · rw [if_pos hab, if_pos hab.symm]
      · rw [if_neg hab, if_neg fun e => hab e.symm]
    · rfl
    · rfl
    · rfl
    · rfl

/-- `2 - x * 3`, with the value -1 at 1. -/
example : ∃ t, build torchLib intNative (.bin .sub (.const 2) (.bin .mul (.var 0) (.const 3))) = some t ∧
    eval intFuns (fun _ => 1) t = -1 := ⟨_, rfl, rfl⟩

/-- `2 < x` calls the method of `>`. -/
example : build torchLib intNative (.bin .lt (.const 2) (.var 0)) = some (.call2 "gt" (.var 0) (.val 2)) := rfl

/-- `x % 3` at -1 is 2, but the term gives -1. -/
theorem C79_mod_fails : ∃ t, build torchLib intNative (.bin .mod (.var 0) (.const 3)) = some t ∧
    direct intNative (fun _ => -4) (.bin .mod (.var 0) (.const 3)) = 2 ∧ eval intFuns (fun _ => -4) t = -1 :=
  ⟨_, rfl, rfl, rfl⟩

end Verif.Indexed.Operators
