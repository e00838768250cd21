import Mathlib.Data.List.Sort
import Mathlib.Data.List.Chain
import Mathlib.Algebra.BigOperators.Group.List.Basic
import Mathlib.Tactic.Ring

/-!
# C88: the rules for sums of `docs/source/lambda_.py` and `docs/source/readme_example.py`

Model of the handlers of `add` (`lambda_.py` 33-40, 74-108, `readme_example.py` 10-31), of their coproducts `eager_mixed`
(`lambda_.py` 133-143, `readme_example.py` 38) and of `evaluate` under them. Variables are operations without arguments, given
by their `id`. Other operations have one argument and no handler, and no default.
-/

namespace Verif.Examples.Sums

/-- `Expr[int]`. -/
inductive E where
  | num (n : Int)
  | var (i : Nat)
  | app (f : Nat) (e : E)
  | add (a b : E)
  deriving DecidableEq

/-- `isinstance(e, Term)`. -/
def E.isTerm : E → Bool
  | .num _ => false
  | _ => true

/-- The Python expressions that rules return, where `+` calls the operation again. -/
inductive Plus where
  | val (e : E)
  | plus (a b : Plus)

/-- A handler of `add`: `none` is `return fwd()`. -/
abbrev Rule := E → E → Option Plus

/-- `beta_add` (`lambda_.py` 33-39). -/
def betaAdd : Rule
  | .num m, .num n => some (.val (.num (m + n)))
  | _, _ => none

/-- `commute_add` (74-79). -/
def commuteAdd : Rule
  | x, .num n => if x.isTerm then some (.plus (.val (.num n)) (.val x)) else none
  | _, _ => none

/-- `assoc_add` (82-87). -/
def assocAdd : Rule
  | x, .add a b => some (.plus (.plus (.val x) (.val a)) (.val b))
  | _, _ => none

/-- `unit_add` (90-96). -/
def unitAdd : Rule := fun x y =>
  if y = .num 0 then some (.val x) else if x = .num 0 then some (.val y) else none

/-- `sort_add` (99-108). -/
def sortAdd : Rule
  | .var i, .var j => if i > j then some (.plus (.val (.var j)) (.val (.var i))) else none
  | .add a (.var i), .var j =>
    if i > j then some (.plus (.plus (.val a) (.val (.var j))) (.val (.var i))) else none
  | _, _ => none

/-- The handlers in the order in which `fwd` reaches them; at the end the default of `__add__` (`ops/syntax.py` 1160-1165):
a sum if no argument is a term, and otherwise a term. -/
def dispatch : List Rule → E → E → Plus
  | [], .num m, .num n => .val (.num (m + n))
  | [], x, y => .val (.add x y)
  | r :: rs, x, y => (r x y).getD (dispatch rs x y)

/-- The value of such an expression, given what `+` does. -/
def Plus.run (f : E → E → Option E) : Plus → Option E
  | .val e => some e
  | .plus a b => (a.run f).bind fun x => (b.run f).bind fun y => f x y

/-- `x + y` under handlers, with a bound on the depth of calls. -/
def plus (rs : List Rule) : Nat → E → E → Option E
  | 0, _, _ => none
  | k + 1, x, y => (dispatch rs x y).run (plus rs k)

/-- `evaluate(e)` under handlers: arguments are evaluated first. -/
def evaluate (rs : List Rule) (k : Nat) : E → Option E
  | .num n => some (.num n)
  | .var i => some (.var i)
  | .app f e => (evaluate rs k e).map (.app f)
  | .add a b => (evaluate rs k a).bind fun x => (evaluate rs k b).bind fun y => plus rs k x y

/-- `eager_mixed` of `lambda_.py`: later interpretations come first. -/
def eagerMixed : List Rule := [sortAdd, unitAdd, assocAdd, commuteAdd, betaAdd]

/-- `eager_mixed` of `readme_example.py`. -/
def readme : List Rule := [assocAdd, commuteAdd, betaAdd]

/-! ## Specification -/

/-- The value of an expression, for values of variables and other operations. -/
def den (env : Nat → Int) (fn : Nat → Int → Int) : E → Int
  | .num n => n
  | .var i => env i
  | .app f e => fn f (den env fn e)
  | .add a b => den env fn a + den env fn b

/-- The evaluation returns the value. -/
def Returns (rs : List Rule) (e r : E) : Prop := ∃ k, evaluate rs k e = some r

/-- Sums of numbers and variables. -/
def Linear : E → Prop
  | .num _ => True
  | .var _ => True
  | .app _ _ => False
  | .add a b => Linear a ∧ Linear b

/-- The summands of a sum, from the left. -/
def summands : E → List E
  | .add a b => summands a ++ summands b
  | e => [e]

/-- Sums associate to the left. -/
def Left : E → Prop
  | .add a b => Left a ∧ ∀ c d, b ≠ .add c d
  | _ => True

/-- Neighbours that are variables are in order. -/
def Ordered : E → E → Prop
  | .var i, .var j => i ≤ j
  | _, _ => True

/-- The form of results under `eager_mixed`: a left-associated sum with at most one number, which is the first summand and not
zero (unless it is all), and with neighbouring variables in order; and the same within arguments of operations. -/
inductive Normal : E → Prop where
  | mk (e : E) (left : Left e) (number : ∀ n, .num n ∉ (summands e).tail)
    (zero : (summands e).length ≠ 1 → .num 0 ∉ summands e) (ordered : (summands e).IsChain Ordered)
    (inner : ∀ f a, .app f a ∈ summands e → Normal a) : Normal e

/-! ## Soundness -/

def Plus.den (env : Nat → Int) (fn : Nat → Int → Int) : Plus → Int
  | .val e => Sums.den env fn e
  | .plus a b => a.den env fn + b.den env fn

/-- A rule keeps the value. -/
def Sound (r : Rule) : Prop := ∀ env fn x y p, r x y = some p → p.den env fn = den env fn x + den env fn y

theorem beta_sound : Sound betaAdd := by
  intro env fn x y p h
  cases x <;> cases y <;> simp [betaAdd] at h
  subst h; rfl

theorem commute_sound : Sound commuteAdd := by
  intro env fn x y p h
  cases y <;> simp [commuteAdd] at h
  obtain ⟨_, rfl⟩ := h
  simp [Plus.den, den, Int.add_comm]

theorem assoc_sound : Sound assocAdd := by
  intro env fn x y p h
  cases y <;> simp [assocAdd] at h
  subst h
  simp [Plus.den, den, Int.add_assoc]

theorem unit_sound : Sound unitAdd := by
  intro env fn x y p h
  simp only [unitAdd] at h
  split at h
  · rename_i hy; cases h; subst hy; simp [Plus.den, den]
  · split at h
    · rename_i hx; cases h; subst hx; simp [Plus.den, den]
    · cases h

theorem sort_sound : Sound sortAdd := by
  intro env fn x y p h
  unfold sortAdd at h
  split at h
  · split at h
    · cases h; simp [Plus.den, den, Int.add_comm]
    · cases h
  · split at h
    · cases h; simp only [Plus.den, den]; omega
    · cases h
  · cases h

theorem dispatch_den {rs : List Rule} (hs : ∀ r ∈ rs, Sound r) (env : Nat → Int) (fn : Nat → Int → Int) (x y : E) :
    (dispatch rs x y).den env fn = den env fn x + den env fn y := by
  induction rs with
  | nil => cases x <;> cases y <;> rfl
  | cons r rs ih =>
    simp only [dispatch]
    cases h : r x y with
    | none => simpa using ih fun r hr => hs r (List.mem_cons_of_mem _ hr)
    | some p => simpa using hs r List.mem_cons_self env fn x y p h

theorem plus_den {rs : List Rule} (hs : ∀ r ∈ rs, Sound r) (env : Nat → Int) (fn : Nat → Int → Int) :
    ∀ (k : Nat), (∀ x y r, plus rs k x y = some r → den env fn r = den env fn x + den env fn y) ∧
      ∀ (p : Plus) r, p.run (plus rs k) = some r → den env fn r = p.den env fn := by
  intro k
  have key : ∀ k, (∀ x y r, plus rs k x y = some r → den env fn r = den env fn x + den env fn y) →
      ∀ (p : Plus) r, p.run (plus rs k) = some r → den env fn r = p.den env fn := by
    intro k hk p
    induction p with
    | val e => intro r h; simp only [Plus.run, Option.some.injEq] at h; subst h; rfl
    | plus a b iha ihb =>
      intro r h
      simp only [Plus.run, Option.bind_eq_some_iff] at h
      obtain ⟨x, hx, y, hy, h⟩ := h
      rw [hk x y r h, iha x hx, ihb y hy]
      rfl
  have main : ∀ x y r, plus rs k x y = some r → den env fn r = den env fn x + den env fn y := by
    induction k with
    | zero => intro x y r h; simp [plus] at h
    | succ k ih =>
      intro x y r h
      simp only [plus] at h
      rw [key k ih _ r h, dispatch_den hs]
  exact ⟨main, key k main⟩

/-- **C88.** Whatever of these rules are installed, in whatever order: evaluation keeps the value. -/
theorem C88_sound {rs : List Rule} (hs : ∀ r ∈ rs, r ∈ [betaAdd, commuteAdd, assocAdd, unitAdd, sortAdd]) {e r : E}
    (h : Returns rs e r) (env : Nat → Int) (fn : Nat → Int → Int) : den env fn r = den env fn e := by
  have hs' : ∀ r ∈ rs, Sound r := by
    intro r hr
    have := hs r hr
    simp only [List.mem_cons, List.not_mem_nil, or_false] at this
    rcases this with rfl | rfl | rfl | rfl | rfl
    · exact beta_sound
    · exact commute_sound
    · exact assoc_sound
    · exact unit_sound
    · exact sort_sound
  obtain ⟨k, h⟩ := h
  induction e generalizing r with
  | num n => cases h; rfl
  | var i => cases h; rfl
  | app f e ih =>
    simp only [evaluate, Option.map_eq_some_iff] at h
    obtain ⟨x, hx, rfl⟩ := h
    simp [den, ih hx]
  | add a b iha ihb =>
    simp only [evaluate, Option.bind_eq_some_iff] at h
    obtain ⟨x, hx, y, hy, h⟩ := h
    rw [(plus_den hs' env fn k).1 x y r h, iha hx, ihb hy]
    rfl

/-! ## Fuel -/

theorem plus_mono (rs : List Rule) : ∀ (k : Nat), (∀ x y r, plus rs k x y = some r → plus rs (k + 1) x y = some r) := by
  have key : ∀ k, (∀ x y r, plus rs k x y = some r → plus rs (k + 1) x y = some r) →
      ∀ (p : Plus) r, p.run (plus rs k) = some r → p.run (plus rs (k + 1)) = some r := by
    intro k hk p
    induction p with
    | val e => intro r h; simpa only [Plus.run] using h
    | plus a b iha ihb =>
      intro r h
      simp only [Plus.run, Option.bind_eq_some_iff] at h ⊢
      obtain ⟨x, hx, y, hy, h⟩ := h
      exact ⟨x, iha x hx, y, ihb y hy, hk x y r h⟩
  intro k
  induction k with
  | zero => intro x y r h; simp [plus] at h
  | succ k ih =>
    intro x y r h
    simp only [plus] at h ⊢
    exact key k ih _ r h

theorem plus_le {rs : List Rule} {k l : Nat} (hkl : k ≤ l) {x y r : E} (h : plus rs k x y = some r) :
    plus rs l x y = some r := by
  induction hkl with
  | refl => exact h
  | step _ ih => exact plus_mono rs _ x y r ih

theorem evaluate_le {rs : List Rule} {k l : Nat} (hkl : k ≤ l) {e r : E} (h : evaluate rs k e = some r) :
    evaluate rs l e = some r := by
  induction e generalizing r with
  | num n => exact h
  | var i => exact h
  | app f e ih =>
    simp only [evaluate, Option.map_eq_some_iff] at h ⊢
    obtain ⟨x, hx, rfl⟩ := h
    exact ⟨x, ih hx, rfl⟩
  | add a b iha ihb =>
    simp only [evaluate, Option.bind_eq_some_iff] at h ⊢
    obtain ⟨x, hx, y, hy, h⟩ := h
    exact ⟨x, iha hx, y, ihb hy, plus_le hkl h⟩

/-- Evaluation has at most one result. -/
theorem Returns.unique {rs : List Rule} {e r s : E} (h1 : Returns rs e r) (h2 : Returns rs e s) : r = s := by
  obtain ⟨k, h1⟩ := h1
  obtain ⟨l, h2⟩ := h2
  have := (evaluate_le (Nat.le_max_left k l) h1).symm.trans (evaluate_le (Nat.le_max_right k l) h2)
  exact Option.some.inj this

/-- The sum returns. -/
def Adds (rs : List Rule) (x y r : E) : Prop := ∃ k, plus rs k x y = some r

theorem Adds.val {rs : List Rule} {x y r : E} (h : dispatch rs x y = .val r) : Adds rs x y r :=
  ⟨1, by simp [plus, h, Plus.run]⟩

theorem Adds.one {rs : List Rule} {x y a b r : E} (h : dispatch rs x y = .plus (.val a) (.val b)) (h1 : Adds rs a b r) :
    Adds rs x y r := by
  obtain ⟨k, h1⟩ := h1
  exact ⟨k + 1, by simp [plus, h, Plus.run, h1]⟩

theorem Adds.two {rs : List Rule} {x y a b c s r : E} (h : dispatch rs x y = .plus (.plus (.val a) (.val b)) (.val c))
    (h1 : Adds rs a b s) (h2 : Adds rs s c r) : Adds rs x y r := by
  obtain ⟨k, h1⟩ := h1
  obtain ⟨l, h2⟩ := h2
  refine ⟨max k l + 1, ?_⟩
  simp [plus, h, Plus.run, plus_le (Nat.le_max_left k l) h1, plus_le (Nat.le_max_right k l) h2]

theorem Returns.add {rs : List Rule} {a b x y r : E} (h1 : Returns rs a x) (h2 : Returns rs b y) (h3 : Adds rs x y r) :
    Returns rs (.add a b) r := by
  obtain ⟨k, h1⟩ := h1
  obtain ⟨l, h2⟩ := h2
  obtain ⟨m, h3⟩ := h3
  refine ⟨max k (max l m), ?_⟩
  simp [evaluate, evaluate_le (Nat.le_max_left k (max l m)) h1,
    evaluate_le (Nat.le_trans (Nat.le_max_left l m) (Nat.le_max_right k (max l m))) h2,
    plus_le (Nat.le_trans (Nat.le_max_right l m) (Nat.le_max_right k (max l m))) h3]

/-! ## Normal forms of `eager_mixed` -/

/-- Summands that are neither numbers nor sums. -/
def Atom : E → Prop
  | .var _ => True
  | .app _ _ => True
  | _ => False

/-- The sum of a number and a list of atoms. The list has the last atom first. -/
def form (c : Int) : List E → E
  | [] => .num c
  | [a] => if c = 0 then a else .add (.num c) a
  | a :: as => .add (form c as) a

/-- An atom is added: a variable goes to the left of larger variables. The last atom is first. -/
def ins (b : E) : List E → List E
  | [] => [b]
  | a :: as =>
    match a, b with
    | .var i, .var j => if i > j then a :: ins b as else b :: a :: as
    | _, _ => b :: a :: as

/-- Neighbours of the reversed list are in order. -/
def Rev (as : List E) : Prop := as.IsChain fun a b => Ordered b a

theorem form_cons (c : Int) (a b : E) (as : List E) : form c (a :: b :: as) = .add (form c (b :: as)) a := rfl

theorem form_isTerm {c : Int} {as : List E} (ha : ∀ a ∈ as, Atom a) (hne : as ≠ []) : (form c as).isTerm = true := by
  match as, hne with
  | [a], _ =>
    simp only [form]
    split
    · have := ha a (by simp); cases a <;> simp_all [Atom, E.isTerm]
    · rfl
  | a :: b :: as, _ => rfl

theorem form_ne_num {c d : Int} {as : List E} (ha : ∀ a ∈ as, Atom a) (hne : as ≠ []) : form c as ≠ .num d := by
  intro h
  have := form_isTerm (c := c) ha hne
  rw [h] at this
  cases this

/-- The sum of a form and an atom, without sorting. -/
theorem form_snoc {c : Int} {as : List E} {b : E} (hb : Atom b) (ha : ∀ a ∈ as, Atom a)
    (h : sortAdd (form c as) b = none) : Adds eagerMixed (form c as) b (form c (b :: as)) := by
  have hb0 : b ≠ .num 0 := by rintro rfl; exact hb
  have ha1 : ∀ x, assocAdd x b = none := by intro x; cases b <;> first | rfl | exact hb.elim
  have hc1 : ∀ x, commuteAdd x b = none := by intro x; cases b <;> first | rfl | exact hb.elim
  have hbe : ∀ x, betaAdd x b = none := by intro x; cases b <;> cases x <;> first | rfl | exact hb.elim
  have hd : ∀ x, dispatch [] x b = .val (.add x b) := by intro x; cases b <;> cases x <;> first | rfl | exact hb.elim
  apply Adds.val
  have he : dispatch eagerMixed (form c as) b = ((unitAdd (form c as) b).getD (.val (.add (form c as) b))) := by
    unfold eagerMixed
    rw [dispatch, h, Option.getD_none, dispatch]
    congr 1
    rw [dispatch, ha1, Option.getD_none, dispatch, hc1, Option.getD_none, dispatch, hbe, Option.getD_none, hd]
  rw [he]
  simp only [unitAdd, if_neg hb0]
  match as with
  | [] =>
    simp only [form, E.num.injEq]
    split <;> rfl
  | a :: as =>
    rw [if_neg (form_ne_num ha (by simp))]
    rfl

theorem ins_atoms {b : E} (hb : Atom b) {as : List E} (ha : ∀ a ∈ as, Atom a) : ∀ a ∈ ins b as, Atom a := by
  induction as with
  | nil => simpa [ins] using hb
  | cons a as ih =>
    have h1 : Atom a := ha a (by simp)
    have h2 := ih fun x hx => ha x (by simp [hx])
    have h3 : ∀ x ∈ b :: a :: as, Atom x := by
      intro x hx
      rcases List.mem_cons.1 hx with rfl | hx
      · exact hb
      · exact ha x hx
    unfold ins
    split
    · split
      · intro x hx
        rcases List.mem_cons.1 hx with rfl | hx
        · exact h1
        · exact h2 x hx
      · exact h3
    · exact h3

theorem ins_mem {b x : E} {as : List E} : x ∈ ins b as → x = b ∨ x ∈ as := by
  induction as with
  | nil => simp [ins]
  | cons a as ih =>
    unfold ins
    split
    · split
      · intro hx
        rcases List.mem_cons.1 hx with rfl | hx
        · simp
        · rcases ih hx with h | h
          · exact Or.inl h
          · exact Or.inr (by simp [h])
      · intro hx; simpa using hx
    · intro hx; simpa using hx

theorem ins_ne_nil (b : E) (as : List E) : ins b as ≠ [] := by
  cases as with
  | nil => simp [ins]
  | cons a as =>
    unfold ins
    split
    · split <;> simp
    · simp

/-- The head after an insertion. -/
theorem ins_head (b : E) (as : List E) : (ins b as).head? = some b ∨ (ins b as).head? = as.head? := by
  cases as with
  | nil => simp [ins]
  | cons a as =>
    unfold ins
    split
    · split
      · right; rfl
      · left; rfl
    · left; rfl

theorem rev_cons {a : E} {as : List E} : Rev (a :: as) ↔ (∀ b ∈ as.head?, Ordered b a) ∧ Rev as := by
  unfold Rev
  cases as with
  | nil => simp
  | cons b as => simp [List.isChain_cons_cons]

theorem ins_rev {b : E} {as : List E} (h : Rev as) : Rev (ins b as) := by
  induction as with
  | nil => simp [ins, Rev]
  | cons a as ih =>
    have ⟨h1, h2⟩ := rev_cons.1 h
    unfold ins
    split
    · rename_i i j
      split
      · rename_i hij
        rw [rev_cons]
        refine ⟨fun x hx => ?_, ih h2⟩
        rcases ins_head (.var j) as with he | he
        · rw [he] at hx
          cases hx
          exact Nat.le_of_lt hij
        · rw [he] at hx
          exact h1 x hx
      · rename_i hij
        rw [rev_cons]
        refine ⟨fun x hx => ?_, h⟩
        cases hx
        exact Nat.le_of_not_lt hij
    · rename_i hno
      rw [rev_cons]
      refine ⟨fun x hx => ?_, h⟩
      cases hx
      cases a <;> cases b <;> first | trivial | exact (hno _ _ rfl rfl).elim

/-- A form and an atom: the atom is inserted. -/
theorem add_atom {c : Int} {b : E} (hb : Atom b) : ∀ {as : List E}, (∀ a ∈ as, Atom a) → Rev as →
    Adds eagerMixed (form c as) b (form c (ins b as)) := by
  intro as
  induction as with
  | nil =>
    intro ha hr
    exact form_snoc hb ha (by simp only [form]; cases b <;> rfl)
  | cons a as ih =>
    intro ha hr
    have ha' : ∀ x ∈ as, Atom x := fun x hx => ha x (by simp [hx])
    have ⟨hr1, hr2⟩ := rev_cons.1 hr
    -- no swap
    have noswap : sortAdd (form c (a :: as)) b = none → ins b (a :: as) = b :: a :: as →
        Adds eagerMixed (form c (a :: as)) b (form c (ins b (a :: as))) := by
      intro h1 h2
      rw [h2]
      exact form_snoc hb ha h1
    cases a with
    | num n => exact (ha (.num n) (by simp)).elim
    | add x y => exact (ha (.add x y) (by simp)).elim
    | app f e =>
      apply noswap
      · match as with
        | [] => simp only [form]; split <;> cases b <;> rfl
        | x :: as => cases b <;> rfl
      · cases b <;> rfl
    | var i =>
      cases b with
      | num n => exact hb.elim
      | add x y => exact hb.elim
      | app f e =>
        apply noswap
        · match as with
          | [] => simp only [form]; split <;> rfl
          | x :: as => rfl
        · rfl
      | var j =>
        by_cases hij : i > j
        · have hins : ins (.var j) (.var i :: as) = .var i :: ins (.var j) as := by simp [ins, hij]
          rw [hins]
          -- the swapped variable is added last
          have hlast : Adds eagerMixed (form c (ins (.var j) as)) (.var i) (form c (.var i :: ins (.var j) as)) := by
            have hat := ins_atoms (b := .var j) trivial ha'
            apply form_snoc (by trivial) hat
            have hhd : ∀ x ∈ (ins (.var j) as).head?, Ordered x (.var i) := by
              intro x hx
              rcases ins_head (.var j) as with he | he
              · rw [he] at hx; cases hx; exact Nat.le_of_lt hij
              · rw [he] at hx; exact hr1 x hx
            generalize ins (.var j) as = l at *
            match l with
            | [] => rfl
            | [x] =>
              have hx := hhd x (by simp)
              have hx' : Atom x := hat x (by simp)
              simp only [form]
              split
              · cases x <;> first | rfl | exact hx'.elim | (simp only [sortAdd]; rw [if_neg (Nat.not_lt.2 hx)])
              · cases x <;> first | rfl | exact hx'.elim | (simp only [sortAdd]; rw [if_neg (Nat.not_lt.2 hx)])
            | x :: y :: l =>
              have hx := hhd x (by simp)
              have hx' : Atom x := hat x (by simp)
              rw [form_cons]
              cases x <;> first | rfl | exact hx'.elim | (simp only [sortAdd]; rw [if_neg (Nat.not_lt.2 hx)])
          match as with
          | [] =>
            by_cases hc : c = 0
            · subst hc
              have h1 : dispatch eagerMixed (form 0 [.var i]) (.var j) = .plus (.val (.var j)) (.val (.var i)) := by
                simp [eagerMixed, dispatch, form, sortAdd, hij]
              exact Adds.one h1 (by simpa [ins, form] using hlast)
            · have h1 : dispatch eagerMixed (form c [.var i]) (.var j) =
                  .plus (.plus (.val (.num c)) (.val (.var j))) (.val (.var i)) := by
                simp [eagerMixed, dispatch, form, sortAdd, hij, hc]
              exact Adds.two h1 (ih ha' hr2) hlast
          | x :: as =>
            have h1 : dispatch eagerMixed (form c (.var i :: x :: as)) (.var j) =
                .plus (.plus (.val (form c (x :: as))) (.val (.var j))) (.val (.var i)) := by
              simp [eagerMixed, dispatch, form_cons, sortAdd, hij]
            exact Adds.two h1 (ih ha' hr2) hlast
        · have hins : ins (.var j) (.var i :: as) = .var j :: .var i :: as := by simp [ins, hij]
          apply noswap _ hins
          match as with
          | [] => simp only [form]; split <;> simp [sortAdd, hij]
          | x :: as => simp [form_cons, sortAdd, hij]

/-- Inserting the last atom of an ordered list changes nothing. -/
theorem ins_last {b : E} {as : List E} (h : Rev (b :: as)) : ins b as = b :: as := by
  cases as with
  | nil => rfl
  | cons a as =>
    have h1 := (rev_cons.1 h).1 a (by simp)
    unfold ins
    split
    · rename_i i j
      rw [if_neg (Nat.not_lt.2 h1)]
    · rfl

/-- A number before a form. -/
theorem num_add {c d : Int} : ∀ {as : List E}, (∀ a ∈ as, Atom a) → Rev as →
    Adds eagerMixed (.num d) (form c as) (form (d + c) as) := by
  intro as
  induction as with
  | nil =>
    intro _ _
    apply Adds.val
    by_cases hc : c = 0
    · subst hc; simp [eagerMixed, dispatch, sortAdd, unitAdd, form]
    · by_cases hd : d = 0
      · subst hd; simp [eagerMixed, dispatch, sortAdd, unitAdd, form, hc]
      · simp [eagerMixed, dispatch, sortAdd, unitAdd, form, hc, hd, assocAdd, commuteAdd, E.isTerm, betaAdd]
  | cons a as ih =>
    intro ha hr
    have ha' : ∀ x ∈ as, Atom x := fun x hx => ha x (by simp [hx])
    have ⟨hr1, hr2⟩ := rev_cons.1 hr
    have hsort : ∀ y, sortAdd (.num d) y = none := fun y => by cases y <;> rfl
    have hcomb : Adds eagerMixed (form (d + c) as) a (form (d + c) (a :: as)) := by
      have := add_atom (c := d + c) (ha a (by simp)) ha' hr2
      rwa [ins_last hr] at this
    -- an addition is rearranged
    have hadd : ∀ x, form c (a :: as) = .add x a → Adds eagerMixed (.num d) x (form (d + c) as) →
        Adds eagerMixed (.num d) (form c (a :: as)) (form (d + c) (a :: as)) := by
      intro x he h1
      by_cases hd : d = 0
      · subst hd
        rw [Int.zero_add]
        apply Adds.val
        unfold eagerMixed
        rw [dispatch, hsort, Option.getD_none, dispatch]
        have : unitAdd (.num 0) (form c (a :: as)) = some (.val (form c (a :: as))) := by
          unfold unitAdd
          rw [if_neg (form_ne_num ha (by simp)), if_pos rfl]
        rw [this]; rfl
      · refine Adds.two (a := .num d) (b := x) (c := a) ?_ h1 hcomb
        unfold eagerMixed
        rw [dispatch, hsort, Option.getD_none, dispatch]
        have : unitAdd (.num d) (form c (a :: as)) = none := by
          unfold unitAdd
          rw [if_neg (form_ne_num ha (by simp)), if_neg (by simpa using hd)]
        rw [this, Option.getD_none, he]
        rfl
    match as with
    | [] =>
      by_cases hc : c = 0
      · subst hc
        have := add_atom (c := d) (as := []) (ha a (by simp)) (by simp) (by simp [Rev])
        simpa [form, ins] using this
      · apply hadd (.num c)
        · simp [form, hc]
        · exact ih ha' hr2
    | x :: as =>
      exact hadd (form c (x :: as)) rfl (ih ha' hr2)

/-- A form before a number. -/
theorem add_num {c d : Int} {as : List E} (ha : ∀ a ∈ as, Atom a) (hr : Rev as) :
    Adds eagerMixed (form c as) (.num d) (form (c + d) as) := by
  by_cases hne : as = []
  · subst hne
    exact num_add (c := d) (d := c) (as := []) (by simp) (by simp [Rev])
  · have hsort : ∀ x, sortAdd x (.num d) = none := fun x => by
      unfold sortAdd
      split <;> first | rfl | (rename_i h; cases h)
    by_cases hd : d = 0
    · subst hd
      rw [Int.add_zero]
      apply Adds.val
      unfold eagerMixed
      rw [dispatch, hsort, Option.getD_none, dispatch]
      simp [unitAdd]
    · refine Adds.one (a := .num d) (b := form c as) ?_ (by rw [Int.add_comm]; exact num_add ha hr)
      unfold eagerMixed
      rw [dispatch, hsort, Option.getD_none, dispatch]
      have : unitAdd (form c as) (.num d) = none := by
        unfold unitAdd
        rw [if_neg (by simpa using hd), if_neg (form_ne_num ha hne)]
      rw [this, Option.getD_none, dispatch, dispatch]
      simp [assocAdd, commuteAdd, form_isTerm ha hne]

/-- Insert all atoms, the first first. Lists have the last atom first. -/
def insAll (as : List E) : List E → List E
  | [] => as
  | b :: bs => ins b (insAll as bs)

theorem insAll_spec {as : List E} (ha : ∀ a ∈ as, Atom a) (hr : Rev as) : ∀ {bs : List E}, (∀ b ∈ bs, Atom b) →
    (∀ a ∈ insAll as bs, Atom a) ∧ Rev (insAll as bs) := by
  intro bs
  induction bs with
  | nil => intro _; exact ⟨ha, hr⟩
  | cons b bs ih =>
    intro hb
    have ⟨h1, h2⟩ := ih fun x hx => hb x (by simp [hx])
    exact ⟨ins_atoms (hb b (by simp)) h1, ins_rev h2⟩

theorem insAll_mem {x : E} {as bs : List E} (hx : x ∈ insAll as bs) : x ∈ bs ∨ x ∈ as := by
  induction bs with
  | nil => exact Or.inr hx
  | cons b bs ih =>
    rcases ins_mem hx with rfl | h
    · simp
    · rcases ih h with h | h
      · simp [h]
      · exact Or.inr h

/-- The sum of two forms. -/
theorem add_form {c d : Int} {as : List E} (ha : ∀ a ∈ as, Atom a) (hr : Rev as) : ∀ {bs : List E},
    (∀ b ∈ bs, Atom b) → Rev bs → Adds eagerMixed (form c as) (form d bs) (form (c + d) (insAll as bs)) := by
  intro bs
  induction bs with
  | nil => intro _ _; exact add_num ha hr
  | cons b bs ih =>
    intro hb hrb
    have hb' : ∀ x ∈ bs, Atom x := fun x hx => hb x (by simp [hx])
    have ⟨_, hrb2⟩ := rev_cons.1 hrb
    have ⟨h1, h2⟩ := insAll_spec ha hr hb'
    have hcomb := add_atom (c := c + d) (hb b (by simp)) h1 h2
    have hadd : ∀ y, form d (b :: bs) = .add y b → Adds eagerMixed (form c as) y (form (c + d) (insAll as bs)) →
        Adds eagerMixed (form c as) (form d (b :: bs)) (form (c + d) (insAll as (b :: bs))) := by
      intro y he hy
      by_cases h0 : form c as = .num 0
      · have has : as = [] := by
          by_contra hne
          exact form_ne_num ha hne h0
        subst has
        have hc : c = 0 := by simpa [form] using h0
        subst hc
        have hins : ∀ l : List E, Rev l → insAll [] l = l := by
          intro l
          induction l with
          | nil => intro _; rfl
          | cons x l ihl =>
            intro hl
            simp only [insAll, ihl (rev_cons.1 hl).2]
            exact ins_last hl
        rw [hins _ hrb]
        exact num_add hb hrb
      · refine Adds.two (a := form c as) (b := y) (c := b) ?_ hy hcomb
        have hsort : ∀ x, sortAdd x (.add y b) = none := fun x => by
          unfold sortAdd
          split <;> first | rfl | (rename_i h; cases h)
        unfold eagerMixed
        rw [he, dispatch, hsort, Option.getD_none, dispatch]
        have : unitAdd (form c as) (.add y b) = none := by
          unfold unitAdd
          rw [if_neg (by simp), if_neg h0]
        rw [this]
        rfl
    match bs with
    | [] =>
      by_cases hd : d = 0
      · subst hd
        simpa [form, insAll] using add_atom (c := c) (hb b (by simp)) ha hr
      · exact hadd (.num d) (by simp [form, hd]) (ih hb' hrb2)
    | x :: bs => exact hadd (form d (x :: bs)) rfl (ih hb' hrb2)

theorem summands_atom {a : E} (h : Atom a) : summands a = [a] := by
  cases a <;> first | rfl | exact h.elim

theorem summands_form (c : Int) : ∀ {as : List E}, (∀ a ∈ as, Atom a) →
    summands (form c as) = (if c = 0 ∧ as ≠ [] then [] else [.num c]) ++ as.reverse := by
  intro as
  induction as with
  | nil => intro _; simp [form, summands]
  | cons a as ih =>
    intro ha
    have ha' : ∀ x ∈ as, Atom x := fun x hx => ha x (by simp [hx])
    have h1 := summands_atom (ha a (by simp))
    match as with
    | [] =>
      simp only [form]
      split
      · rename_i hc; simp [hc, h1]
      · rename_i hc; simp [hc, h1, summands]
    | x :: as =>
      rw [form_cons, summands, ih ha', h1]
      simp

theorem form_left (c : Int) : ∀ {as : List E}, (∀ a ∈ as, Atom a) → Left (form c as) := by
  intro as
  induction as with
  | nil => intro _; trivial
  | cons a as ih =>
    intro ha
    have ha' : ∀ x ∈ as, Atom x := fun x hx => ha x (by simp [hx])
    have h1 := ha a (by simp)
    have h2 : ∀ p q, a ≠ .add p q := by rintro p q rfl; exact h1
    match as with
    | [] =>
      simp only [form]
      split
      · cases a <;> trivial
      · exact ⟨trivial, h2⟩
    | x :: as => exact ⟨ih ha', h2⟩

theorem form_normal (c : Int) {as : List E} (ha : ∀ a ∈ as, Atom a) (hr : Rev as)
    (hin : ∀ f a, .app f a ∈ as → Normal a) : Normal (form c as) := by
  have hnum : ∀ n, .num n ∉ as.reverse := by
    intro n hn
    exact ha _ (List.mem_reverse.1 hn)
  have hchain : as.reverse.IsChain Ordered := by
    rw [List.isChain_reverse]
    exact hr
  refine ⟨_, form_left c ha, ?_, ?_, ?_, ?_⟩
  · intro n hn
    rw [summands_form c ha] at hn
    split at hn
    · exact hnum n (List.mem_of_mem_tail hn)
    · exact hnum n (by simpa using hn)
  · intro hl hm
    rw [summands_form c ha] at hl hm
    split at hm
    · exact hnum 0 (by simpa using hm)
    · rename_i h
      rw [if_neg h] at hl
      simp only [List.cons_append, List.nil_append, List.mem_cons, E.num.injEq] at hm
      rcases hm with hm | hm
      · have : as ≠ [] := by
          rintro rfl
          simp at hl
        exact h ⟨hm.symm, this⟩
      · exact hnum 0 hm
  · rw [summands_form c ha]
    split
    · simpa using hchain
    · cases hrev : as.reverse with
      | nil => simp
      | cons a l =>
        rw [hrev] at hchain
        simp only [List.cons_append, List.nil_append]
        rw [List.isChain_cons_cons]
        exact ⟨trivial, hchain⟩
  · intro f a hm
    rw [summands_form c ha] at hm
    apply hin f a
    rcases List.mem_append.1 hm with h | h
    · split at h <;> simp at h
    · exact List.mem_reverse.1 h

/-- Every evaluation returns a form. -/
theorem returns_form (e : E) : ∃ c as, Returns eagerMixed e (form c as) ∧ (∀ a ∈ as, Atom a) ∧ Rev as ∧
    ∀ f a, .app f a ∈ as → Normal a := by
  induction e with
  | num n => exact ⟨n, [], ⟨0, rfl⟩, by simp, by simp [Rev], by simp⟩
  | var i => exact ⟨0, [.var i], ⟨0, rfl⟩, by simp [Atom], by simp [Rev], by simp⟩
  | app f e ih =>
    obtain ⟨c, as, ⟨k, h⟩, ha, hr, hn⟩ := ih
    refine ⟨0, [.app f (form c as)], ⟨k, by simp [evaluate, h, form]⟩, by simp [Atom], by simp [Rev], ?_⟩
    intro g a hm
    simp only [List.mem_cons, E.app.injEq, List.not_mem_nil, or_false] at hm
    obtain ⟨_, rfl⟩ := hm
    exact form_normal c ha hr hn
  | add a b iha ihb =>
    obtain ⟨c, as, h1, ha, hra, hna⟩ := iha
    obtain ⟨d, bs, h2, hb, hrb, hnb⟩ := ihb
    have ⟨h3, h4⟩ := insAll_spec ha hra hb
    refine ⟨c + d, insAll as bs, h1.add h2 (add_form ha hra hb hrb), h3, h4, fun f x hx => ?_⟩
    rcases insAll_mem hx with h | h
    · exact hnb f x h
    · exact hna f x h

/-- **C88.** Under `eager_mixed` every evaluation terminates, in normal form. -/
theorem C88_normal (e : E) : ∃ r, Returns eagerMixed e r ∧ Normal r := by
  obtain ⟨c, as, h, ha, hr, hn⟩ := returns_form e
  exact ⟨_, h, form_normal c ha hr hn⟩

/-! ## Completeness -/

theorem ins_vars {b : E} (hb : ∃ i, b = .var i) {as : List E} (ha : ∀ a ∈ as, ∃ i, a = .var i) :
    ∀ a ∈ ins b as, ∃ i, a = .var i := by
  induction as with
  | nil => simpa [ins] using hb
  | cons a as ih =>
    have h2 := ih fun x hx => ha x (by simp [hx])
    have h3 : ∀ x ∈ b :: a :: as, ∃ i, x = .var i := by
      intro x hx
      rcases List.mem_cons.1 hx with rfl | hx
      · exact hb
      · exact ha x hx
    unfold ins
    split
    · split
      · intro x hx
        rcases List.mem_cons.1 hx with rfl | hx
        · exact ⟨_, rfl⟩
        · exact h2 x hx
      · exact h3
    · exact h3

theorem returns_linear (e : E) (hl : Linear e) : ∃ c as, Returns eagerMixed e (form c as) ∧
    (∀ a ∈ as, ∃ i, a = .var i) ∧ Rev as := by
  induction e with
  | num n => exact ⟨n, [], ⟨0, rfl⟩, by simp, by simp [Rev]⟩
  | var i => exact ⟨0, [.var i], ⟨0, rfl⟩, by simp, by simp [Rev]⟩
  | app f e ih => exact hl.elim
  | add a b iha ihb =>
    obtain ⟨c, as, h1, ha, hra⟩ := iha hl.1
    obtain ⟨d, bs, h2, hb, hrb⟩ := ihb hl.2
    have atoms : ∀ {l : List E}, (∀ a ∈ l, ∃ i, a = .var i) → ∀ a ∈ l, Atom a := by
      intro l h a hm
      obtain ⟨i, rfl⟩ := h a hm
      trivial
    have h4 := (insAll_spec (atoms ha) hra (atoms hb)).2
    refine ⟨c + d, insAll as bs, h1.add h2 (add_form (atoms ha) hra (atoms hb) hrb), ?_, h4⟩
    clear h1 h2 h4 hrb ihb hl atoms
    induction bs with
    | nil => exact ha
    | cons b bs ih => exact ins_vars (hb b (by simp)) (ih fun x hx => hb x (by simp [hx]))

theorem den_form (env : Nat → Int) (fn : Nat → Int → Int) (c : Int) (as : List E) :
    den env fn (form c as) = c + (as.map (den env fn)).sum := by
  induction as with
  | nil => simp [form, den]
  | cons a as ih =>
    match as with
    | [] =>
      simp only [form]
      split
      · rename_i hc; simp [hc]
      · simp [den]
    | x :: as =>
      rw [form_cons, den, ih]
      simp only [List.map_cons, List.sum_cons]
      omega

theorem vars_of {as : List E} (h : ∀ a ∈ as, ∃ i, a = .var i) : ∃ l : List Nat, as = l.map .var := by
  induction as with
  | nil => exact ⟨[], rfl⟩
  | cons a as ih =>
    obtain ⟨i, rfl⟩ := h a (by simp)
    obtain ⟨l, rfl⟩ := ih fun x hx => h x (by simp [hx])
    exact ⟨i :: l, rfl⟩

theorem sum_indicator (i : Nat) (l : List Nat) :
    (l.map fun j => if j = i then (1 : Int) else 0).sum = l.count i := by
  induction l with
  | nil => rfl
  | cons j l ih =>
    rw [List.map_cons, List.sum_cons, ih, List.count_cons]
    by_cases h : j = i
    · simp [h]; omega
    · simp [h]

/-- **C88.** Sums of numbers and variables have equal results under `eager_mixed` exactly if they have equal values for all
values of the variables. -/
theorem C88_complete {e f r s : E} (he : Linear e) (hf : Linear f) (hr : Returns eagerMixed e r)
    (hs : Returns eagerMixed f s) : r = s ↔ ∀ env fn, den env fn e = den env fn f := by
  have hrules : ∀ r ∈ eagerMixed, r ∈ [betaAdd, commuteAdd, assocAdd, unitAdd, sortAdd] := by
    intro r hr
    simp only [eagerMixed, List.mem_cons, List.not_mem_nil, or_false] at hr ⊢
    rcases hr with h | h | h | h | h <;> simp [h]
  constructor
  · rintro rfl env fn
    rw [← C88_sound hrules hr, ← C88_sound hrules hs]
  · intro h
    obtain ⟨c, as, h1, ha, hra⟩ := returns_linear e he
    obtain ⟨d, bs, h2, hb, hrb⟩ := returns_linear f hf
    have e1 := hr.unique h1
    have e2 := hs.unique h2
    subst e1 e2
    obtain ⟨la, rfl⟩ := vars_of ha
    obtain ⟨lb, rfl⟩ := vars_of hb
    have hden : ∀ env : Nat → Int, c + (la.map env).sum = d + (lb.map env).sum := by
      intro env
      have := h env fun _ _ => 0
      rw [← C88_sound hrules hr, ← C88_sound hrules hs, den_form, den_form, List.map_map, List.map_map] at this
      exact this
    have hcd : c = d := by
      have := hden fun _ => 0
      have z : ∀ l : List Nat, (l.map fun _ => (0 : Int)).sum = 0 := by
        intro l
        induction l with
        | nil => rfl
        | cons _ l ih => rw [List.map_cons, List.sum_cons, ih]; rfl
      rwa [z, z, Int.add_zero, Int.add_zero] at this
    subst hcd
    have hperm : la.Perm lb := by
      rw [List.perm_iff_count]
      intro i
      have := hden fun j => if j = i then 1 else 0
      rw [sum_indicator, sum_indicator] at this
      omega
    have hsorted : ∀ {l : List Nat}, Rev (l.map .var) → l.Pairwise (· ≥ ·) := by
      intro l hl
      unfold Rev at hl
      rw [List.isChain_map] at hl
      have : l.IsChain (· ≥ ·) := hl.imp fun _ _ h => h
      exact this.pairwise
    rw [hperm.eq_of_pairwise (fun a b _ _ h1 h2 => Nat.le_antisymm h2 h1) (hsorted hra) (hsorted hrb)]

/-- **C88.** Evaluating a result again changes nothing. -/
theorem C88_idempotent {e r : E} (h : Returns eagerMixed e r) : Returns eagerMixed r r := by
  -- operations other than sums keep results
  suffices hh : ∀ e : E, ∃ c as, Returns eagerMixed e (form c as) ∧ (∀ a ∈ as, Atom a ∧ Returns eagerMixed a a) ∧ Rev as by
    obtain ⟨c, as, h1, ha, hr⟩ := hh e
    obtain rfl := h.unique h1
    clear h h1
    induction as with
    | nil => exact ⟨0, rfl⟩
    | cons a as ih =>
      have h1 := ih (fun x hx => ha x (by simp [hx])) (rev_cons.1 hr).2
      have h2 := add_atom (c := c) (ha a (by simp)).1 (fun x hx => (ha x (by simp [hx])).1) (rev_cons.1 hr).2
      rw [ins_last hr] at h2
      match as with
      | [] =>
        by_cases hc : c = 0
        · simpa [form, hc] using (ha a (by simp)).2
        · have := h1.add (ha a (by simp)).2 h2
          simpa [form, hc] using this
      | x :: as => exact h1.add (ha a (by simp)).2 h2
  have hform : ∀ {c : Int} {as : List E}, (∀ a ∈ as, Atom a ∧ Returns eagerMixed a a) → Rev as →
      Returns eagerMixed (form c as) (form c as) := by
    intro c as ha hr
    induction as with
    | nil => exact ⟨0, rfl⟩
    | cons a as ih =>
      have h1 := ih (fun x hx => ha x (by simp [hx])) (rev_cons.1 hr).2
      have h2 := add_atom (c := c) (ha a (by simp)).1 (fun x hx => (ha x (by simp [hx])).1) (rev_cons.1 hr).2
      rw [ins_last hr] at h2
      match as with
      | [] =>
        by_cases hc : c = 0
        · simpa [form, hc] using (ha a (by simp)).2
        · have := h1.add (ha a (by simp)).2 h2
          simpa [form, hc] using this
      | x :: as => exact h1.add (ha a (by simp)).2 h2
  intro e
  induction e with
  | num n => exact ⟨n, [], ⟨0, rfl⟩, by simp, by simp [Rev]⟩
  | var i => exact ⟨0, [.var i], ⟨0, rfl⟩, by simpa [Atom] using ⟨0, rfl⟩, by simp [Rev]⟩
  | app f e ih =>
    obtain ⟨c, as, ⟨k, h⟩, ha, hr⟩ := ih
    obtain ⟨l, hl⟩ := hform (c := c) ha hr
    refine ⟨0, [.app f (form c as)], ⟨k, by simp [evaluate, h, form]⟩, ?_, by simp [Rev]⟩
    simp only [List.mem_cons, List.not_mem_nil, or_false, forall_eq]
    exact ⟨trivial, l, by simp [evaluate, hl]⟩
  | add a b iha ihb =>
    obtain ⟨c, as, h1, ha, hra⟩ := iha
    obtain ⟨d, bs, h2, hb, hrb⟩ := ihb
    have ⟨h3, h4⟩ := insAll_spec (fun a h => (ha a h).1) hra fun b h => (hb b h).1
    refine ⟨c + d, insAll as bs, h1.add h2 (add_form (fun a h => (ha a h).1) hra (fun b h => (hb b h).1) hrb), ?_, h4⟩
    intro x hx
    refine ⟨h3 x hx, ?_⟩
    have : x ∈ bs ∨ x ∈ as := insAll_mem hx
    rcases this with h | h
    · exact (hb x h).2
    · exact (ha x h).2

/-! ## The rules of the readme -/

/-- The sum of a number, if any, and a list of atoms. The list has the last atom first. -/
def formR : Option Int → List E → E
  | c, [] => .num (c.getD 0)
  | none, [a] => a
  | some c, [a] => .add (.num c) a
  | c, a :: as => .add (formR c as) a

theorem formR_isTerm {c : Option Int} {as : List E} (ha : ∀ a ∈ as, Atom a) (hne : as ≠ []) :
    (formR c as).isTerm = true := by
  match c, as, hne with
  | none, [a], _ => have := ha a (by simp); cases a <;> simp_all [Atom, E.isTerm, formR]
  | some c, [a], _ => rfl
  | none, a :: b :: as, _ => rfl
  | some c, a :: b :: as, _ => rfl

/-- There is a number or an atom. -/
def Some (c : Option Int) (as : List E) : Prop := c.isSome = true ∨ as ≠ []

theorem formR_cons {c : Option Int} {as : List E} (b : E) (h : Some c as) : formR c (b :: as) = .add (formR c as) b := by
  match c, as with
  | none, [] => simp [Some] at h
  | some c, [] => rfl
  | none, a :: as => rfl
  | some c, a :: as => rfl

theorem add_atomR {c : Option Int} {as : List E} {b : E} (hb : Atom b) (h : Some c as) :
    Adds readme (formR c as) b (formR c (b :: as)) := by
  rw [formR_cons b h]
  apply Adds.val
  generalize formR c as = x
  cases b <;> cases x <;> first | rfl | exact hb.elim

theorem num_addR {c : Option Int} {d : Int} : ∀ {as : List E}, (∀ a ∈ as, Atom a) → Some c as →
    Adds readme (.num d) (formR c as) (formR (some (d + c.getD 0)) as) := by
  intro as
  induction as with
  | nil =>
    intro _ _
    exact Adds.val rfl
  | cons a as ih =>
    intro ha _
    have ha' : ∀ x ∈ as, Atom x := fun x hx => ha x (by simp [hx])
    have h1 := ha a (by simp)
    by_cases hs : Some c as
    · refine Adds.two (a := .num d) (b := formR c as) (c := a) ?_ (ih ha' hs) (add_atomR h1 (Or.inl rfl))
      rw [formR_cons a hs]
      rfl
    · have hc : c = none := by
        cases c with
        | none => rfl
        | some c => exact (hs (Or.inl rfl)).elim
      have has : as = [] := by
        by_contra h
        exact hs (Or.inr h)
      subst hc has
      have := add_atomR (c := some d) (as := []) h1 (Or.inl rfl)
      simpa [formR] using this

theorem add_numR {c : Option Int} {d : Int} {as : List E} (ha : ∀ a ∈ as, Atom a) (hs : Some c as) :
    Adds readme (formR c as) (.num d) (formR (some (c.getD 0 + d)) as) := by
  by_cases hne : as = []
  · subst hne
    exact Adds.val rfl
  · refine Adds.one (a := .num d) (b := formR c as) ?_ (by rw [Int.add_comm]; exact num_addR ha hs)
    have := formR_isTerm (c := c) ha hne
    simp [readme, dispatch, assocAdd, commuteAdd, this]

/-- The sum of the numbers, if any. -/
def addOpt : Option Int → Option Int → Option Int
  | some c, some d => some (c + d)
  | some c, none => some c
  | none, d => d

theorem addOpt_some_right (c : Option Int) (d : Int) : addOpt c (some d) = some (c.getD 0 + d) := by
  cases c <;> simp [addOpt]

theorem some_append {c d : Option Int} {as bs : List E} (h : Some c as) : Some (addOpt c d) (bs ++ as) := by
  rcases h with h | h
  · left; cases c <;> cases d <;> simp_all [addOpt]
  · right; simp [h]

theorem add_formR {c d : Option Int} {as : List E} (ha : ∀ a ∈ as, Atom a) (hs : Some c as) : ∀ {bs : List E},
    (∀ b ∈ bs, Atom b) → Some d bs → Adds readme (formR c as) (formR d bs) (formR (addOpt c d) (bs ++ as)) := by
  intro bs
  induction bs with
  | nil =>
    intro _ hd
    cases d with
    | none => simp [Some] at hd
    | some d =>
      rw [addOpt_some_right]
      exact add_numR ha hs
  | cons b bs ih =>
    intro hb hd
    have hb' : ∀ x ∈ bs, Atom x := fun x hx => hb x (by simp [hx])
    have h1 := hb b (by simp)
    by_cases hsb : Some d bs
    · refine Adds.two (a := formR c as) (b := formR d bs) (c := b) ?_ (ih hb' hsb) (add_atomR h1 (some_append hs))
      rw [formR_cons b hsb]
      rfl
    · have hd : d = none := by
        cases d with
        | none => rfl
        | some d => exact (hsb (Or.inl rfl)).elim
      have hbs : bs = [] := by
        by_contra h
        exact hsb (Or.inr h)
      subst hd hbs
      have := add_atomR (c := c) (as := as) h1 hs
      have e : addOpt c none = c := by cases c <;> rfl
      simpa [formR, e] using this

/-- The summands that are not numbers. -/
def others (e : E) : List E := (summands e).filter E.isTerm

theorem atoms_filter {as : List E} (ha : ∀ a ∈ as, Atom a) : as.filter E.isTerm = as := by
  rw [List.filter_eq_self]
  intro a h
  have := ha a h
  cases a <;> first | rfl | exact this.elim

theorem summands_formR {c : Option Int} : ∀ {as : List E}, (∀ a ∈ as, Atom a) → Some c as →
    summands (formR c as) = c.toList.map .num ++ as.reverse := by
  intro as
  induction as with
  | nil =>
    intro _ h
    cases c with
    | none => simp [Some] at h
    | some c => rfl
  | cons a as ih =>
    intro ha _
    have ha' : ∀ x ∈ as, Atom x := fun x hx => ha x (by simp [hx])
    have h1 := summands_atom (ha a (by simp))
    by_cases hs : Some c as
    · rw [formR_cons a hs, summands, ih ha' hs, h1]
      simp
    · have hc : c = none := by
        cases c with
        | none => rfl
        | some c => exact (hs (Or.inl rfl)).elim
      have has : as = [] := by
        by_contra h
        exact hs (Or.inr h)
      subst hc has
      simp [formR, h1]

theorem formR_left {c : Option Int} : ∀ {as : List E}, (∀ a ∈ as, Atom a) → Left (formR c as) := by
  intro as
  induction as with
  | nil => intro _; cases c <;> trivial
  | cons a as ih =>
    intro ha
    have ha' : ∀ x ∈ as, Atom x := fun x hx => ha x (by simp [hx])
    have h1 := ha a (by simp)
    have h2 : ∀ p q, a ≠ .add p q := by rintro p q rfl; exact h1
    match c, as with
    | none, [] => cases a <;> trivial
    | some c, [] => exact ⟨trivial, h2⟩
    | none, x :: as => exact ⟨ih ha', h2⟩
    | some c, x :: as => exact ⟨ih ha', h2⟩

theorem returns_formR (e : E) : ∃ c as, Returns readme e (formR c as) ∧ (∀ a ∈ as, Atom a) ∧ Some c as ∧
    (Linear e → as.reverse = others e) := by
  induction e with
  | num n => exact ⟨some n, [], ⟨0, rfl⟩, by simp, Or.inl rfl, fun _ => rfl⟩
  | var i => exact ⟨none, [.var i], ⟨0, rfl⟩, by simp [Atom], Or.inr (by simp), fun _ => rfl⟩
  | app f e ih =>
    obtain ⟨c, as, ⟨k, h⟩, _, _⟩ := ih
    exact ⟨none, [.app f (formR c as)], ⟨k, by simp [evaluate, h, formR]⟩, by simp [Atom], Or.inr (by simp), fun h => h.elim⟩
  | add a b iha ihb =>
    obtain ⟨c, as, h1, ha, hsa, hla⟩ := iha
    obtain ⟨d, bs, h2, hb, hsb, hlb⟩ := ihb
    refine ⟨addOpt c d, bs ++ as, h1.add h2 (add_formR ha hsa hb hsb), ?_, some_append hsa, ?_⟩
    · intro x hx
      rcases List.mem_append.1 hx with h | h
      · exact hb x h
      · exact ha x h
    · intro hl
      rw [List.reverse_append, hla hl.1, hlb hl.2]
      simp [others, summands]

/-- **C88.** Under the rules of the readme every evaluation terminates: the result associates to the left and has at most one
number, as first summand; other summands of sums of numbers and variables keep their order. -/
theorem C88_readme (e : E) : ∃ r, Returns readme e r ∧ Left r ∧ (∀ n, .num n ∉ (summands r).tail) ∧
    (Linear e → others r = others e) := by
  obtain ⟨c, as, h, ha, hs, hl⟩ := returns_formR e
  have hnum : ∀ n, .num n ∉ as.reverse := fun n hn => ha _ (List.mem_reverse.1 hn)
  have hatoms : ∀ a ∈ as.reverse, Atom a := fun a h => ha a (List.mem_reverse.1 h)
  refine ⟨_, h, formR_left ha, ?_, ?_⟩
  · intro n hn
    rw [summands_formR ha hs] at hn
    cases c with
    | none => exact hnum n (List.mem_of_mem_tail (by simpa using hn))
    | some c => exact hnum n (by simpa using hn)
  · intro hle
    rw [← hl hle, others, summands_formR ha hs, List.filter_append, atoms_filter hatoms]
    cases c <;> simp [E.isTerm]

/-! ## Other operations -/

/-- Sums with other operations: `f(x) + y` and `y + f(x)` have the same value but different results. -/
theorem C88_opaque_fails : ∃ e f r s, Returns eagerMixed e r ∧ Returns eagerMixed f s ∧
    (∀ env fn, den env fn e = den env fn f) ∧ r ≠ s :=
  ⟨.add (.app 0 (.var 0)) (.var 1), .add (.var 1) (.app 0 (.var 0)), .add (.app 0 (.var 0)) (.var 1),
    .add (.var 1) (.app 0 (.var 0)), ⟨5, by decide⟩, ⟨5, by decide⟩,
    fun env fn => by simp [den, Int.add_comm], by decide⟩

/-! ## Examples -/

/-- Sums within arguments are normal too. -/
example : evaluate eagerMixed 9 (.app 0 (.add (.var 2) (.num 1))) = some (.app 0 (.add (.num 1) (.var 2))) := by decide

/-- `1 + 1 + (x() + 1) + (5 + y())` (`readme_example.py` 43). -/
def readmeTerm : E := .add (.add (.add (.num 1) (.num 1)) (.add (.var 7) (.num 1))) (.add (.num 5) (.var 3))

example : evaluate readme 9 readmeTerm = some (.add (.add (.num 8) (.var 7)) (.var 3)) := by decide
example : evaluate eagerMixed 9 readmeTerm = some (.add (.add (.num 8) (.var 3)) (.var 7)) := by decide

/-- A number that cancels is left out. -/
example : evaluate eagerMixed 9 (.add (.add (.num (-1)) (.var 2)) (.add (.var 1) (.num 1))) =
    some (.add (.var 1) (.var 2)) := by decide

example : Linear readmeTerm ∧ Linear (.add (.num 8) (.add (.var 3) (.var 7))) ∧
    ∃ r, Returns eagerMixed readmeTerm r ∧ Returns eagerMixed (.add (.num 8) (.add (.var 3) (.var 7))) r :=
  ⟨by simp [readmeTerm, Linear], by simp [Linear], .add (.add (.num 8) (.var 3)) (.var 7), ⟨9, by decide⟩, ⟨9, by decide⟩⟩

/-- The rules of the readme do not order variables and keep zero. -/
example : evaluate readme 9 (.add (.add (.var 2) (.var 1)) (.num 0)) = some (.add (.add (.num 0) (.var 2)) (.var 1)) := by
  decide

end Verif.Examples.Sums
