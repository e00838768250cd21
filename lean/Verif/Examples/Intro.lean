/-!
# C113: the rules for sums of the introduction

Model of the handlers of `add` in `docs/source/introduction.ipynb` (`add_using_plus`, `free_add`, `eager_add`, and in part 3
`commutative_add`, `associative_add`, `associative_commutative_add`), of their coproduct `add_stack`, and of expressions whose calls of
`add` are handled by it. Variables are operations without arguments, given by their `id`. There may be other operations with one and with
two arguments, without handlers.
-/

namespace Verif.Examples.Intro

/-- Integers and terms. -/
inductive E where
  | num (n : Int)
  | var (i : Nat)
  | app (f : Nat) (e : E)
  | bin (f : Nat) (a b : E)
  | add (a b : E)
  deriving DecidableEq

/-- The pattern `Term(_, _, _)`. -/
def E.isTerm : E → Bool
  | .num _ => false
  | _ => true

/-- What a handler returns: a value, or calls of `add`. -/
inductive Calls where
  | val (e : E)
  | add (a b : Calls)

/-- A handler: `none` is `return fwd()`. -/
abbrev Rule := E → E → Option Calls

/-- `free_add` (introduction.ipynb 217–220): the term. -/
def freeAdd (x y : E) : Calls := .val (.add x y)

/-- `eager_add` (299–304) with `add_using_plus` (112–116). -/
def eagerAdd : Rule
  | .num m, .num n => some (.val (.num (m + n)))
  | _, _ => none

/-- `commutative_add` (423–430). The pattern `{}` matches every mapping. -/
def commutativeAdd : Rule
  | x, .num n => if x.isTerm then some (.add (.val (.num n)) (.val x)) else none
  | .var i, .var j => if i < j then some (.add (.val (.var j)) (.val (.var i))) else none
  | _, _ => none

/-- `associative_add` (433–438). The pattern `Term(_, (a, b), {})` has no operation in it. -/
def associativeAdd : Rule
  | x, .add a b => some (.add (.add (.val x) (.val a)) (.val b))
  | x, .bin _ a b => some (.add (.add (.val x) (.val a)) (.val b))
  | _, _ => none

/-- Whether the pattern `()` matches the keyword arguments of a term: they are a mapping, and sequence patterns match sequences only. -/
def seqMatchesMapping : Bool := false

/-- `associative_commutative_add` (443–448), with the pattern `Term(_, (left, Term(mv, (), ())), {})`. -/
def associativeCommutativeAdd : Rule
  | .add a (.var i), .var j =>
    if seqMatchesMapping && decide (i < j) then some (.add (.add (.val a) (.val (.var j))) (.val (.var i))) else none
  | .bin _ a (.var i), .var j =>
    if seqMatchesMapping && decide (i < j) then some (.add (.add (.val a) (.val (.var j))) (.val (.var i))) else none
  | _, _ => none

/-- `add_stack` (482–491): later interpretations come first. -/
def stack : List Rule := [associativeAdd, commutativeAdd, associativeCommutativeAdd, eagerAdd]

/-- The handlers in the order in which `fwd` reaches them, `free_add` at the end. -/
def dispatch : List Rule → E → E → Calls
  | [], x, y => freeAdd x y
  | r :: rs, x, y => (r x y).getD (dispatch rs x y)

/-- The value of calls, given what `add` does. -/
def Calls.run (f : E → E → Option E) : Calls → Option E
  | .val e => some e
  | .add a b => (a.run f).bind fun x => (b.run f).bind fun y => f x y

/-- `add(x, y)` under `handler(add_stack)`, with a bound on the depth of calls. -/
def addN : Nat → E → E → Option E
  | 0, _, _ => none
  | k + 1, x, y => (dispatch stack x y).run (addN k)

/-- An expression under `handler(add_stack)`: arguments first. -/
def evalN (k : Nat) : E → Option E
  | .num n => some (.num n)
  | .var i => some (.var i)
  | .app f e => (evalN k e).map (.app f)
  | .bin f a b => (evalN k a).bind fun x => (evalN k b).map fun y => .bin f x y
  | .add a b => (evalN k a).bind fun x => (evalN k b).bind fun y => addN k x y

/-! ## Specification -/

/-- The expression has the value `r`. -/
def Returns (e r : E) : Prop := ∃ k, evalN k e = some r

/-- What an expression means, for values of variables and other operations. -/
def den (env : Nat → Int) (fn : Nat → Int → Int) (fn2 : Nat → Int → Int → Int) : E → Int
  | .num n => n
  | .var i => env i
  | .app f e => fn f (den env fn fn2 e)
  | .bin f a b => fn2 f (den env fn fn2 a) (den env fn fn2 b)
  | .add a b => den env fn fn2 a + den env fn fn2 b

/-- No operation with two arguments but `add`. -/
def NoBin : E → Prop
  | .num _ => True
  | .var _ => True
  | .app _ e => NoBin e
  | .bin _ _ _ => False
  | .add a b => NoBin a ∧ NoBin b

/-- Sums of numbers and variables. -/
def Linear : E → Prop
  | .num _ => True
  | .var _ => True
  | .app _ _ => False
  | .bin _ _ _ => False
  | .add a b => Linear a ∧ Linear b

/-- The summands, from the left. -/
def summands : E → List E
  | .add a b => summands a ++ summands b
  | e => [e]

/-- Sums associate to the left. -/
def Left : E → Prop
  | .add a b => Left a ∧ ∀ c d, b ≠ .add c d
  | _ => True

/-- The summands that are not numbers. -/
def others (e : E) : List E := (summands e).filter fun x => x.isTerm

/-! ## Proofs -/

def Adds (x y r : E) : Prop := ∃ k, addN k x y = some r

theorem run_mono {f g : E → E → Option E} (h : ∀ x y r, f x y = some r → g x y = some r) (c : Calls) (r : E) (hr : c.run f = some r) :
    c.run g = some r := by
  induction c generalizing r with
  | val e => exact hr
  | add a b iha ihb =>
    simp only [Calls.run, Option.bind_eq_some_iff] at hr ⊢
    obtain ⟨x, hx, y, hy, e⟩ := hr
    exact ⟨x, iha x hx, y, ihb y hy, h x y r e⟩

theorem addN_succ (k : Nat) : ∀ x y r, addN k x y = some r → addN (k + 1) x y = some r := by
  induction k with
  | zero => intro x y r h; cases h
  | succ k ih => intro x y r h; exact run_mono ih _ _ h

theorem addN_mono {k l : Nat} (h : k ≤ l) {x y r : E} (hr : addN k x y = some r) : addN l x y = some r := by
  induction h with
  | refl => exact hr
  | step _ ih => exact addN_succ _ _ _ _ ih

theorem evalN_mono {k l : Nat} (h : k ≤ l) {e r : E} (hr : evalN k e = some r) : evalN l e = some r := by
  induction e generalizing r with
  | num n => exact hr
  | var i => exact hr
  | app f e ih =>
    simp only [evalN, Option.map_eq_some_iff] at hr ⊢
    obtain ⟨x, hx, e⟩ := hr
    exact ⟨x, ih hx, e⟩
  | bin f a b iha ihb =>
    simp only [evalN, Option.bind_eq_some_iff, Option.map_eq_some_iff] at hr ⊢
    obtain ⟨x, hx, y, hy, e⟩ := hr
    exact ⟨x, iha hx, y, ihb hy, e⟩
  | add a b iha ihb =>
    simp only [evalN, Option.bind_eq_some_iff] at hr ⊢
    obtain ⟨x, hx, y, hy, e⟩ := hr
    exact ⟨x, iha hx, y, ihb hy, addN_mono h e⟩

theorem returns_unique {e r s : E} (h1 : Returns e r) (h2 : Returns e s) : r = s := by
  obtain ⟨k, h1⟩ := h1
  obtain ⟨l, h2⟩ := h2
  have a := evalN_mono (Nat.le_max_left k l) h1
  have b := evalN_mono (Nat.le_max_right k l) h2
  rw [a] at b
  exact Option.some.inj b

theorem adds_val {x y r : E} (h : dispatch stack x y = .val r) : Adds x y r := ⟨1, by simp [addN, h, Calls.run]⟩

theorem adds_one {x y a b r : E} (h : dispatch stack x y = .add (.val a) (.val b)) (h1 : Adds a b r) : Adds x y r := by
  obtain ⟨k, h1⟩ := h1
  exact ⟨k + 1, by simp [addN, h, Calls.run, h1]⟩

theorem adds_two {x y a b c s r : E} (h : dispatch stack x y = .add (.add (.val a) (.val b)) (.val c)) (h1 : Adds a b s) (h2 : Adds s c r) :
    Adds x y r := by
  obtain ⟨k, h1⟩ := h1
  obtain ⟨l, h2⟩ := h2
  refine ⟨max k l + 1, ?_⟩
  simp [addN, h, Calls.run, addN_mono (Nat.le_max_left k l) h1, addN_mono (Nat.le_max_right k l) h2]

/-- Variables and other operations with one argument. -/
def Atom : E → Prop
  | .var _ => True
  | .app _ _ => True
  | _ => False

/-- A sum that associates to the left. -/
def sumOf (f : E) (r : List E) : E := r.foldl .add f

/-- Numbers or atoms, with a number at most at the beginning. -/
def Form (f : E) (r : List E) : Prop := ((∃ n, f = .num n) ∨ Atom f) ∧ ∀ a ∈ r, Atom a

theorem sumOf_snoc (f : E) (r : List E) (b : E) : sumOf f (r ++ [b]) = .add (sumOf f r) b := by simp [sumOf]

theorem dispatch_assoc (x a b : E) : dispatch stack x (.add a b) = .add (.add (.val x) (.val a)) (.val b) := rfl

/-- An atom is added at the end, unless two variables are in the wrong order. -/
theorem dispatch_atom {x b : E} (hb : Atom b) (h : ∀ i j, x = .var i → b = .var j → j ≤ i) : dispatch stack x b = .val (.add x b) := by
  cases b with
  | num n => exact hb.elim
  | bin f a b => exact hb.elim
  | add a b => exact hb.elim
  | app f e =>
    cases x with
    | bin g a c => cases c <;> rfl
    | add a c => cases c <;> rfl
    | _ => rfl
  | var j =>
    cases x with
    | var i =>
      have := h i j rfl rfl
      simp [dispatch, stack, associativeAdd, commutativeAdd, associativeCommutativeAdd, eagerAdd, freeAdd, Nat.not_lt.2 this]
    | num n => rfl
    | app f e => rfl
    | bin f a c => cases c <;> simp [dispatch, stack, associativeAdd, commutativeAdd, associativeCommutativeAdd, seqMatchesMapping, eagerAdd, freeAdd]
    | add a c => cases c <;> simp [dispatch, stack, associativeAdd, commutativeAdd, associativeCommutativeAdd, seqMatchesMapping, eagerAdd, freeAdd]

theorem add_atom_num {n : Int} {r : List E} {b : E} (hb : Atom b) : Adds (sumOf (.num n) r) b (sumOf (.num n) (r ++ [b])) := by
  rw [sumOf_snoc]
  refine adds_val (dispatch_atom hb ?_)
  intro i j hi
  exfalso
  rcases List.eq_nil_or_concat r with rfl | ⟨r, c, rfl⟩
  · cases hi
  · simp [List.concat_eq_append, sumOf] at hi

theorem add_atom {f b : E} {r : List E} (hf : Form f r) (hb : Atom b) :
    ∃ f' r', Form f' r' ∧ Adds (sumOf f r) b (sumOf f' r') ∧ (f' :: r').Perm ((f :: r) ++ [b]) := by
  have plain : (∀ i j, sumOf f r = .var i → b = .var j → j ≤ i) →
      ∃ f' r', Form f' r' ∧ Adds (sumOf f r) b (sumOf f' r') ∧ (f' :: r').Perm ((f :: r) ++ [b]) := by
    intro h
    refine ⟨f, r ++ [b], ⟨hf.1, ?_⟩, by rw [sumOf_snoc]; exact adds_val (dispatch_atom hb h), by simp⟩
    intro a ha
    rcases List.mem_append.1 ha with ha | ha
    · exact hf.2 a ha
    · simp at ha; subst ha; exact hb
  by_cases h : ∀ i j, sumOf f r = .var i → b = .var j → j ≤ i
  · exact plain h
  · have ⟨i, j, hi, hj, hij⟩ : ∃ i j, sumOf f r = .var i ∧ b = .var j ∧ i < j := by
      refine Classical.byContradiction fun hn => h fun i j hi hj => ?_
      exact Nat.le_of_not_lt fun hij => hn ⟨i, j, hi, hj, hij⟩
    have hr : r = [] := by
      rcases List.eq_nil_or_concat r with rfl | ⟨r, c, rfl⟩
      · rfl
      · simp [List.concat_eq_append, sumOf] at hi
    subst hr
    simp only [sumOf, List.foldl_nil] at hi
    subst hi hj
    refine ⟨.var j, [.var i], ⟨.inr trivial, by simp [Atom]⟩, ?_, List.Perm.swap ..⟩
    refine adds_one (a := .var j) (b := .var i) ?_ (adds_val (dispatch_atom trivial ?_))
    · simp [dispatch, stack, associativeAdd, commutativeAdd, sumOf, hij]
    · intro a c ha hc; cases ha; cases hc; exact Nat.le_of_lt hij

/-- A list of summands with its number added to. -/
def bump (d : Int) : E → List E → E × List E
  | .num c, r => (.num (d + c), r)
  | f, r => (.num d, f :: r)

theorem num_add {d : Int} {f : E} {r : List E} (hf : Form f r) : Adds (.num d) (sumOf f r) (sumOf (bump d f r).1 (bump d f r).2) := by
  obtain ⟨h1, h2⟩ := hf
  generalize hn : r.length = n
  induction n generalizing r with
  | zero =>
    have := List.length_eq_zero_iff.1 hn
    subst this
    rcases h1 with ⟨c, rfl⟩ | h1
    · exact adds_val rfl
    · have : bump d f [] = (.num d, [f]) := by cases f <;> first | rfl | exact h1.elim
      rw [this]
      exact add_atom_num (r := []) h1
  | succ n ih =>
    rcases List.eq_nil_or_concat r with rfl | ⟨r, c, rfl⟩
    · simp at hn
    · rw [List.concat_eq_append] at hn h2 ⊢
      have hc : Atom c := h2 c (by simp)
      have hr : ∀ a ∈ r, Atom a := fun a ha => h2 a (by simp [ha])
      have ih := ih hr (by simpa using hn)
      rw [sumOf_snoc]
      refine adds_two (dispatch_assoc _ _ _) ih ?_
      have hb : ∃ m s, bump d f r = (.num m, s) ∧ bump d f (r ++ [c]) = (.num m, s ++ [c]) := by
        cases f <;> exact ⟨_, _, rfl, rfl⟩
      obtain ⟨m, s, e1, e2⟩ := hb
      rw [e1, e2]
      exact add_atom_num hc

theorem bump_form {d : Int} {f : E} {r : List E} (hf : Form f r) : Form (bump d f r).1 (bump d f r).2 := by
  obtain ⟨h1 | h1, h2⟩ := hf
  · obtain ⟨c, rfl⟩ := h1
    exact ⟨.inl ⟨_, rfl⟩, h2⟩
  · cases f with
    | num n => exact h1.elim
    | bin f a b => exact h1.elim
    | add a b => exact h1.elim
    | var i => exact ⟨.inl ⟨_, rfl⟩, by simp only [bump, List.mem_cons, forall_eq_or_imp]; exact ⟨trivial, h2⟩⟩
    | app g e => exact ⟨.inl ⟨_, rfl⟩, by simp only [bump, List.mem_cons, forall_eq_or_imp]; exact ⟨trivial, h2⟩⟩

/-- The value and the other summands of lists of summands. -/
def dens (env : Nat → Int) (fn : Nat → Int → Int) (fn2 : Nat → Int → Int → Int) (l : List E) : Int := (l.map (den env fn fn2)).sum

def terms (l : List E) : List E := l.filter fun x => x.isTerm

theorem dens_perm (env : Nat → Int) (fn : Nat → Int → Int) (fn2 : Nat → Int → Int → Int) {l m : List E} (h : l.Perm m) :
    dens env fn fn2 l = dens env fn fn2 m := by
  induction h with
  | nil => rfl
  | cons x _ ih => simp only [dens, List.map_cons, List.sum_cons] at ih ⊢; omega
  | swap x y l => simp only [dens, List.map_cons, List.sum_cons]; omega
  | trans _ _ ih1 ih2 => exact ih1.trans ih2

theorem dens_append (env : Nat → Int) (fn : Nat → Int → Int) (fn2 : Nat → Int → Int → Int) (l m : List E) :
    dens env fn fn2 (l ++ m) = dens env fn fn2 l + dens env fn fn2 m := by
  induction l with
  | nil => simp [dens]
  | cons x l ih => simp only [dens, List.cons_append, List.map_cons, List.sum_cons] at ih ⊢; omega

/-- What a sum gives: the same value, and the same other summands. -/
def Good (l m : List E) : Prop := (∀ env fn fn2, dens env fn fn2 l = dens env fn fn2 m) ∧ (terms l).Perm (terms m)

theorem good_perm {l m : List E} (h : l.Perm m) : Good l m := ⟨fun env fn fn2 => dens_perm env fn fn2 h, h.filter _⟩

theorem good_trans {l m n : List E} (h : Good l m) (h' : Good m n) : Good l n :=
  ⟨fun a b c => (h.1 a b c).trans (h'.1 a b c), h.2.trans h'.2⟩

theorem good_append {l m l' m' : List E} (h : Good l m) (h' : Good l' m') : Good (l ++ l') (m ++ m') :=
  ⟨fun a b c => by rw [dens_append, dens_append, h.1, h'.1], by
    simp only [terms, List.filter_append]
    exact h.2.append h'.2⟩

theorem bump_good {d : Int} {f : E} {r : List E} : Good ((bump d f r).1 :: (bump d f r).2) ((f :: r) ++ [.num d]) := by
  cases f with
  | num c =>
    refine ⟨fun a b e => ?_, ?_⟩
    · rw [dens_append]; simp only [bump, dens, List.map_cons, List.sum_cons, den, List.map_nil, List.sum_nil]; omega
    · simp [bump, terms, E.isTerm]
  | var i => exact good_perm (by simp only [bump]; exact (List.perm_append_comm (l₁ := [E.num d])))
  | app g e => exact good_perm (by simp only [bump]; exact (List.perm_append_comm (l₁ := [E.num d])))
  | bin g a b => exact good_perm (by simp only [bump]; exact (List.perm_append_comm (l₁ := [E.num d])))
  | add a b => exact good_perm (by simp only [bump]; exact (List.perm_append_comm (l₁ := [E.num d])))

theorem sumOf_isTerm {f : E} {r : List E} (h : Atom f ∨ r ≠ []) : (sumOf f r).isTerm = true := by
  rcases List.eq_nil_or_concat r with rfl | ⟨r, c, rfl⟩
  · rcases h with h | h
    · cases f <;> first | rfl | exact h.elim
    · exact absurd rfl h
  · rw [List.concat_eq_append, sumOf_snoc]; rfl

theorem add_num {d : Int} {f : E} {r : List E} (hf : Form f r) :
    ∃ f' r', Form f' r' ∧ Adds (sumOf f r) (.num d) (sumOf f' r') ∧ Good (f' :: r') ((f :: r) ++ [.num d]) := by
  by_cases h : Atom f ∨ r ≠ []
  · refine ⟨_, _, bump_form hf, adds_one (a := .num d) (b := sumOf f r) ?_ (num_add (d := d) hf), bump_good⟩
    have := sumOf_isTerm h
    simp [dispatch, stack, associativeAdd, commutativeAdd, this]
  · have hr : r = [] := Classical.byContradiction fun e => h (.inr e)
    subst hr
    obtain ⟨⟨c, rfl⟩ | h1, _⟩ := hf
    · refine ⟨.num (c + d), [], ⟨.inl ⟨_, rfl⟩, by simp⟩, adds_val rfl, ?_, ?_⟩
      · intro a b e; simp [dens, den]
      · simp [terms, E.isTerm]
    · exact absurd (.inl h1) h

theorem add_form {f g : E} {r s : List E} (hf : Form f r) (hg : Form g s) :
    ∃ f' r', Form f' r' ∧ Adds (sumOf f r) (sumOf g s) (sumOf f' r') ∧ Good (f' :: r') ((f :: r) ++ (g :: s)) := by
  obtain ⟨h1, h2⟩ := hg
  generalize hn : s.length = n
  induction n generalizing s with
  | zero =>
    have := List.length_eq_zero_iff.1 hn
    subst this
    rcases h1 with ⟨c, rfl⟩ | h1
    · exact add_num hf
    · obtain ⟨f', r', a, b, c⟩ := add_atom hf h1
      exact ⟨f', r', a, b, good_perm c⟩
  | succ n ih =>
    rcases List.eq_nil_or_concat s with rfl | ⟨s, c, rfl⟩
    · simp at hn
    · rw [List.concat_eq_append] at hn h2 ⊢
      obtain ⟨f1, r1, a1, b1, c1⟩ := ih (s := s) (fun a ha => h2 a (by simp [ha])) (by simpa using hn)
      obtain ⟨f2, r2, a2, b2, c2⟩ := add_atom a1 (h2 c (by simp))
      refine ⟨f2, r2, a2, by rw [sumOf_snoc]; exact adds_two (dispatch_assoc _ _ _) b1 b2, ?_⟩
      refine good_trans (good_perm c2) ?_
      have := good_append c1 (good_perm (List.Perm.refl [c]))
      simpa using this

theorem sumOf_den (env : Nat → Int) (fn : Nat → Int → Int) (fn2 : Nat → Int → Int → Int) (f : E) (r : List E) :
    den env fn fn2 (sumOf f r) = dens env fn fn2 (f :: r) := by
  induction r generalizing f with
  | nil => simp [sumOf, dens]
  | cons a r ih =>
    have : sumOf f (a :: r) = sumOf (.add f a) r := rfl
    rw [this, ih]
    simp only [dens, List.map_cons, List.sum_cons, den]
    omega

theorem summands_simple {f : E} (h : (∃ n, f = .num n) ∨ Atom f) : summands f = [f] := by
  rcases h with ⟨n, rfl⟩ | h
  · rfl
  · cases f <;> first | rfl | exact h.elim

theorem summands_sumOf {f : E} {r : List E} (h : Form f r) : summands (sumOf f r) = f :: r := by
  obtain ⟨h1, h2⟩ := h
  generalize hn : r.length = n
  induction n generalizing r with
  | zero =>
    have := List.length_eq_zero_iff.1 hn
    subst this
    exact summands_simple h1
  | succ n ih =>
    rcases List.eq_nil_or_concat r with rfl | ⟨r, c, rfl⟩
    · simp at hn
    · rw [List.concat_eq_append] at hn h2 ⊢
      rw [sumOf_snoc, summands, ih (fun a ha => h2 a (by simp [ha])) (by simpa using hn), summands_simple (.inr (h2 c (by simp)))]
      simp

theorem left_sumOf {f : E} {r : List E} (h : Form f r) : Left (sumOf f r) := by
  obtain ⟨h1, h2⟩ := h
  generalize hn : r.length = n
  induction n generalizing r with
  | zero =>
    have := List.length_eq_zero_iff.1 hn
    subst this
    rcases h1 with ⟨n, rfl⟩ | h
    · trivial
    · cases f <;> first | trivial | exact h.elim
  | succ n ih =>
    rcases List.eq_nil_or_concat r with rfl | ⟨r, c, rfl⟩
    · simp at hn
    · rw [List.concat_eq_append] at hn h2 ⊢
      rw [sumOf_snoc]
      refine ⟨ih (fun a ha => h2 a (by simp [ha])) (by simpa using hn), ?_⟩
      rintro p q rfl
      exact h2 _ (List.mem_append_right _ (List.mem_singleton.2 rfl))

theorem returns_form (e : E) (h : NoBin e) : ∃ f r, Form f r ∧ Returns e (sumOf f r) ∧
    (∀ env fn fn2, dens env fn fn2 (f :: r) = den env fn fn2 e) ∧ (Linear e → (terms (f :: r)).Perm (others e)) := by
  induction e with
  | num n => exact ⟨.num n, [], ⟨.inl ⟨n, rfl⟩, by simp⟩, ⟨0, rfl⟩, by simp [dens], fun _ => .refl _⟩
  | var i => exact ⟨.var i, [], ⟨.inr trivial, by simp⟩, ⟨0, rfl⟩, by simp [dens], fun _ => .refl _⟩
  | app g e ih =>
    obtain ⟨f, r, _, ⟨k, hk⟩, hd, _⟩ := ih h
    refine ⟨.app g (sumOf f r), [], ⟨.inr trivial, by simp⟩, ⟨k, by simp [evalN, hk, sumOf]⟩, ?_, fun h => h.elim⟩
    intro env fn fn2
    simp [dens, den, ← hd, sumOf_den]
  | bin g a b => exact h.elim
  | add a b iha ihb =>
    obtain ⟨f, r, h1, ⟨k, hk⟩, hd1, hp1⟩ := iha h.1
    obtain ⟨g, s, h2, ⟨l, hl⟩, hd2, hp2⟩ := ihb h.2
    obtain ⟨f', r', h3, ⟨m, hm⟩, hg⟩ := add_form h1 h2
    refine ⟨f', r', h3, ⟨max (max k l) m, ?_⟩, ?_, ?_⟩
    · have e1 := evalN_mono (l := max (max k l) m) (by omega) hk
      have e2 := evalN_mono (l := max (max k l) m) (by omega) hl
      have e3 := addN_mono (l := max (max k l) m) (by omega) hm
      rw [evalN, e1, Option.bind_some, e2, Option.bind_some, e3]
    · intro env fn fn2
      rw [hg.1, dens_append, hd1, hd2]
      rfl
    · intro hlin
      refine hg.2.trans ?_
      have := (hp1 hlin.1).append (hp2 hlin.2)
      simp only [terms] at this
      rw [← List.filter_append] at this
      simp only [terms, others, summands, List.filter_append] at this ⊢
      exact this

/-- Every sum, with other operations of one argument, has a value under `add_stack`: a sum that associates to the left, with at most one
number, at the beginning, and with the same variables; it means the same. -/
theorem C113_normal (e : E) (h : NoBin e) : ∃ r, Returns e r ∧ (∀ s, Returns e s → s = r) ∧ Left r ∧ (∀ n, .num n ∉ (summands r).tail) ∧
    (Linear e → (others r).Perm (others e)) ∧ ∀ env fn fn2, den env fn fn2 r = den env fn fn2 e := by
  obtain ⟨f, r, hf, hr, hd, hp⟩ := returns_form e h
  refine ⟨sumOf f r, hr, fun s hs => returns_unique hs hr, left_sumOf hf, ?_, ?_, ?_⟩
  · intro n hn
    rw [summands_sumOf hf] at hn
    exact hf.2 _ hn
  · intro hl
    rw [others, summands_sumOf hf]
    exact hp hl
  · intro env fn fn2
    rw [sumOf_den, hd]

/-- The test of the notebook, for all variables. -/
theorem C113_notebook (i j : Nat) : ∃ r,
    Returns (.add (.add (.var i) (.num 2)) (.add (.num 2) (.var j))) r ∧
    Returns (.add (.var i) (.add (.add (.num 3) (.var j)) (.num 1))) r := by
  refine ⟨.add (.add (.num 4) (.var i)) (.var j), ⟨6, rfl⟩, ⟨6, rfl⟩⟩

/-- Two variables have one order. -/
theorem C113_pair (i j : Nat) : ∃ r, Returns (.add (.var i) (.var j)) r ∧ Returns (.add (.var j) (.var i)) r := by
  have down : ∀ i j : Nat, i ≤ j → Adds (.var j) (.var i) (.add (.var j) (.var i)) := fun i j h =>
    adds_val (dispatch_atom trivial fun a b ha hb => by cases ha; cases hb; exact h)
  have up : ∀ i j : Nat, i ≤ j → Adds (.var i) (.var j) (.add (.var j) (.var i)) := fun i j h => by
    by_cases e : i = j
    · subst e; exact down i i h
    · refine adds_one (a := .var j) (b := .var i) ?_ (down i j h)
      simp [dispatch, stack, associativeAdd, commutativeAdd, show i < j by omega]
  have ret : ∀ {x y r}, Adds (.var x) (.var y) r → Returns (.add (.var x) (.var y)) r := fun ⟨k, h⟩ => ⟨k, by simp [evalN, h]⟩
  rcases Nat.le_total i j with h | h
  · exact ⟨_, ret (up i j h), ret (down i j h)⟩
  · exact ⟨_, ret (down j i h), ret (up j i h)⟩

/-- The rule that sorts further variables never applies. -/
theorem C113_dead_fails (x y : E) : associativeCommutativeAdd x y = none := by
  unfold associativeCommutativeAdd seqMatchesMapping
  split <;> simp

/-- So equal sums have different values: `(1 + x) + y` and `(1 + y) + x`, for all different variables. -/
theorem C113_order_fails (i j : Nat) (h : i ≠ j) : ∃ r s, Returns (.add (.add (.num 1) (.var i)) (.var j)) r ∧
    Returns (.add (.add (.num 1) (.var j)) (.var i)) s ∧ r ≠ s := by
  refine ⟨.add (.add (.num 1) (.var i)) (.var j), .add (.add (.num 1) (.var j)) (.var i), ⟨3, rfl⟩, ⟨3, rfl⟩, by simp [h]⟩

/-- Without a number, the order of the first two variables is fixed, but not that of the third. -/
theorem C113_third_fails : ∃ r s, Returns (.add (.add (.var 2) (.var 0)) (.var 1)) r ∧ Returns (.add (.add (.var 2) (.var 1)) (.var 0)) s ∧
    r ≠ s ∧ ∀ env fn fn2, den env fn fn2 r = den env fn fn2 s :=
  ⟨_, _, ⟨3, rfl⟩, ⟨3, rfl⟩, by decide, fun env fn fn2 => by simp only [den]; omega⟩

/-- With another operation of two arguments, sums change their meaning: `x + f(2, 3)` becomes `(x + 2) + 3`. -/
theorem C113_other_fails : ∃ (e r : E) (env : Nat → Int) (fn : Nat → Int → Int) (fn2 : Nat → Int → Int → Int), Returns e r ∧
    den env fn fn2 r ≠ den env fn fn2 e :=
  ⟨.add (.var 0) (.bin 0 (.num 2) (.num 3)), .add (.num 5) (.var 0), fun _ => 0, fun _ n => n, fun _ a b => a * b, ⟨7, rfl⟩, by decide⟩

example : NoBin (.add (.app 0 (.var 1)) (.add (.var 0) (.num 2))) := by simp [NoBin]
example : Returns (.add (.app 0 (.var 1)) (.add (.var 0) (.num 2))) (.add (.add (.num 2) (.app 0 (.var 1))) (.var 0)) := ⟨7, rfl⟩
/-- Two variables are put in the order of their ids, the greater first. -/
example : Returns (.add (.var 0) (.var 1)) (.add (.var 1) (.var 0)) := ⟨3, rfl⟩

end Verif.Examples.Intro
