/-!
# C92: the lambda calculus of `docs/source/lambda_.py`

Model of `beta_app` (42-48), `beta_let` (51-53), `eta_lam` (56-63) and their order in `eager_mixed` (133-143: `beta_let` goes before
`eta_let`, as it is later in the coproduct, and never forwards), for expressions whose lambdas stand in function position only.

Arguments are evaluated first, so the body of a lambda or a `Let` is evaluated, with its variable free, before the variable gets a
handler; a lambda that is applied is gone after that. So what is left after an evaluation has no binders (`Nf`), handlers of variables
are installed only around the evaluation of such a body, and names cannot clash. The new names that `defdata` gives to the variable of
a `Lam` term are left out for this reason.

The handlers of `add` are a parameter `plus`, of which `Plus` says that it keeps the value; they are the subject of C88.
-/

namespace Verif.Examples.Lambda

/-- What is left after an evaluation: integers, variables, sums, and applications of what is not a lambda. -/
inductive Nf where
  | int (n : Int)
  | var (x : Nat)
  | add (a b : Nf)
  | app (f a : Nf)
  deriving DecidableEq

/-- Expressions: lambdas are applied, `App(Lam(x, b), a)`. -/
inductive Expr where
  | int (n : Int)
  | var (x : Nat)
  | add (a b : Expr)
  | app (x : Nat) (b a : Expr)
  | lets (x : Nat) (v b : Expr)

/-- `x in fvsof(b)`. -/
def Nf.uses (x : Nat) : Nf → Bool
  | .int _ => false
  | .var y => y == x
  | .add a b => a.uses x || b.uses x
  | .app f a => f.uses x || a.uses x

/-- `handler({x: lambda: v})(evaluate)(b)` (46, 53). -/
def subst (plus : Nf → Nf → Nf) (x : Nat) (v : Nf) : Nf → Nf
  | .int n => .int n
  | .var y => if y = x then v else .var y
  | .add a b => plus (subst plus x v a) (subst plus x v b)
  | .app f a => .app (subst plus x v f) (subst plus x v a)

/-- `App` of an evaluated `Lam(x, b)`, where `b` is evaluated: `eta_lam` (60-61) drops the lambda if `b` is without `x`, and `App` has no
rule for what is left; `beta_app` (45-46) otherwise. -/
def apply (plus : Nf → Nf → Nf) (x : Nat) (b a : Nf) : Nf :=
  if b.uses x then subst plus x a b else .app b a

/-- `evaluate` under `eager_mixed`. -/
def eval (plus : Nf → Nf → Nf) : Expr → Nf
  | .int n => .int n
  | .var x => .var x
  | .add a b => plus (eval plus a) (eval plus b)
  | .app x b a => apply plus x (eval plus b) (eval plus a)
  | .lets x v b => subst plus x (eval plus v) (eval plus b)

/-- `beta_add` (33-39) alone. -/
def betaAdd : Nf → Nf → Nf
  | .int a, .int b => .int (a + b)
  | a, b => .add a b

/-! ## Specification -/

/-- Another value of a variable. -/
def upd (ρ : Nat → Int) (x : Nat) (n : Int) : Nat → Int := fun y => if y = x then n else ρ y

/-- What an expression means. -/
def den (ρ : Nat → Int) : Expr → Int
  | .int n => n
  | .var x => ρ x
  | .add a b => den ρ a + den ρ b
  | .app x b a => den (upd ρ x (den ρ a)) b
  | .lets x v b => den (upd ρ x (den ρ v)) b

/-- What is left of an expression means an integer, if there is no application in it. -/
def Nf.den (ρ : Nat → Int) : Nf → Option Int
  | .int n => some n
  | .var x => some (ρ x)
  | .add a b =>
    match a.den ρ, b.den ρ with
    | some p, some q => some (p + q)
    | _, _ => none
  | .app _ _ => none

/-- Handlers of `add` that keep the value. -/
def Plus (plus : Nf → Nf → Nf) : Prop := ∀ ρ a b, (plus a b).den ρ = (Nf.add a b).den ρ

/-- The body of each lambda has its variable when it is evaluated. -/
def Used (plus : Nf → Nf → Nf) : Expr → Prop
  | .int _ => True
  | .var _ => True
  | .add a b => Used plus a ∧ Used plus b
  | .app x b a => Used plus b ∧ Used plus a ∧ (eval plus b).uses x = true
  | .lets _ v b => Used plus v ∧ Used plus b

/-- The free variables of an expression are among those. -/
def Expr.Free (s : List Nat) : Expr → Prop
  | .int _ => True
  | .var x => x ∈ s
  | .add a b => a.Free s ∧ b.Free s
  | .app x b a => b.Free (x :: s) ∧ a.Free s
  | .lets x v b => v.Free s ∧ b.Free (x :: s)

/-! ## Proofs -/

theorem betaAdd_plus : Plus betaAdd := by
  intro ρ a b
  unfold betaAdd
  split <;> rfl

theorem subst_sound {plus : Nf → Nf → Nf} (hp : Plus plus) (x : Nat) (v : Nf) (ρ : Nat → Int) (m : Int)
    (hm : ∀ m', v.den ρ = some m' → m = m') : ∀ (b : Nf) (n : Int), (subst plus x v b).den ρ = some n → b.den (upd ρ x m) = some n
  | .int _, _, h => h
  | .var y, n, h => by
    simp only [subst] at h
    split at h
    · rename_i hy
      simp [Nf.den, upd, hy, hm n h]
    · rename_i hy
      simpa [Nf.den, upd, hy] using h
  | .app f a, n, h => by simp [subst, Nf.den] at h
  | .add a b, n, h => by
    simp only [subst, hp ρ, Nf.den] at h
    split at h
    · rename_i p q h1 h2
      have e1 := subst_sound hp x v ρ m hm a p h1
      have e2 := subst_sound hp x v ρ m hm b q h2
      simpa [Nf.den, e1, e2] using h
    · cases h

/-- **C92.** If what is left after an evaluation means an integer, it is the one that the expression means. -/
theorem C92_sound {plus : Nf → Nf → Nf} (hp : Plus plus) : ∀ (e : Expr) (ρ : Nat → Int) (n : Int),
    (eval plus e).den ρ = some n → den ρ e = n
  | .int _, _, _, h => by simpa [eval, Nf.den, den] using h
  | .var _, _, _, h => by simpa [eval, Nf.den, den] using h
  | .add a b, ρ, n, h => by
    simp only [eval, hp ρ, Nf.den] at h
    split at h
    · rename_i p q h1 h2
      simp only [den, C92_sound hp a ρ p h1, C92_sound hp b ρ q h2]
      exact Option.some.inj h
    · cases h
  | .app x b a, ρ, n, h => by
    simp only [eval, apply] at h
    split at h
    · exact C92_sound hp b _ n (subst_sound hp x _ ρ _ (fun m' hm' => C92_sound hp a ρ m' hm') _ n h)
    · cases h
  | .lets x v b, ρ, n, h =>
    C92_sound hp b _ n (subst_sound hp x _ ρ _ (fun m' hm' => C92_sound hp v ρ m' hm') _ n h)

theorem subst_den {plus : Nf → Nf → Nf} (hp : Plus plus) (x : Nat) (v : Nf) (ρ : Nat → Int) (m : Int) (hm : v.den ρ = some m) :
    ∀ b : Nf, (subst plus x v b).den ρ = b.den (upd ρ x m)
  | .int _ => rfl
  | .var y => by
    simp only [subst]
    split
    · rename_i hy
      simp [Nf.den, upd, hy, hm]
    · rename_i hy
      simp [Nf.den, upd, hy]
  | .app f a => rfl
  | .add a b => by simp only [subst, hp ρ, Nf.den, subst_den hp x v ρ m hm a, subst_den hp x v ρ m hm b]

/-- **C92.** If the body of each lambda has its variable when it is evaluated, what is left means what the expression means. `Let` needs
no such condition. -/
theorem C92_complete_partial {plus : Nf → Nf → Nf} (hp : Plus plus) : ∀ (e : Expr) (ρ : Nat → Int), Used plus e →
    (eval plus e).den ρ = some (den ρ e)
  | .int _, _, _ => rfl
  | .var _, _, _ => rfl
  | .add a b, ρ, h => by
    simp only [eval, hp ρ, Nf.den, C92_complete_partial hp a ρ h.1, C92_complete_partial hp b ρ h.2, den]
  | .app x b a, ρ, h => by
    simp only [eval, apply, h.2.2, if_true]
    rw [subst_den hp x _ ρ _ (C92_complete_partial hp a ρ h.2.1)]
    exact C92_complete_partial hp b _ h.1
  | .lets x v b, ρ, h => by
    simp only [eval]
    rw [subst_den hp x _ ρ _ (C92_complete_partial hp v ρ h.1)]
    exact C92_complete_partial hp b _ h.2

/-- Variables of what is left are among those. -/
def Nf.Free (s : List Nat) : Nf → Prop
  | .int _ => True
  | .var x => x ∈ s
  | .add a b => a.Free s ∧ b.Free s
  | .app f a => f.Free s ∧ a.Free s

theorem free_betaAdd {s : List Nat} {a b : Nf} (ha : a.Free s) (hb : b.Free s) : (betaAdd a b).Free s := by
  unfold betaAdd
  split
  · trivial
  · exact ⟨ha, hb⟩

theorem free_subst {s : List Nat} {x : Nat} {v : Nf} (hv : v.Free s) : ∀ {b : Nf}, b.Free (x :: s) → (subst betaAdd x v b).Free s
  | .int _, _ => trivial
  | .var y, h => by
    simp only [subst]
    split
    · exact hv
    · rename_i hy
      exact (List.mem_cons.1 h).resolve_left hy
  | .add _ _, h => free_betaAdd (free_subst hv h.1) (free_subst hv h.2)
  | .app _ _, h => ⟨free_subst hv h.1, free_subst hv h.2⟩

theorem not_uses {s : List Nat} {x : Nat} : ∀ {b : Nf}, b.Free (x :: s) → b.uses x = false → b.Free s
  | .int _, _, _ => trivial
  | .var y, h, hu => by
    refine (List.mem_cons.1 h).resolve_left ?_
    rintro rfl
    simp [Nf.uses] at hu
  | .add _ _, h, hu => by
    simp only [Nf.uses, Bool.or_eq_false_iff] at hu
    exact ⟨not_uses h.1 hu.1, not_uses h.2 hu.2⟩
  | .app _ _, h, hu => by
    simp only [Nf.uses, Bool.or_eq_false_iff] at hu
    exact ⟨not_uses h.1 hu.1, not_uses h.2 hu.2⟩

/-- **C92.** Evaluation brings no new free variables. -/
theorem C92_free : ∀ (e : Expr) (s : List Nat), e.Free s → (eval betaAdd e).Free s
  | .int _, _, _ => trivial
  | .var _, _, h => h
  | .add a b, s, h => free_betaAdd (C92_free a s h.1) (C92_free b s h.2)
  | .app x b a, s, h => by
    simp only [eval, apply]
    split
    · exact free_subst (C92_free a s h.2) (C92_free b _ h.1)
    · rename_i hu
      exact ⟨not_uses (C92_free b _ h.1) (by simpa using hu), C92_free a s h.2⟩
  | .lets x v b, s, h => free_subst (C92_free v s h.1) (C92_free b _ h.2)

/-- Sums of integers are computed, so no sum has two. -/
def Reduced : Nf → Prop
  | .int _ => True
  | .var _ => True
  | .add a b => Reduced a ∧ Reduced b ∧ ¬ ((∃ n, a = .int n) ∧ ∃ n, b = .int n)
  | .app f a => Reduced f ∧ Reduced a

theorem reduced_betaAdd {a b : Nf} (ha : Reduced a) (hb : Reduced b) : Reduced (betaAdd a b) := by
  unfold betaAdd
  split
  · trivial
  · rename_i h
    refine ⟨ha, hb, ?_⟩
    rintro ⟨⟨n, rfl⟩, ⟨m, rfl⟩⟩
    exact h n m rfl rfl

theorem reduced_subst {x : Nat} {v : Nf} (hv : Reduced v) : ∀ {b : Nf}, Reduced b → Reduced (subst betaAdd x v b)
  | .int _, _ => trivial
  | .var y, _ => by
    simp only [subst]
    split
    · exact hv
    · trivial
  | .add _ _, h => reduced_betaAdd (reduced_subst hv h.1) (reduced_subst hv h.2.1)
  | .app _ _, h => ⟨reduced_subst hv h.1, reduced_subst hv h.2⟩

theorem reduced_eval : ∀ e : Expr, Reduced (eval betaAdd e)
  | .int _ => trivial
  | .var _ => trivial
  | .add a b => reduced_betaAdd (reduced_eval a) (reduced_eval b)
  | .app x b a => by
    simp only [eval, apply]
    split
    · exact reduced_subst (reduced_eval a) (reduced_eval b)
    · exact ⟨reduced_eval b, reduced_eval a⟩
  | .lets x v b => reduced_subst (reduced_eval v) (reduced_eval b)

theorem closed_int : ∀ {b : Nf}, b.Free [] → Reduced b → ∀ {ρ : Nat → Int} {n : Int}, b.den ρ = some n → b = .int n
  | .int _, _, _, _, _, h => by simpa [Nf.den] using h
  | .var _, h, _, _, _, _ => nomatch h
  | .app _ _, _, _, _, _, h => nomatch h
  | .add a b, hf, hr, ρ, n, h => by
    simp only [Nf.den] at h
    split at h
    · rename_i p q h1 h2
      exact absurd ⟨⟨p, closed_int hf.1 hr.1 h1⟩, ⟨q, closed_int hf.2 hr.2.1 h2⟩⟩ hr.2.2
    · cases h

/-- **C92.** An expression without free variables, in which the body of each lambda has its variable when it is evaluated, evaluates to
the integer that it means. -/
theorem C92_value_partial (e : Expr) (ρ : Nat → Int) (hf : e.Free []) (hu : Used betaAdd e) : eval betaAdd e = .int (den ρ e) :=
  closed_int (C92_free e [] hf) (reduced_eval e) (C92_complete_partial betaAdd_plus e ρ hu)

/-- **C92, fails.** A constant function cannot be applied: `eta_lam` replaces it by its body, and what is left is the application of an
integer. -/
theorem C92_constant_fails (plus : Nf → Nf → Nf) (x : Nat) (n m : Int) (ρ : Nat → Int) :
    eval plus (.app x (.int n) (.int m)) = .app (.int n) (.int m) ∧ den ρ (.app x (.int n) (.int m)) = n := ⟨rfl, rfl⟩

/-- **C92, fails.** The same for a function whose variable is dropped in the evaluation of its body. -/
theorem C92_dropped_fails (plus : Nf → Nf → Nf) (x y : Nat) (n m : Int) (ρ : Nat → Int) :
    eval plus (.app x (.lets y (.var x) (.int n)) (.int m)) = .app (.int n) (.int m) ∧
    den ρ (.app x (.lets y (.var x) (.int n)) (.int m)) = n := ⟨rfl, rfl⟩

/-! ## Examples -/

/-- The example at the end of the file, uncurried: `(λx. (λy. x + y) 2) 1`. -/
example : eval betaAdd (.app 0 (.app 1 (.add (.var 0) (.var 1)) (.int 2)) (.int 1)) = .int 3 := rfl

/-- It meets the conditions. -/
example : Used betaAdd (.app 0 (.app 1 (.add (.var 0) (.var 1)) (.int 2)) (.int 1)) ∧
    (Expr.app 0 (.app 1 (.add (.var 0) (.var 1)) (.int 2)) (.int 1)).Free [] := by
  simp [Used, Expr.Free, eval, apply, Nf.uses, betaAdd, subst]

/-- A variable bound twice: the inner one counts. -/
example : eval betaAdd (.lets 0 (.int 1) (.add (.lets 0 (.int 2) (.var 0)) (.var 0))) = .int 3 := rfl

/-- No capture: `Let(y, x(), Let(x, 3, x() + y()))` with `x` free. -/
example : eval betaAdd (.lets 1 (.var 0) (.lets 0 (.int 3) (.add (.var 0) (.var 1)))) = .add (.int 3) (.var 0) := rfl

/-- A value that is dropped, though it is stuck. -/
example : eval betaAdd (.lets 0 (.app 1 (.int 5) (.int 3)) (.int 7)) = .int 7 := rfl

end Verif.Examples.Lambda
