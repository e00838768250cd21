import Verif.Runtime.Refine

/-!
# Rewriting interpretations anywhere in a program

`ProgC` relates two programs that differ by the laws of `coproduct` and `handler`, applied at
any depth (also inside handler bodies and continuations).  `congr_sim` shows that related
programs have the same outcomes and effects.
-/

namespace Verif.Runtime

variable {W : Type}

/-- The program that returns or raises a given outcome. -/
def Prog.ofOut : Out → Prog W
  | .ok v => .ret v
  | .error e => .raise e

mutual

/-- Related functions. `saved`: the function will only be run with its arguments recorded.
`nn`: only functions with parameters are used. -/
inductive FnC (nn : Prop) : Bool → Fn W → Fn W → Prop where
  | mk {n b b'} : (nn → n = false) → (∀ args, ProgW nn none (b args) (b' args)) →
      FnC nn false (.mk n b) (.mk n b')
  | mkSaved {b b'} : (∀ args, ProgW nn (some args) (b args) (b' args)) →
      FnC nn true (.mk false b) (.mk false b')
  | weaken {f f'} : FnC nn false f f' → FnC nn true f f'

/-- Related interpretations. The flag is `true` if they must also agree on which
functions record their arguments. -/
inductive IC (nn : Prop) : Bool → IExpr W → IExpr W → Prop where
  | nil {s} : IC nn s .nil .nil
  | bind {s i i' o f f'} : IC nn s i i' → FnC nn (!s) f f' → IC nn s (.bind i o f) (.bind i' o f')
  | coprod {s a a' b b'} : IC nn s a a' → IC nn s b b' → IC nn s (.coprod a b) (.coprod a' b')
  | assoc {s a a' b b' c c'} : IC nn s a a' → IC nn s b b' → IC nn s c c' →
      IC nn s (.coprod (.coprod a b) c) (.coprod a' (.coprod b' c'))
  | assoc' {s a a' b b' c c'} : IC nn s a a' → IC nn s b b' → IC nn s c c' →
      IC nn s (.coprod a (.coprod b c)) (.coprod (.coprod a' b') c')
  | unitL {i i'} : IC nn false i i' → IC nn false (.coprod .nil i) i'
  | unitL' {i i'} : IC nn false i i' → IC nn false i (.coprod .nil i')
  | unitR {s i i'} : IC nn s i i' → IC nn s (.coprod i .nil) i'
  | unitR' {s i i'} : IC nn s i i' → IC nn s i (.coprod i' .nil)

/-- Related programs. `a` is what is known about the current arguments. -/
inductive ProgC (nn : Prop) : Option (List Val) → Prog W → Prog W → Prop where
  | ret {a v} : ProgC nn a (.ret v) (.ret v)
  | raise {a e} : ProgC nn a (.raise e) (.raise e)
  | eff {a f k k'} : (∀ v, ProgW nn a (k v) (k' v)) → ProgC nn a (.eff f k) (.eff f k')
  | call {a o args k k'} : (∀ v, ProgW nn a (k v) (k' v)) →
      ProgC nn a (.call o args k) (.call o args k')
  | fwd {a args k k'} : (∀ v, ProgW nn a (k v) (k' v)) →
      ProgC nn a (.fwd args k) (.fwd args k')
  | fwdGive {x k k'} : nn → (∀ v, ProgW nn (some x) (k v) (k' v)) →
      ProgC nn (some x) (.fwd [] k) (.fwd x k')
  | fwdGive' {x k k'} : nn → (∀ v, ProgW nn (some x) (k v) (k' v)) →
      ProgC nn (some x) (.fwd x k) (.fwd [] k')
  | handle {a i i' p p' k k'} : IC nn false i i' → ProgW nn a p p' →
      (∀ v, ProgW nn a (k v) (k' v)) → ProgC nn a (.handle i p k) (.handle i' p' k')
  | interp {a i i' p p' k k'} : IC nn true i i' → ProgW nn none p p' →
      (∀ v, ProgW nn a (k v) (k' v)) → ProgC nn a (.interp i p k) (.interp i' p' k')
  | nest {a x x' y y' p p' k k'} : IC nn false x x' → IC nn false y y' → ProgW nn a p p' →
      (∀ v, ProgW nn a (k v) (k' v)) →
      ProgC nn a (.handle x (.handle y p .ofOut) k) (.handle (.coprod x' y') p' k')
  | nest' {a x x' y y' p p' k k'} : IC nn false x x' → IC nn false y y' → ProgW nn a p p' →
      (∀ v, ProgW nn a (k v) (k' v)) →
      ProgC nn a (.handle (.coprod x y) p k) (.handle x' (.handle y' p' .ofOut) k')
  | unit {a p p'} : ProgW nn a p p' → ProgC nn a (.handle .nil p .ofOut) p'

/-- Related programs, up to useless blocks on the right. -/
inductive ProgW (nn : Prop) : Option (List Val) → Prog W → Prog W → Prop where
  | base {a p p'} : ProgC nn a p p' → ProgW nn a p p'
  | unit' {a p p'} : ProgW nn a p p' → ProgW nn a p (.handle .nil p' .ofOut)

end

/-! ## Symmetry -/

mutual
theorem FnC.symm {nn : Prop} {s : Bool} {f f' : Fn W} : FnC nn s f f' → FnC nn s f' f
  | .mk h1 h2 => .mk h1 (fun args => (h2 args).symm)
  | .mkSaved h => .mkSaved (fun args => (h args).symm)
  | .weaken h => .weaken h.symm
theorem IC.symm {nn : Prop} {s : Bool} {i i' : IExpr W} : IC nn s i i' → IC nn s i' i
  | .nil => .nil
  | .bind h1 h2 => .bind h1.symm h2.symm
  | .coprod h1 h2 => .coprod h1.symm h2.symm
  | .assoc h1 h2 h3 => .assoc' h1.symm h2.symm h3.symm
  | .assoc' h1 h2 h3 => .assoc h1.symm h2.symm h3.symm
  | .unitL h => .unitL' h.symm
  | .unitL' h => .unitL h.symm
  | .unitR h => .unitR' h.symm
  | .unitR' h => .unitR h.symm
theorem ProgC.symm {nn : Prop} {a : Option (List Val)} {p p' : Prog W} :
    ProgC nn a p p' → ProgW nn a p' p
  | .ret => .base .ret
  | .raise => .base .raise
  | .eff h => .base (.eff (fun v => (h v).symm))
  | .call h => .base (.call (fun v => (h v).symm))
  | .fwd h => .base (.fwd (fun v => (h v).symm))
  | .fwdGive hn h => .base (.fwdGive' hn (fun v => (h v).symm))
  | .fwdGive' hn h => .base (.fwdGive hn (fun v => (h v).symm))
  | .handle h1 h2 h => .base (.handle h1.symm h2.symm (fun v => (h v).symm))
  | .interp h1 h2 h => .base (.interp h1.symm h2.symm (fun v => (h v).symm))
  | .nest h1 h2 h3 h => .base (.nest' h1.symm h2.symm h3.symm (fun v => (h v).symm))
  | .nest' h1 h2 h3 h => .base (.nest h1.symm h2.symm h3.symm (fun v => (h v).symm))
  | .unit h => .unit' h.symm
theorem ProgW.symm {nn : Prop} {a : Option (List Val)} {p p' : Prog W} :
    ProgW nn a p p' → ProgW nn a p' p
  | .base h => h.symm
  | .unit' h => .base (.unit h.symm)
end

/-! ## Reflexivity -/

mutual
/-- All handler functions in it have parameters. -/
inductive Fn.NoNullary : Fn W → Prop where
  | mk {b} : (∀ args, (b args).NoNullary) → Fn.NoNullary (.mk false b)
/-- All handler functions in it have parameters. -/
inductive IExpr.NoNullary : IExpr W → Prop where
  | nil : IExpr.NoNullary .nil
  | bind {i o f} : i.NoNullary → f.NoNullary → IExpr.NoNullary (.bind i o f)
  | coprod {a b} : a.NoNullary → b.NoNullary → IExpr.NoNullary (.coprod a b)
/-- All handler functions in it have parameters. -/
inductive Prog.NoNullary : Prog W → Prop where
  | ret {v} : Prog.NoNullary (.ret v)
  | raise {e} : Prog.NoNullary (.raise e)
  | eff {f k} : (∀ v, (k v).NoNullary) → Prog.NoNullary (.eff f k)
  | call {o args k} : (∀ v, (k v).NoNullary) → Prog.NoNullary (.call o args k)
  | fwd {args k} : (∀ v, (k v).NoNullary) → Prog.NoNullary (.fwd args k)
  | handle {i p k} : i.NoNullary → p.NoNullary → (∀ v, (k v).NoNullary) →
      Prog.NoNullary (.handle i p k)
  | interp {i p k} : i.NoNullary → p.NoNullary → (∀ v, (k v).NoNullary) →
      Prog.NoNullary (.interp i p k)
end

mutual
theorem Fn.rfl {nn : Prop} : (f : Fn W) → (nn → f.NoNullary) → FnC nn false f f
  | .mk _ b, h => .mk (fun x => by cases h x; rfl)
      (fun args => Prog.rfl (b args) (fun x => by cases h x with | mk h => exact h args))
theorem IExpr.rfl {nn : Prop} : (i : IExpr W) → (nn → i.NoNullary) → IC nn true i i
  | .nil, _ => .nil
  | .bind i _ f, h => .bind (IExpr.rfl i (fun x => by cases h x; assumption))
      (Fn.rfl f (fun x => by cases h x; assumption))
  | .coprod a b, h => .coprod (IExpr.rfl a (fun x => by cases h x; assumption))
      (IExpr.rfl b (fun x => by cases h x; assumption))
theorem IExpr.rfl' {nn : Prop} : (i : IExpr W) → (nn → i.NoNullary) → IC nn false i i
  | .nil, _ => .nil
  | .bind i _ f, h => .bind (IExpr.rfl' i (fun x => by cases h x; assumption))
      (.weaken (Fn.rfl f (fun x => by cases h x; assumption)))
  | .coprod a b, h => .coprod (IExpr.rfl' a (fun x => by cases h x; assumption))
      (IExpr.rfl' b (fun x => by cases h x; assumption))
theorem Prog.rfl {nn : Prop} {a : Option (List Val)} : (p : Prog W) → (nn → p.NoNullary) →
    ProgW nn a p p
  | .ret _, _ => .base .ret
  | .raise _, _ => .base .raise
  | .eff _ k, h => .base (.eff (fun v => Prog.rfl (k v)
      (fun x => by cases h x with | eff h => exact h v)))
  | .call _ _ k, h => .base (.call (fun v => Prog.rfl (k v)
      (fun x => by cases h x with | call h => exact h v)))
  | .fwd _ k, h => .base (.fwd (fun v => Prog.rfl (k v)
      (fun x => by cases h x with | fwd h => exact h v)))
  | .handle i p k, h => .base (.handle
      (IExpr.rfl' i (fun x => by cases h x with | handle h1 h2 h3 => exact h1))
      (Prog.rfl p (fun x => by cases h x with | handle h1 h2 h3 => exact h2))
      (fun v => Prog.rfl (k v) (fun x => by cases h x with | handle h1 h2 h3 => exact h3 v)))
  | .interp i p k, h => .base (.interp
      (IExpr.rfl i (fun x => by cases h x with | interp h1 h2 h3 => exact h1))
      (Prog.rfl p (fun x => by cases h x with | interp h1 h2 h3 => exact h2))
      (fun v => Prog.rfl (k v) (fun x => by cases h x with | interp h1 h2 h3 => exact h3 v)))
end

/-! ## Stacks of related interpretations -/

/-- Lists related element by element. -/
inductive All2 {α β : Type} (R : α → β → Prop) : List α → List β → Prop where
  | nil : All2 R [] []
  | cons {a b l m} : R a b → All2 R l m → All2 R (a :: l) (b :: m)

theorem All2.append {α β : Type} {R : α → β → Prop} {a : List α} {b : List β} {c : List α}
    {d : List β} (h : All2 R a b) (h' : All2 R c d) : All2 R (a ++ c) (b ++ d) := by
  induction h with
  | nil => exact h'
  | cons h1 _ ih => exact .cons h1 ih

inductive EC (nn : Prop) (s : Bool) : Option (Entry W) → Option (Entry W) → Prop where
  | none : EC nn s none none
  | some {e e'} : (s = true → e.raw = e'.raw) → FnC nn (!s) e.top e'.top →
      All2 (FnC nn true) e.rest e'.rest → EC nn s (some e) (some e')

theorem FnC.up {nn : Prop} {s : Bool} {f f' : Fn W} (h : FnC nn s f f') : FnC nn true f f' := by
  cases s with
  | true => exact h
  | false => exact .weaken h

theorem EC.over {nn : Prop} {s : Bool} {a a' b b' : Option (Entry W)} (h : EC nn s a a')
    (h' : EC nn s b b') : EC nn s (stackOver a b) (stackOver a' b') := by
  cases h' with
  | none => exact h
  | some h1 h2 h3 =>
    cases h with
    | none => exact .some (fun _ => rfl) h2 h3
    | some g1 g2 g3 => exact .some (fun _ => rfl) h2 (h3.append (.cons g2.up g3))

theorem stackOver_assoc (a b c : Option (Entry W)) :
    stackOver (stackOver a b) c = stackOver a (stackOver b c) := by
  cases a <;> cases b <;> cases c <;> simp [stackOver]

theorem IC.stacks {nn : Prop} {s : Bool} {i i' : IExpr W} (h : IC nn s i i') :
    ∀ u, EC nn s (i.stacks u) (i'.stacks u) := by
  induction h using IC.rec (motive_1 := fun _ _ _ _ => True) (motive_3 := fun _ _ _ _ => True)
    (motive_4 := fun _ _ _ _ => True) with
  | nil => intro u; exact .none
  | @bind s i i' o f f' _ hf ih _ =>
    intro u
    simp only [IExpr.stacks]
    by_cases h : o = u
    · simp only [h, if_true]; exact .some (fun _ => Eq.refl _) hf .nil
    · simp only [h, if_false]; exact ih u
  | coprod _ _ iha ihb => intro u; exact (iha u).over (ihb u)
  | assoc _ _ _ iha ihb ihc =>
    intro u
    simp only [IExpr.stacks]
    rw [← stackOver_assoc]
    exact ((iha u).over (ihb u)).over (ihc u)
  | assoc' _ _ _ iha ihb ihc =>
    intro u
    simp only [IExpr.stacks]
    rw [← stackOver_assoc]
    exact ((iha u).over (ihb u)).over (ihc u)
  | unitL _ ih =>
    intro u
    have := ih u
    simp only [IExpr.stacks]
    revert this
    generalize IExpr.stacks _ u = e
    generalize IExpr.stacks _ u = e'
    intro this
    cases this with
    | none => exact .none
    | some h1 h2 h3 => exact .some (fun h => by cases h) h2 h3
  | unitL' _ ih =>
    intro u
    have := ih u
    simp only [IExpr.stacks]
    revert this
    generalize IExpr.stacks _ u = e
    generalize IExpr.stacks _ u = e'
    intro this
    cases this with
    | none => exact .none
    | some h1 h2 h3 => exact .some (fun h => by cases h) h2 h3
  | unitR _ ih => intro u; exact ih u
  | unitR' _ ih => intro u; exact ih u
  | _ => trivial

/-! ## Related contexts -/

/-- Related handlers of an operation in a context. -/
inductive EN (nn : Prop) : Option (Entry W) → Option (Entry W) → Prop where
  | none : EN nn none none
  | some {e e'} : e.raw = e'.raw → FnC nn (!e.raw) e.top e'.top →
      All2 (FnC nn true) e.rest e'.rest → EN nn (some e) (some e')

inductive KN (nn : Prop) : Option (Kont W) → Option (Kont W) → Prop where
  | none : KN nn none none
  | some {o r r'} : All2 (FnC nn true) r r' → KN nn (some ⟨o, r⟩) (some ⟨o, r'⟩)

structure CtxC (nn : Prop) (Γ Γ' : Ctx W) : Prop where
  env : ∀ u, EN nn (Γ.env u) (Γ'.env u)
  kont : KN nn Γ.kont Γ'.kont
  args : Γ.args = Γ'.args
  inside : Γ'.args ≠ none → Γ'.kont ≠ none

theorem EC.toEN {nn : Prop} {a a' : Option (Entry W)} (h : EC nn true a a') : EN nn a a' := by
  cases h with
  | none => exact .none
  | @some e e' h1 h2 h3 =>
    refine .some (h1 rfl) ?_ h3
    cases e.raw with
    | true => exact h2
    | false => exact h2.up

theorem EN.over {nn : Prop} {a a' b b' : Option (Entry W)} (h : EN nn a a')
    (h' : EC nn false b b') : EN nn (stackOver a b) (stackOver a' b') := by
  cases h' with
  | none => exact h
  | some h1 h2 h3 =>
    cases h with
    | none => exact .some rfl h2 h3
    | some g1 g2 g3 => exact .some rfl h2 (h3.append (.cons g2.up g3))

theorem CtxC.handle {nn : Prop} {Γ Γ' : Ctx W} {i i' : IExpr W} (h : CtxC nn Γ Γ')
    (hi : IC nn false i i') :
    CtxC nn { Γ with env := fun u => stackOver (Γ.env u) (i.stacks u) }
      { Γ' with env := fun u => stackOver (Γ'.env u) (i'.stacks u) } :=
  ⟨fun u => (h.env u).over (hi.stacks u), h.kont, h.args, h.inside⟩

theorem CtxC.interp {nn : Prop} {i i' : IExpr W} (hi : IC nn true i i') :
    CtxC nn ⟨i.stacks, none, none⟩ ⟨i'.stacks, none, none⟩ :=
  ⟨fun u => (hi.stacks u).toEN, .none, rfl, fun h => absurd rfl h⟩

/-- Related tasks. -/
inductive TaskC (nn : Prop) (Γ : Ctx W) : STask W → STask W → Prop where
  | prog {a p p'} : (∀ x, a = some x → Γ.args = some x) → ProgW nn a p p' →
      TaskC nn Γ (.prog p) (.prog p')
  | call {u args} : TaskC nn Γ (.call u args) (.call u args)
  | fwd {args} : TaskC nn Γ (.fwd args) (.fwd args)
  | unhandled {o args} : TaskC nn Γ (.unhandled o args) (.unhandled o args)
  | enter {o sv f f' rest rest' args} : FnC nn sv f f' → All2 (FnC nn true) rest rest' →
      TaskC nn Γ (.enter o sv f rest args) (.enter o sv f' rest' args)
  | implicit {args} : TaskC nn Γ (.implicit args) (.implicit args)
  | dflt {o args} : TaskC nn Γ (.dflt o args) (.dflt o args)
  | dfltRaw {o args} : TaskC nn Γ (.dfltRaw o args) (.dfltRaw o args)

theorem FnC.nullary {nn : Prop} {s : Bool} {f f' : Fn W} (h : FnC nn s f f') :
    f.nullary = f'.nullary := by
  cases h with
  | mk => rfl
  | mkSaved => rfl
  | weaken h => cases h; rfl

theorem FnC.hasParams {nn : Prop} {s : Bool} {f f' : Fn W} (hn : nn) (h : FnC nn s f f') :
    f'.nullary = false := by
  cases h with
  | mk h => exact h hn
  | mkSaved => rfl
  | weaken h => cases h with
    | mk h => exact h hn

theorem FnC.body {nn : Prop} {s : Bool} {f f' : Fn W} (h : FnC nn s f f') (args : List Val) :
    ∃ a, (∀ x, a = some x → s = true ∧ f.nullary = false ∧ x = args) ∧
      ProgW nn a (f.body args) (f'.body args) := by
  cases h with
  | mk _ h => exact ⟨none, fun x e => (by cases e), h args⟩
  | mkSaved h => exact ⟨some args, fun x e => (by cases e; exact ⟨rfl, rfl, rfl⟩), h args⟩
  | weaken h => cases h with
    | mk _ h => exact ⟨none, fun x e => (by cases e), h args⟩

/-- A useless block does not matter. -/
theorem SRun.unit {Δ : Defaults W} {Γ : Ctx W} {p : Prog W} {w : W} {r : Out} {w' : W}
    (h : SRun Δ Γ (.prog p) w r w') : SRun Δ Γ (.prog (.handle .nil p .ofOut)) w r w' := by
  refine SRun.handle (r := r) (w' := w') h ?_
  cases r with
  | ok v => exact .ret
  | error e => exact .raise

theorem SRun.ofOut {Δ : Defaults W} {Γ : Ctx W} {w : W} {r r' : Out} {w' : W}
    (h : SRun Δ Γ (.prog (.ofOut r)) w r' w') : r' = r ∧ w' = w := by
  cases r with
  | ok v => cases h; exact ⟨rfl, rfl⟩
  | error e => cases h; exact ⟨rfl, rfl⟩

theorem SRun.ofOut_run {Δ : Defaults W} {Γ : Ctx W} (r : Out) (w : W) :
    SRun Δ Γ (.prog (.ofOut r)) w r w := by
  cases r with
  | ok v => exact .ret
  | error e => exact .raise

theorem ProgW.elim {Δ : Defaults W} {nn : Prop} {a : Option (List Val)} {p q : Prog W}
    (h : ProgW nn a p q) {Γ : Ctx W} {w : W} {r : Out} {w' : W}
    (H : ∀ q, ProgC nn a p q → SRun Δ Γ (.prog q) w r w') : SRun Δ Γ (.prog q) w r w' := by
  induction h using ProgW.rec (motive_1 := fun _ _ _ _ => True)
    (motive_2 := fun _ _ _ _ => True) (motive_3 := fun _ _ _ _ => True) with
  | base h => exact H _ h
  | unit' _ ih => exact (ih H).unit
  | _ => trivial

/-- `fwd()` and `fwd(*args)` with the current arguments agree if the next handler has
parameters. -/
theorem SRun.fwd_give {Δ : Defaults W} {Γ : Ctx W} {x : List Val} {w : W} {r : Out} {w' : W}
    (ha : Γ.args = some x) (hn : ∀ o f rest, Γ.kont = some ⟨o, f :: rest⟩ → f.nullary = false)
    (hk : Γ.kont ≠ none) :
    SRun Δ Γ (.fwd []) w r w' ↔ SRun Δ Γ (.fwd x) w r w' := by
  by_cases hx : x = []
  · subst hx; exact Iff.rfl
  constructor
  · intro h
    cases h with
    | fwdNullary h1 h2 _ => rw [hn _ _ _ h1] at h2; cases h2
    | fwdNext h1 h2 h3 h4 =>
      cases h3 with
      | implGiven h => exact absurd rfl h
      | implCurrent h => rw [ha] at h; cases h; exact .fwdNext h1 h2 (.implGiven hx) h4
      | implNone h => rw [ha] at h; cases h
      | implAsked h => rw [ha] at h; cases h
    | fwdEnd h1 h2 h3 =>
      cases h2 with
      | implGiven h => exact absurd rfl h
      | implCurrent h => rw [ha] at h; cases h; exact .fwdEnd h1 (.implGiven hx) h3
      | implNone h => rw [ha] at h; cases h
      | implAsked h => rw [ha] at h; cases h
    | fwdFail _ _ h => cases h with | implAsked h => rw [ha] at h; cases h
    | fwdBad _ _ h hv =>
      cases h with
      | implGiven h => exact absurd rfl h
      | implCurrent h => exact absurd rfl (hv _)
      | implNone h => exact absurd rfl (hv _)
      | implAsked h => rw [ha] at h; cases h
    | fwdFree h => exact absurd h hk
  · intro h
    cases h with
    | fwdNullary h1 h2 _ => rw [hn _ _ _ h1] at h2; cases h2
    | fwdNext h1 h2 h3 h4 =>
      cases h3 with
      | implGiven h => exact .fwdNext h1 h2 (.implCurrent ha) h4
      | implCurrent h => exact absurd rfl hx
      | implNone h => exact absurd rfl hx
      | implAsked h => exact absurd rfl hx
    | fwdEnd h1 h2 h3 =>
      cases h2 with
      | implGiven h => exact .fwdEnd h1 (.implCurrent ha) h3
      | implCurrent h => exact absurd rfl hx
      | implNone h => exact absurd rfl hx
      | implAsked h => exact absurd rfl hx
    | fwdFail _ _ h => cases h with | implAsked h => exact absurd rfl hx
    | fwdBad _ _ h hv =>
      cases h with
      | implGiven h => exact absurd rfl (hv _)
      | implCurrent h => exact absurd rfl hx
      | implNone h => exact absurd rfl hx
      | implAsked h => exact absurd rfl hx
    | fwdFree h => exact absurd h hk

theorem CtxC.setKont {nn : Prop} {Γ Γ' : Ctx W} (h : CtxC nn Γ Γ') {o : Op}
    {r r' : List (Fn W)} (hr : All2 (FnC nn true) r r') (a : Option (List Val)) :
    CtxC nn { Γ with kont := some ⟨o, r⟩, args := a }
      { Γ' with kont := some ⟨o, r'⟩, args := a } :=
  ⟨h.env, .some hr, rfl, fun _ e => by cases e⟩

theorem CtxC.noEnv {nn : Prop} {Γ Γ' : Ctx W} (h : CtxC nn Γ Γ') {u : UOp}
    (he : Γ.env u = none) : Γ'.env u = none := by
  have := h.env u
  rw [he] at this
  cases h' : Γ'.env u with
  | none => rfl
  | some e => rw [h'] at this; cases this

theorem CtxC.someEnv {nn : Prop} {Γ Γ' : Ctx W} (h : CtxC nn Γ Γ') {u : UOp} {e : Entry W}
    (he : Γ.env u = some e) : ∃ e', Γ'.env u = some e' ∧ e.raw = e'.raw ∧
      FnC nn (!e.raw) e.top e'.top ∧ All2 (FnC nn true) e.rest e'.rest := by
  have := h.env u
  rw [he] at this
  cases h' : Γ'.env u with
  | none => rw [h'] at this; cases this
  | some e' =>
    rw [h'] at this
    cases this with
    | some h1 h2 h3 => exact ⟨e', rfl, h1, h2, h3⟩

theorem CtxC.someKont {nn : Prop} {Γ Γ' : Ctx W} (h : CtxC nn Γ Γ') {k : Kont W}
    (he : Γ.kont = some k) : ∃ r', Γ'.kont = some ⟨k.op, r'⟩ ∧
      All2 (FnC nn true) k.rest r' := by
  have := h.kont
  rw [he] at this
  generalize hk : Γ'.kont = k' at this
  cases this with
  | some h1 => exact ⟨_, rfl, h1⟩

theorem CtxC.params {nn : Prop} {Γ Γ' : Ctx W} (h : CtxC nn Γ Γ') (hn : nn) {o : Op}
    {f : Fn W} {rest : List (Fn W)} (hk : Γ'.kont = some ⟨o, f :: rest⟩) :
    f.nullary = false := by
  have := h.kont
  rw [hk] at this
  generalize Γ.kont = y at this
  cases this with
  | some h => cases h with | cons h _ => exact h.hasParams hn

/-- Related programs have the same behaviour. -/
theorem congr_sim {Δ : Defaults W} {nn : Prop} (hΔ : ∀ c m args, nn → (Δ c m args).NoNullary)
    {Γ : Ctx W} {T : STask W} {w : W} {r : Out} {w' : W} (h : SRun Δ Γ T w r w') :
    ∀ {Γ' T'}, CtxC nn Γ Γ' → TaskC nn Γ T T' → SRun Δ Γ' T' w r w' := by
  induction h with
  | ret =>
    intro Γ' T' hΓ hT
    cases hT with | prog ha hp => refine hp.elim ?_; intro q hq; cases hq; exact .ret
  | raise =>
    intro Γ' T' hΓ hT
    cases hT with | prog ha hp => refine hp.elim ?_; intro q hq; cases hq; exact .raise
  | eff _ ih =>
    intro Γ' T' hΓ hT
    cases hT with
    | prog ha hp =>
      refine hp.elim ?_; intro q hq
      cases hq with
      | eff hk => exact .eff (ih hΓ (.prog ha (hk _)))
  | call _ _ ih1 ih2 =>
    intro Γ' T' hΓ hT
    cases hT with
    | prog ha hp =>
      refine hp.elim ?_; intro q hq
      cases hq with
      | call hk => exact .call (ih1 hΓ .call) (ih2 hΓ (.prog ha (hk _)))
  | fwd _ _ ih1 ih2 =>
    intro Γ' T' hΓ hT
    cases hT with
    | prog ha hp =>
      refine hp.elim ?_; intro q hq
      cases hq with
      | fwd hk => exact .fwd (ih1 hΓ .fwd) (ih2 hΓ (.prog ha (hk _)))
      | fwdGive hn hk =>
        have ha' := ha _ rfl
        rw [hΓ.args] at ha'
        refine .fwd ((SRun.fwd_give ha' ?_ (hΓ.inside (by rw [ha']; simp))).mp (ih1 hΓ .fwd))
          (ih2 hΓ (.prog ha (hk _)))
        exact fun o f rest hkk => hΓ.params hn hkk
      | fwdGive' hn hk =>
        have ha' := ha _ rfl
        rw [hΓ.args] at ha'
        refine .fwd ((SRun.fwd_give ha' ?_ (hΓ.inside (by rw [ha']; simp))).mpr (ih1 hΓ .fwd))
          (ih2 hΓ (.prog ha (hk _)))
        exact fun o f rest hkk => hΓ.params hn hkk
  | @handle Γ i p k w r w' r' w'' h1 h2 ih1 ih2 =>
    intro Γ' T' hΓ hT
    cases hT with
    | prog ha hp =>
      refine hp.elim ?_; intro q hq
      cases hq with
      | handle hi hp hk =>
        exact .handle (ih1 (hΓ.handle hi) (.prog ha hp)) (ih2 hΓ (.prog ha (hk _)))
      | nest hx hy hpp hk =>
        have q := ih1 (T' := .prog (.handle _ _ .ofOut)) (hΓ.handle hx)
          (.prog ha (.base (.handle hy hpp (fun v => by
            cases v with
            | ok v => exact .base .ret
            | error e => exact .base .raise))))
        cases q with
        | handle q1 q2 =>
          obtain ⟨rfl, rfl⟩ := SRun.ofOut q2
          refine .handle ?_ (ih2 hΓ (.prog ha (hk _)))
          simp only [IExpr.stacks, ← stackOver_assoc]
          exact q1
      | nest' hx hy hpp hk =>
        have q := ih1 (hΓ.handle (.coprod hx hy)) (.prog ha hpp)
        simp only [IExpr.stacks, ← stackOver_assoc] at q
        exact .handle (.handle q (SRun.ofOut_run _ _)) (ih2 hΓ (.prog ha (hk _)))
      | unit hp =>
        obtain ⟨rfl, rfl⟩ := SRun.ofOut h2
        have q := ih1 (Γ' := Γ') hΓ (.prog ha hp)
        exact q
  | interp _ _ ih1 ih2 =>
    intro Γ' T' hΓ hT
    cases hT with
    | prog ha hp =>
      refine hp.elim ?_; intro q hq
      cases hq with
      | interp hi hp hk =>
        exact .interp (ih1 (CtxC.interp hi) (.prog (fun x e => by cases e) hp))
          (ih2 hΓ (.prog ha (hk _)))
  | handled he _ ih =>
    intro Γ' T' hΓ hT
    cases hT with
    | call =>
      obtain ⟨e', he', hr, ht, hrest⟩ := hΓ.someEnv he
      refine .handled he' ?_
      rw [← hr]
      exact ih hΓ (.enter ht hrest)
  | free he _ ih =>
    intro Γ' T' hΓ hT
    cases hT with
    | call => exact .free (hΓ.noEnv he) (ih hΓ .unhandled)
  | @enter Γ o sv f rest args w r w' hn _ ih =>
    intro Γ' T' hΓ hT
    cases hT with
    | @enter _ _ _ f' _ rest' _ hf hr =>
      refine .enter (fun e => hn (by rw [hf.nullary]; exact e)) ?_
      rw [← hf.nullary, ← hΓ.args]
      obtain ⟨a, ha, hp⟩ := hf.body args
      refine ih (hΓ.setKont hr _) (.prog ?_ hp)
      intro x e
      obtain ⟨h1, h2, h3⟩ := ha x e
      simp [h1, h2, h3]
  | enterBad hn hne =>
    intro Γ' T' hΓ hT
    cases hT with
    | enter hf hr => exact .enterBad (by rw [← hf.nullary]; exact hn) hne
  | implGiven h => intro Γ' T' hΓ hT; cases hT; exact .implGiven h
  | implCurrent h => intro Γ' T' hΓ hT; cases hT; exact .implCurrent (hΓ.args ▸ h)
  | implNone h h2 => intro Γ' T' hΓ hT; cases hT; exact .implNone (hΓ.args ▸ h) (hΓ.noEnv h2)
  | implAsked h he _ ih =>
    intro Γ' T' hΓ hT
    cases hT
    obtain ⟨e', he', hr, ht, hrest⟩ := hΓ.someEnv he
    refine .implAsked (hΓ.args ▸ h) he' ?_
    rw [← hr]
    exact ih hΓ (.enter ht hrest)
  | fwdNullary hk hf _ ih =>
    intro Γ' T' hΓ hT
    cases hT
    obtain ⟨r', hk', hr⟩ := hΓ.someKont hk
    cases hr with
    | cons h1 h2 => exact .fwdNullary hk' (h1.nullary ▸ hf) (ih hΓ (.enter h1 h2))
  | fwdNext hk hf _ _ ih1 ih2 =>
    intro Γ' T' hΓ hT
    cases hT
    obtain ⟨r', hk', hr⟩ := hΓ.someKont hk
    cases hr with
    | cons h1 h2 =>
      exact .fwdNext hk' (h1.nullary ▸ hf) (ih1 hΓ .implicit) (ih2 hΓ (.enter h1 h2))
  | @fwdEnd Γ args o a w w' r w'' hk _ _ ih1 ih2 =>
    intro Γ' T' hΓ hT
    cases hT
    obtain ⟨r', hk', hr⟩ := hΓ.someKont hk
    cases hr with
    | nil =>
      refine .fwdEnd hk' (ih1 hΓ .implicit) (ih2 ?_ .dflt)
      exact ⟨hΓ.env, .some .nil, hΓ.args, fun _ e => by cases e⟩
  | fwdFail hk hn _ ih =>
    intro Γ' T' hΓ hT
    cases hT
    obtain ⟨r', hk', hr⟩ := hΓ.someKont hk
    refine .fwdFail hk' ?_ (ih hΓ .implicit)
    intro f rest e
    simp at e; subst e
    generalize hkr : Kont.rest _ = kr at hr
    cases hr with
    | cons h1 _ => rw [← h1.nullary]; exact hn _ _ hkr
  | fwdBad hk hn _ hv ih =>
    intro Γ' T' hΓ hT
    cases hT
    obtain ⟨r', hk', hr⟩ := hΓ.someKont hk
    refine .fwdBad hk' ?_ (ih hΓ .implicit) hv
    intro f rest e
    simp at e; subst e
    generalize hkr : Kont.rest _ = kr at hr
    cases hr with
    | cons h1 _ => rw [← h1.nullary]; exact hn _ _ hkr
  | fwdFree hk _ ih =>
    intro Γ' T' hΓ hT
    cases hT
    refine .fwdFree ?_ (ih hΓ .unhandled)
    have := hΓ.kont
    rw [hk] at this
    cases h' : Γ'.kont with
    | none => rfl
    | some k => rw [h'] at this; cases this
  | unhandled hs _ ih => intro Γ' T' hΓ hT; cases hT; exact .unhandled hs (ih hΓ .call)
  | selfApply hs _ ih => intro Γ' T' hΓ hT; cases hT; exact .selfApply hs (ih hΓ .dfltRaw)
  | dflt _ hr ih => intro Γ' T' hΓ hT; cases hT; exact .dflt (ih hΓ .dfltRaw) hr
  | dfltTerm _ ih => intro Γ' T' hΓ hT; cases hT; exact .dfltTerm (ih hΓ .dfltRaw)
  | rawFwd => intro Γ' T' hΓ hT; cases hT; exact .rawFwd
  | rawGetArgs => intro Γ' T' hΓ hT; cases hT; exact .rawGetArgs
  | rawGetArgsBad h => intro Γ' T' hΓ hT; cases hT; exact .rawGetArgsBad h
  | rawApply _ ih => intro Γ' T' hΓ hT; cases hT; exact .rawApply (ih hΓ .dflt)
  | rawApplyBad h => intro Γ' T' hΓ hT; cases hT; exact .rawApplyBad h
  | rawApplySub _ ih => intro Γ' T' hΓ hT; cases hT; exact .rawApplySub (ih hΓ .call)
  | rawUser _ ih =>
    intro Γ' T' hΓ hT; cases hT
    exact .rawUser (ih hΓ (.prog (a := none) (fun x e => by cases e) (Prog.rfl _ (hΔ _ _ _))))

end Verif.Runtime
