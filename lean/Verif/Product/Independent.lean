import Verif.Product.Model

/-!
# C27: a product runs its interpretations independently
-/

namespace Verif.Product

/-! ## Specification -/

/-- The operations whose calls inside component `p` mean the same as under `i_p` alone: those that `i_p`
handles, and those that no component handles, provided that `apply` is handled by `i_p` or by none. -/
def Good (S : Sys) (p : Nat) (o : Op) : Prop :=
  (S.intp p o).isSome ∨
    (S.handled o = false ∧ ((S.intp p .apply).isSome ∨ S.handled .apply = false))

/-- Bodies that call only such operations, do not use `fwd` and do not ask for components. -/
inductive Closed (S : Sys) (p : Nat) : Prog → Prop
  | ret (v) : Closed S p (.ret v)
  | raise (e) : Closed S p (.raise e)
  | tick (i k) : Closed S p k → Closed S p (.tick i k)
  | call (o xs k) : Good S p o → (∀ r, Closed S p (k r)) → Closed S p (.call o xs k)

/-- All bodies that component `p` can run. -/
structure ClosedAt (S : Sys) (p : Nat) : Prop where
  handlers : ∀ o h, S.intp p o = some h → ∀ xs, Closed S p (h xs)
  defaults : ∀ o xs, Closed S p (S.dflt o xs)

/-- The operations that may occur in the evaluated term: handled by some component, or `apply` is;
and if `i_p` has an `apply` handler, then handled by `i_p` or by no component. -/
def OpOK (S : Sys) (p : Nat) (o : Op) : Prop :=
  (S.handled o = true ∨ S.handled .apply = true) ∧
    (S.handled o = true → S.intp p o = none → S.intp p .apply = none)

mutual
/-- No products in the literals. -/
def plain : Val → Bool
  | .prod _ => false
  | .tup xs => plainL xs
  | _ => true
termination_by structural v => v
def plainL : List Val → Bool
  | [] => true
  | x :: xs => plain x && plainL xs
termination_by structural v => v
end

inductive TmOK (S : Sys) (p : Nat) : Tm → Prop
  | lit (v) : plain v = true → TmOK S p (.lit v)
  | tup (ts) : (∀ t ∈ ts, TmOK S p t) → TmOK S p (.tup ts)
  | app (o ts) : OpOK S p o → (∀ t ∈ ts, TmOK S p t) → TmOK S p (.app o ts)

/-! ## Bodies of component `p` -/

theorem handled_of {S : Sys} {p : Nat} {o : Op} (hp : p ∈ S.prompts)
    (h : (S.intp p o).isSome) : S.handled o = true := by
  simp only [Sys.handled, List.any_eq_true]
  exact ⟨p, hp, h⟩

theorem none_of {S : Sys} {p : Nat} {o : Op} (hp : p ∈ S.prompts)
    (h : S.handled o = false) : S.intp p o = none := by
  cases hi : S.intp p o with
  | none => rfl
  | some x => rw [handled_of hp (by rw [hi]; rfl)] at h; cases h

/-- The modes in which `i_p` is in force. -/
def IsMode (S : Sys) (p : Nat) (m : Mode) : Prop := m = .alone (S.intp p) ∨ ∃ r, m = .comp r p

def lift {α : Type} (x : Option (α × List Nat)) (s : St) : Option (α × St) :=
  x.map (fun a => (a.1, { s with log := s.log ++ a.2 }))

/-- `f` behaves the same in all modes in which `i_p` is in force, and only appends to the log. -/
def Uniform (S : Sys) (p : Nat) (f : Mode → St → Out) : Prop :=
  ∃ x, ∀ m, IsMode S p m → ∀ s, f m s = lift x s

def GoodExec (S : Sys) (p : Nat) (E : Exec) : Prop :=
  ∀ b, Closed S p b → ∃ x, ∀ m, IsMode S p m → ∀ fw s, E m fw b s = lift x s

theorem defaultRule_base_uniform {S : Sys} {p : Nat} {E : Exec} (hE : GoodExec S p E)
    (hc : ClosedAt S p) (n : Nat) (xs : List Val) :
    Uniform S p (fun m s => defaultRule S E m (.base n) xs s) := by
  obtain ⟨x, hx⟩ := hE _ (hc.defaults (.base n) xs)
  refine ⟨x.map (fun a => match a.1 with
    | .error .notHandled => (.ok (.term (.base n) xs), a.2)
    | _ => a), ?_⟩
  intro m hm s
  simp only [defaultRule, hx m hm]
  cases x with
  | none => rfl
  | some a =>
    obtain ⟨r, l⟩ := a
    cases r with
    | ok v => rfl
    | error e => cases e <;> rfl

theorem defaultRule_apply_base (S : Sys) (E : Exec) (m : Mode) (n : Nat) (xs : List Val) (s : St) :
    defaultRule S E m .apply (.op (.base n) :: xs) s = defaultRule S E m (.base n) xs s := rfl

theorem uniform_const {S : Sys} {p : Nat} (r : Res) :
    Uniform S p (fun _ s => some (r, s)) :=
  ⟨some (r, []), fun _ _ s => by simp [lift]⟩

theorem defaultRule_uniform {S : Sys} {p : Nat} {E : Exec} (hE : GoodExec S p E)
    (hc : ClosedAt S p) (o : Op) (xs : List Val) :
    Uniform S p (fun m s => defaultRule S E m o xs s) := by
  cases o with
  | base n => exact defaultRule_base_uniform hE hc n xs
  | ren q o => exact uniform_const _
  | apply =>
    cases xs with
    | nil => exact uniform_const (.error .runtime)
    | cons x xs =>
      cases x with
      | op o =>
        cases o with
        | base n => exact defaultRule_base_uniform hE hc n xs
        | apply => exact uniform_const (.ok (.term .apply xs))
        | ren q o => exact uniform_const (.ok (.term (.ren q o) xs))
      | _ => exact uniform_const (.error .runtime)

theorem callOp_uniform {S : Sys} {p : Nat} {E : Exec} (hE : GoodExec S p E)
    (hc : ClosedAt S p) {o : Op} (ho : Good S p o) (xs : List Val) :
    Uniform S p (fun m s => callOp S E m o xs s) := by
  cases hi : S.intp p o with
  | some h =>
    obtain ⟨x, hx⟩ := hE _ (hc.handlers o h hi xs)
    refine ⟨x, fun m hm s => ?_⟩
    rcases hm with hm | ⟨r, hm⟩
    · have := hx m (.inl hm) (some o) s
      subst hm; simp only [callOp, hi]; exact this
    · have := hx m (.inr ⟨r, hm⟩) (some (.ren p o)) s
      subst hm; simp only [callOp, hi]; exact this
  | none =>
    rcases ho with ho | ⟨ho, ha⟩
    · rw [hi] at ho; cases ho
    · cases hia : S.intp p .apply with
      | some h =>
        obtain ⟨x, hx⟩ := hE _ (hc.handlers .apply h hia (.op o :: xs))
        refine ⟨x, fun m hm s => ?_⟩
        rcases hm with hm | ⟨r, hm⟩
        · have := hx m (.inl hm) (some .apply) s
          subst hm; simp only [callOp, hi, hia]; exact this
        · have := hx m (.inr ⟨r, hm⟩) (some (.ren p .apply)) s
          subst hm; simp only [callOp, hi, hia, ho]; exact this
      | none =>
        have ha : S.handled .apply = false := by
          rcases ha with ha | ha
          · rw [hia] at ha; cases ha
          · exact ha
        obtain ⟨x, hx⟩ := defaultRule_uniform hE hc o xs
        refine ⟨x, fun m hm s => ?_⟩
        have := hx m hm s
        rcases hm with hm | ⟨r, hm⟩
        · subst hm; simp only [callOp, hi, hia]; exact this
        · subst hm; simp only [callOp, hi, hia, ha, ho]; exact this

theorem exec_good {S : Sys} {p : Nat} (hc : ClosedAt S p) :
    ∀ n, GoodExec S p (exec S n) := by
  intro n
  induction n with
  | zero => intro b _; exact ⟨none, fun _ _ _ _ => rfl⟩
  | succ n ih =>
    intro b hb
    cases hb with
    | ret v => exact ⟨some (.ok v, []), fun _ _ _ s => by simp [exec, lift, okOut]⟩
    | raise e => exact ⟨some (.error e, []), fun _ _ _ s => by simp [exec, lift, errOut]⟩
    | tick i k hk =>
      obtain ⟨x, hx⟩ := ih k hk
      refine ⟨x.map (fun a => (a.1, i :: a.2)), fun m hm fw s => ?_⟩
      simp only [exec, hx m hm]
      cases x <;> simp [lift]
    | call o xs k ho hk =>
      obtain ⟨x, hx⟩ := callOp_uniform ih hc ho xs
      cases x with
      | none =>
        refine ⟨none, fun m hm fw s => ?_⟩
        simp only [exec, hx m hm, lift]; rfl
      | some a =>
        obtain ⟨r, l⟩ := a
        obtain ⟨y, hy⟩ := ih (k r) (hk r)
        refine ⟨y.map (fun b => (b.1, l ++ b.2)), fun m hm fw s => ?_⟩
        simp only [exec, hx m hm, lift, andThen, Option.map_some, hy m hm]
        cases y <;> simp

/-! ## The heap of products -/

def eraseMemo (t : Thunk) : Thunk := { t with memo := none }

/-- Products are only added, and only the memo of a component changes. -/
def Ext (s s' : St) : Prop :=
  ∀ (r : Nat) pr, s.heap[r]? = some pr →
    ∃ pr', s'.heap[r]? = some pr' ∧ pr'.map eraseMemo = pr.map eraseMemo

theorem Ext.refl (s : St) : Ext s s := fun _ pr h => ⟨pr, h, rfl⟩

theorem Ext.trans {a b c : St} (h1 : Ext a b) (h2 : Ext b c) : Ext a c := by
  intro r pr h
  obtain ⟨pr', h', e⟩ := h1 r pr h
  obtain ⟨pr'', h'', e'⟩ := h2 r pr' h'
  exact ⟨pr'', h'', e'.trans e⟩

/-- Component `t` computes `x`. -/
def Computes (S : Sys) (E : Exec) (t : Thunk) (x : Option (Res × List Nat)) : Prop :=
  ∀ r s, runThunk S E r t s = lift x s

/-- Each component of prompt `p` computes something fixed, and a memo agrees with it. -/
def Inv (S : Sys) (E : Exec) (p : Nat) (s : St) : Prop :=
  ∀ (r : Nat) pr t, s.heap[r]? = some pr → t ∈ pr → t.prompt = p →
    ∃ x, Computes S E t x ∧ ∀ v, t.memo = some v → ∃ l, x = some (.ok v, l)

theorem findThunk_mem {p : Nat} {pr : Prod} {t : Thunk} (h : findThunk p pr = some t) :
    t ∈ pr ∧ t.prompt = p := by
  induction pr with
  | nil => cases h
  | cons a as ih =>
    unfold findThunk at h
    split at h
    · next hp => cases h; exact ⟨List.mem_cons_self, hp⟩
    · obtain ⟨h1, h2⟩ := ih h
      exact ⟨List.mem_cons_of_mem _ h1, h2⟩

theorem setMemo_erase (p : Nat) (v : Val) (pr : Prod) :
    (setMemo p v pr).map eraseMemo = pr.map eraseMemo := by
  induction pr with
  | nil => rfl
  | cons a as ih =>
    unfold setMemo
    split
    · simp [eraseMemo]
    · simp [ih]

theorem setMemo_mem {p : Nat} {v : Val} {pr : Prod} {t : Thunk} (h : t ∈ setMemo p v pr) :
    t ∈ pr ∨ ∃ t0, findThunk p pr = some t0 ∧ t = { t0 with memo := some v } := by
  induction pr with
  | nil => cases h
  | cons a as ih =>
    unfold setMemo at h
    unfold findThunk
    split at h
    · next hp =>
      rw [if_pos hp]
      rcases List.mem_cons.1 h with h | h
      · exact .inr ⟨a, rfl, h⟩
      · exact .inl (List.mem_cons_of_mem _ h)
    · next hp =>
      rw [if_neg hp]
      rcases List.mem_cons.1 h with h | h
      · exact .inl (h ▸ List.mem_cons_self)
      · rcases ih h with h | h
        · exact .inl (List.mem_cons_of_mem _ h)
        · exact .inr h

theorem findThunk_erase {p : Nat} {pr pr' : Prod} (h : pr'.map eraseMemo = pr.map eraseMemo) :
    (findThunk p pr').map eraseMemo = (findThunk p pr).map eraseMemo := by
  induction pr generalizing pr' with
  | nil => cases pr' <;> simp_all [findThunk]
  | cons a as ih =>
    cases pr' with
    | nil => simp at h
    | cons b bs =>
      simp only [List.map_cons, List.cons.injEq] at h
      have hpr : b.prompt = a.prompt := by
        have := congrArg Thunk.prompt h.1
        exact this
      unfold findThunk
      rw [hpr]
      split
      · simp [h.1]
      · exact ih h.2

theorem runThunk_erase (S : Sys) (E : Exec) (r : Nat) (t : Thunk) (s : St) :
    runThunk S E r (eraseMemo t) s = runThunk S E r t s := rfl

theorem computes_erase {S : Sys} {E : Exec} {t t' : Thunk} {x} (h : eraseMemo t = eraseMemo t')
    (hc : Computes S E t x) : Computes S E t' x := by
  intro r s
  rw [← runThunk_erase, ← h, runThunk_erase]
  exact hc r s

theorem modify_get {r r' : Nat} {f : Prod → Prod} {h : List Prod} {pr : Prod}
    (e : (h.modify r f)[r']? = some pr) :
    ∃ pr0, h[r']? = some pr0 ∧ pr = if r' = r then f pr0 else pr0 := by
  rw [List.getElem?_modify] at e
  cases h0 : h[r']? with
  | none => rw [h0] at e; simp at e
  | some pr0 =>
    rw [h0] at e
    refine ⟨pr0, rfl, ?_⟩
    by_cases hr : r = r'
    · subst hr; simp at e; simp [e]
    · have : ¬ r' = r := fun e => hr e.symm
      simp [hr] at e; simp [this, e]

theorem ext_setMemo (r p : Nat) (v : Val) (s : St) :
    Ext s { s with heap := s.heap.modify r (setMemo p v) } := by
  intro r' pr h
  by_cases hr : r = r'
  · subst hr
    refine ⟨setMemo p v pr, ?_, setMemo_erase p v pr⟩
    simp [h]
  · refine ⟨pr, ?_, rfl⟩
    simp [hr, h]

theorem ext_log (s : St) (l : List Nat) : Ext s { s with log := s.log ++ l } :=
  fun _ pr h => ⟨pr, h, rfl⟩

/-- Setting the memo of another prompt, or of `p` to what it computes, keeps the invariant. -/
theorem inv_setMemo {S : Sys} {E : Exec} {p q r : Nat} {v : Val} {s : St} (hi : Inv S E p s)
    (hv : q = p → ∀ pr t, s.heap[r]? = some pr → findThunk q pr = some t →
      ∃ l, Computes S E t (some (.ok v, l))) :
    Inv S E p { s with heap := s.heap.modify r (setMemo q v) } := by
  intro r' pr t h ht hp
  obtain ⟨pr0, h0, e⟩ := modify_get h
  by_cases hr : r' = r
  · rw [if_pos hr] at e
    subst e
    rcases setMemo_mem ht with ht | ⟨t0, hf, e⟩
    · exact hi r' pr0 t h0 ht hp
    · have hq : t0.prompt = q := (findThunk_mem hf).2
      have hqp : q = p := by rw [← hq, ← hp, e]
      obtain ⟨l, hl⟩ := hv hqp pr0 t0 (hr ▸ h0) hf
      refine ⟨_, computes_erase (t := t0) (by rw [e]; rfl) hl, ?_⟩
      intro w hw
      rw [e] at hw
      cases hw
      exact ⟨l, rfl⟩
  · rw [if_neg hr] at e
    exact hi r' pr t (e ▸ h0) ht hp

theorem inv_log {S : Sys} {E : Exec} {p : Nat} {s : St} (hi : Inv S E p s) (l : List Nat) :
    Inv S E p { s with log := s.log ++ l } := hi

/-! ## More fuel -/

/-- `E'` extends `E`. -/
def Le (E E' : Exec) : Prop := ∀ m fw b s x, E m fw b s = some x → E' m fw b s = some x

theorem defaultRule_mono {S : Sys} {E E' : Exec} (h : Le E E') {m o xs s x}
    (e : defaultRule S E m o xs s = some x) : defaultRule S E' m o xs s = some x := by
  have hb : ∀ n xs x, defaultRule S E m (.base n) xs s = some x →
      defaultRule S E' m (.base n) xs s = some x := by
    intro n xs x e
    simp only [defaultRule] at e ⊢
    cases he : E m none (S.dflt (.base n) xs) s with
    | none => rw [he] at e; cases e
    | some y => rw [h _ _ _ _ _ he]; rw [he] at e; exact e
  cases o with
  | base n => exact hb n xs x e
  | ren q o => exact e
  | apply =>
    cases xs with
    | nil => exact e
    | cons y ys =>
      cases y with
      | op o =>
        cases o with
        | base n => exact hb n ys x e
        | apply => exact e
        | ren q o => exact e
      | _ => exact e

theorem runThunk_mono {S : Sys} {E E' : Exec} (h : Le E E') {r t s x}
    (e : runThunk S E r t s = some x) : runThunk S E' r t s = some x := by
  unfold runThunk at e ⊢
  split at e
  · split at e
    · next hh => exact h _ _ _ _ _ e
    · next hh => exact e
  · split at e
    · next hh => exact h _ _ _ _ _ e
    · next hh => exact e
  · exact defaultRule_mono h e

theorem force_mono {S : Sys} {E E' : Exec} (h : Le E E') {p r s x}
    (e : force S E p r s = some x) : force S E' p r s = some x := by
  unfold force at e ⊢
  split
  · next h1 => rw [h1] at e; exact e
  · next pr h1 =>
    rw [h1] at e
    simp only at e
    split
    · next h2 => rw [h2] at e; exact e
    · next t h2 =>
      rw [h2] at e
      simp only at e
      split
      · next v h3 => rw [h3] at e; exact e
      · next h3 =>
        rw [h3] at e
        simp only at e
        cases h4 : runThunk S E r t s with
        | none => rw [h4] at e; cases e
        | some y => rw [h4] at e; rw [runThunk_mono h h4]; exact e

mutual
theorem unpack_mono {f g : Nat → St → Out} (h : ∀ r s x, f r s = some x → g r s = some x) :
    ∀ v s x, unpack f v s = some x → unpack g v s = some x
  | .prod r, s, x, e => by simp only [unpack] at e ⊢; exact h _ _ _ e
  | .tup xs, s, x, e => by
    simp only [unpack] at e ⊢
    cases h1 : unpackL f xs s with
    | none => rw [h1] at e; cases e
    | some y => rw [h1] at e; rw [unpackL_mono h xs s y h1]; exact e
  | .int _, s, x, e => e
  | .op _, s, x, e => e
  | .term _ _, s, x, e => e
theorem unpackL_mono {f g : Nat → St → Out} (h : ∀ r s x, f r s = some x → g r s = some x) :
    ∀ v s x, unpackL f v s = some x → unpackL g v s = some x
  | [], s, x, e => e
  | v :: vs, s, x, e => by
    simp only [unpackL] at e ⊢
    cases h1 : unpack f v s with
    | none => rw [h1] at e; cases e
    | some y =>
      rw [h1] at e; rw [unpack_mono h v s y h1]
      obtain ⟨r, s1⟩ := y
      cases r with
      | error e' => exact e
      | ok w =>
        simp only at e ⊢
        cases h2 : unpackL f vs s1 with
        | none => rw [h2] at e; cases e
        | some z => rw [h2] at e; rw [unpackL_mono h vs s1 z h2]; exact e
end

theorem productLoop_mono {S : Sys} {E E' : Exec} (h : Le E E') {o xs} :
    ∀ ps acc s x, productLoop S E o xs ps acc s = some x → productLoop S E' o xs ps acc s = some x := by
  intro ps
  induction ps with
  | nil => intro acc s x e; exact e
  | cons p ps ih =>
    intro acc s x e
    simp only [productLoop] at e ⊢
    cases h1 : unpackL (force S E p) xs s with
    | none => rw [h1] at e; cases e
    | some y =>
      rw [h1] at e
      rw [unpackL_mono (fun r s x => force_mono h) xs s y h1]
      obtain ⟨r, s1⟩ := y
      cases r with
      | error e' => exact e
      | ok w => exact ih _ _ _ e

theorem productOp_mono {S : Sys} {E E' : Exec} (h : Le E E') {o xs s x}
    (e : productOp S E o xs s = some x) : productOp S E' o xs s = some x := by
  unfold productOp at e ⊢
  cases h1 : productLoop S E o xs S.prompts [] s with
  | none => rw [h1] at e; cases e
  | some y => rw [h1] at e; rw [productLoop_mono h _ _ _ _ h1]; exact e

theorem callOp_mono {S : Sys} {E E' : Exec} (h : Le E E') {m o xs s x}
    (e : callOp S E m o xs s = some x) : callOp S E' m o xs s = some x := by
  cases m with
  | alone i =>
    simp only [callOp] at e ⊢
    split at e
    · exact h _ _ _ _ _ e
    · split at e
      · exact h _ _ _ _ _ e
      · exact defaultRule_mono h e
  | comp r p =>
    simp only [callOp] at e ⊢
    split at e
    · exact h _ _ _ _ _ e
    · split at e
      · exact h _ _ _ _ _ e
      · split at e
        · next h1 => rw [if_pos h1]; exact e
        · next h1 =>
          rw [if_neg h1]
          split at e
          · next h2 => rw [if_pos h2]; exact e
          · next h2 => rw [if_neg h2]; exact defaultRule_mono h e
  | top =>
    simp only [callOp] at e ⊢
    split at e
    · next h1 => rw [if_pos h1]; exact productOp_mono h e
    · next h1 =>
      rw [if_neg h1]
      split at e
      · next h2 => rw [if_pos h2]; exact productOp_mono h e
      · next h2 => rw [if_neg h2]; exact defaultRule_mono h e

theorem andThen_mono {α β : Type} {x x' : Option (α × St)} {k k' : α → St → Option (β × St)} {z}
    (hx : ∀ y, x = some y → x' = some y) (hk : ∀ a s y, k a s = some y → k' a s = some y)
    (e : andThen x k = some z) : andThen x' k' = some z := by
  cases h : x with
  | none => rw [h] at e; cases e
  | some y => rw [h] at e; rw [hx y h]; exact hk _ _ _ e

theorem exec_succ (S : Sys) : ∀ n, Le (exec S n) (exec S (n + 1)) := by
  intro n
  induction n with
  | zero => intro m fw b s x e; cases e
  | succ n ih =>
    intro m fw b s x e
    cases b with
    | ret v => exact e
    | raise v => exact e
    | tick i k => simp only [exec] at e ⊢; exact ih _ _ _ _ _ e
    | call o xs k =>
      rw [exec] at e ⊢
      exact andThen_mono (fun y => callOp_mono ih) (fun a s y => ih _ _ _ _ _) e
    | fwd xs k =>
      cases fw with
      | none => simp only [exec] at e ⊢; exact ih _ _ _ _ _ e
      | some o =>
        rw [exec] at e ⊢
        exact andThen_mono (fun y => defaultRule_mono ih) (fun a s y => ih _ _ _ _ _) e
    | need p k =>
      cases m with
      | comp r q =>
        rw [exec] at e ⊢
        exact andThen_mono (fun y => force_mono ih) (fun a s y => ih _ _ _ _ _) e
      | alone i => exact ih _ _ _ _ _ e
      | top => exact ih _ _ _ _ _ e
    | argsof p k =>
      cases m with
      | comp r q =>
        rw [exec] at e ⊢
        split at e <;> exact ih _ _ _ _ _ e
      | alone i => exact ih _ _ _ _ _ e
      | top => exact ih _ _ _ _ _ e

theorem exec_mono (S : Sys) {a b : Nat} (h : a ≤ b) : Le (exec S a) (exec S b) := by
  induction h with
  | refl => intro _ _ _ _ _ e; exact e
  | step _ ih => intro m fw b s x e; exact exec_succ S _ _ _ _ _ _ (ih _ _ _ _ _ e)

/-! ## Other components keep the invariant of component `p` -/

/-- `f` keeps the invariant of prompt `p`. -/
def Keeps {α : Type} (S : Sys) (E0 : Exec) (p : Nat) (f : St → Option (α × St)) : Prop :=
  ∀ s, Inv S E0 p s → ∀ r s', f s = some (r, s') → Ext s s' ∧ Inv S E0 p s'

theorem keeps_some {α : Type} {S : Sys} {E0 : Exec} {p : Nat} (r : α) :
    Keeps S E0 p (fun s => some (r, s)) := by
  intro s hi r' s' h
  simp only [Option.some.injEq, Prod.mk.injEq] at h
  rw [← h.2]
  exact ⟨Ext.refl s, hi⟩

/-- Execution inside components keeps the invariant. -/
def KeepsExec (S : Sys) (E0 E : Exec) (p : Nat) : Prop :=
  ∀ r q fw b, Keeps S E0 p (fun s => E (.comp r q) fw b s)

theorem defaultRule_keeps {S : Sys} {E0 E : Exec} {p : Nat} (h : KeepsExec S E0 E p) (r q : Nat)
    (o : Op) (xs : List Val) : Keeps S E0 p (fun s => defaultRule S E (.comp r q) o xs s) := by
  have hb : ∀ n xs, Keeps S E0 p (fun s => defaultRule S E (.comp r q) (.base n) xs s) := by
    intro n xs s hi y s' e
    simp only [defaultRule] at e
    have := h r q none (S.dflt (.base n) xs) s hi
    cases he : E (.comp r q) none (S.dflt (.base n) xs) s with
    | none => rw [he] at e; cases e
    | some z =>
      rw [he] at e
      obtain ⟨a, s1⟩ := z
      have h1 := this a s1 he
      split at e
      · next heq => simp [okOut] at e heq; rw [← e.2, ← heq.2]; exact h1
      · simp at e; rw [← e.2]; exact h1
  cases o with
  | base n => exact hb n xs
  | ren a o => exact keeps_some _
  | apply =>
    cases xs with
    | nil => exact keeps_some (Except.error Err.runtime)
    | cons y ys =>
      cases y with
      | op o =>
        cases o with
        | base n => exact hb n ys
        | apply => exact keeps_some (Except.ok (Val.term .apply ys))
        | ren a o => exact keeps_some (Except.ok (Val.term (.ren a o) ys))
      | _ => exact keeps_some (Except.error Err.runtime)

theorem runThunk_keeps {S : Sys} {E0 E : Exec} {p : Nat} (h : KeepsExec S E0 E p) (r : Nat)
    (t : Thunk) : Keeps S E0 p (fun s => runThunk S E r t s) := by
  unfold runThunk
  split
  · split
    · exact h _ _ _ _
    · exact keeps_some (Except.error Err.runtime)
  · split
    · exact h _ _ _ _
    · exact keeps_some (Except.error Err.runtime)
  · exact defaultRule_keeps h _ _ _ _

theorem force_keeps {S : Sys} {E0 E : Exec} {p : Nat} (hle : Le E E0) (h : KeepsExec S E0 E p)
    (q r : Nat) : Keeps S E0 p (fun s => force S E q r s) := by
  intro s hi y s' e
  unfold force at e
  simp only at e
  split at e
  · exact keeps_some (Except.error Err.runtime) s hi y s' e
  · next pr h1 =>
    split at e
    · exact keeps_some (Except.error Err.key) s hi y s' e
    · next t h2 =>
      split at e
      · next v h3 => exact keeps_some (Except.ok v) s hi y s' e
      · next h3 =>
        split at e
        · next v s1 h4 =>
          obtain ⟨k1, k2⟩ := runThunk_keeps h r t s hi _ _ h4
          simp only [okOut, Option.some.injEq, Prod.mk.injEq] at e
          rw [← e.2]
          refine ⟨k1.trans (ext_setMemo r q v s1), inv_setMemo k2 ?_⟩
          intro hqp pr' t' h5 h6
          obtain ⟨pr'', h7, h8⟩ := k1 r pr h1
          rw [h5] at h7
          cases h7
          have h9 := findThunk_erase (p := q) h8
          rw [h6, h2] at h9
          simp only [Option.map_some, Option.some.injEq] at h9
          obtain ⟨x, hx, -⟩ := hi r pr t h1 (findThunk_mem h2).1 ((findThunk_mem h2).2.trans hqp)
          have h10 := runThunk_mono hle h4
          rw [hx r s] at h10
          cases x with
          | none => cases h10
          | some a =>
            obtain ⟨a, l⟩ := a
            simp only [lift, Option.map_some, Option.some.injEq, Prod.mk.injEq] at h10
            refine ⟨l, computes_erase h9.symm ?_⟩
            rw [h10.1] at hx
            exact hx
        · exact runThunk_keeps h r t s hi _ _ e

theorem callOp_keeps {S : Sys} {E0 E : Exec} {p : Nat} (h : KeepsExec S E0 E p)
    (r q : Nat) (o : Op) (xs : List Val) : Keeps S E0 p (fun s => callOp S E (.comp r q) o xs s) := by
  simp only [callOp]
  split
  · exact h _ _ _ _
  · split
    · exact h _ _ _ _
    · split
      · exact keeps_some (Except.error Err.recursion)
      · split
        · exact keeps_some (Except.ok _)
        · exact defaultRule_keeps h _ _ _ _

theorem keeps_bind {α β : Type} {S : Sys} {E0 : Exec} {p : Nat} {f : St → Option (α × St)}
    {g : α → St → Option (β × St)} (hf : Keeps S E0 p f) (hg : ∀ a, Keeps S E0 p (g a)) :
    Keeps S E0 p (fun s => andThen (f s) g) := by
  intro s hi y s' e
  simp only [andThen] at e
  cases h1 : f s with
  | none => rw [h1] at e; cases e
  | some z =>
    obtain ⟨a, s1⟩ := z
    rw [h1] at e
    obtain ⟨k1, k2⟩ := hf s hi a s1 h1
    obtain ⟨k3, k4⟩ := hg a s1 k2 y s' e
    exact ⟨k1.trans k3, k4⟩

theorem exec_keeps (S : Sys) (p : Nat) {n0 : Nat} :
    ∀ n, n ≤ n0 → KeepsExec S (exec S n0) (exec S n) p := by
  intro n
  induction n with
  | zero => intro _ r q fw b s hi y s' e; cases e
  | succ n ih =>
    intro hn r q fw b
    have ih' := ih (by omega)
    have hle := exec_mono S (show n ≤ n0 by omega)
    cases b with
    | ret v => exact keeps_some (Except.ok v)
    | raise e => exact keeps_some (Except.error e)
    | tick i k =>
      intro s hi y s' e
      simp only [exec] at e
      obtain ⟨k1, k2⟩ := ih' r q fw k { s with log := s.log ++ [i] } hi y s' e
      exact ⟨(ext_log s [i]).trans k1, k2⟩
    | call o xs k =>
      simp only [exec]
      exact keeps_bind (callOp_keeps ih' r q o xs) (fun a => ih' r q fw (k a))
    | fwd xs k =>
      cases fw with
      | none => simp only [exec]; exact ih' _ _ _ _
      | some o =>
        simp only [exec]
        exact keeps_bind (defaultRule_keeps ih' r q o xs) (fun a => ih' r q _ (k a))
    | need a k =>
      simp only [exec]
      exact keeps_bind (force_keeps hle ih' a r) (fun a => ih' r q _ (k a))
    | argsof a k =>
      intro s hi y s' e
      simp only [exec] at e
      split at e
      · exact ih' r q fw _ s hi y s' e
      · exact ih' r q fw _ s hi y s' e

mutual
theorem unpack_keeps {S : Sys} {E0 : Exec} {p : Nat} {f : Nat → St → Out}
    (h : ∀ r, Keeps S E0 p (f r)) : ∀ v, Keeps S E0 p (unpack f v)
  | .prod r => h r
  | .tup xs => by
    intro s hi y s' e
    simp only [unpack] at e
    cases h1 : unpackL f xs s with
    | none => rw [h1] at e; cases e
    | some z =>
      obtain ⟨a, s1⟩ := z
      have := unpackL_keeps h xs s hi a s1 h1
      rw [h1] at e
      cases a with
      | ok ys => simp [okOut] at e; rw [← e.2]; exact this
      | error ys => simp [errOut] at e; rw [← e.2]; exact this
  | .int n => keeps_some _
  | .op n => keeps_some _
  | .term o n => keeps_some _
theorem unpackL_keeps {S : Sys} {E0 : Exec} {p : Nat} {f : Nat → St → Out}
    (h : ∀ r, Keeps S E0 p (f r)) : ∀ v, Keeps S E0 p (unpackL f v)
  | [] => keeps_some _
  | x :: xs => by
    intro s hi y s' e
    simp only [unpackL] at e
    cases h1 : unpack f x s with
    | none => rw [h1] at e; cases e
    | some z =>
      obtain ⟨a, s1⟩ := z
      have k := unpack_keeps h x s hi a s1 h1
      rw [h1] at e
      cases a with
      | error ys => simp at e; rw [← e.2]; exact k
      | ok y1 =>
        simp only at e
        cases h2 : unpackL f xs s1 with
        | none => rw [h2] at e; cases e
        | some z2 =>
          obtain ⟨a2, s2⟩ := z2
          have k' := unpackL_keeps h xs s1 k.2 a2 s2 h2
          rw [h2] at e
          cases a2 with
          | ok ys => simp at e; rw [← e.2]; exact ⟨k.1.trans k'.1, k'.2⟩
          | error ys => simp at e; rw [← e.2]; exact ⟨k.1.trans k'.1, k'.2⟩
end

/-! ## Evaluation under one interpretation -/

theorem alone_callOp {S : Sys} {p : Nat} {E : Exec} (hE : GoodExec S p E)
    (hc : ClosedAt S p) (o : Op) (xs : List Val) :
    ∃ x, ∀ s, callOp S E (.alone (S.intp p)) o xs s = lift x s := by
  simp only [callOp]
  cases hi : S.intp p o with
  | some h =>
    obtain ⟨x, hx⟩ := hE _ (hc.handlers o h hi xs)
    exact ⟨x, fun s => hx _ (.inl rfl) _ s⟩
  | none =>
    simp only
    cases hia : S.intp p .apply with
    | some h =>
      obtain ⟨x, hx⟩ := hE _ (hc.handlers .apply h hia (.op o :: xs))
      exact ⟨x, fun s => hx _ (.inl rfl) _ s⟩
    | none =>
      obtain ⟨x, hx⟩ := defaultRule_uniform hE hc o xs
      exact ⟨x, fun s => hx _ (.inl rfl) s⟩

/-- What `product_op` makes of a call of `o`. -/
def thunkFor (S : Sys) (o : Op) (p : Nat) (ys : List Val) : Thunk :=
  if S.handled o then mkThunk S o p ys else mkThunk S .apply p (.op o :: ys)

/-- The component of `p` computes what the call means under `i_p` alone. -/
theorem thunk_computes {S : Sys} {p : Nat} {E : Exec} (hp : p ∈ S.prompts) (hE : GoodExec S p E)
    (hc : ClosedAt S p) {o : Op} (ho : OpOK S p o) (ys : List Val) {x}
    (hx : ∀ s, callOp S E (.alone (S.intp p)) o ys s = lift x s) :
    Computes S E (thunkFor S o p ys) x := by
  intro r s
  have hx := hx s
  unfold thunkFor
  simp only [callOp] at hx
  cases hh : S.handled o with
  | true =>
    simp only [if_true, mkThunk]
    cases hi : S.intp p o with
    | some h =>
      rw [hi] at hx
      obtain ⟨y, hy⟩ := hE _ (hc.handlers o h hi ys)
      simp only [hy _ (.inl rfl)] at hx
      simp only [Option.isSome_some, if_true, runThunk, hi]
      rw [hy _ (.inr ⟨r, rfl⟩)]
      exact hx
    | none =>
      have ha := ho.2 hh hi
      rw [hi, ha] at hx
      obtain ⟨y, hy⟩ := defaultRule_uniform hE hc o ys
      simp only [hy _ (.inl rfl)] at hx
      simp only [ha, Option.isSome_none, Bool.false_eq_true, if_false, runThunk]
      exact (hy _ (.inr ⟨r, rfl⟩) s).trans hx
  | false =>
    have hi := none_of hp hh
    have hha : S.handled .apply = true := by
      rcases ho.1 with h | h
      · rw [hh] at h; cases h
      · exact h
    simp only [Bool.false_eq_true, if_false, mkThunk]
    rw [hi] at hx
    simp only at hx
    cases ha : S.intp p .apply with
    | some h =>
      rw [ha] at hx
      obtain ⟨y, hy⟩ := hE _ (hc.handlers .apply h ha (.op o :: ys))
      simp only [hy _ (.inl rfl)] at hx
      simp only [Option.isSome_some, if_true, runThunk, ha]
      rw [hy _ (.inr ⟨r, rfl⟩)]
      exact hx
    | none =>
      rw [ha] at hx
      obtain ⟨y, hy⟩ := defaultRule_uniform hE hc o ys
      simp only [hy _ (.inl rfl)] at hx
      simp only [Option.isSome_none, Bool.false_eq_true, if_false, runThunk]
      rw [← hx]
      have hy' := hy _ (.inr ⟨r, rfl⟩) s
      rw [← hy']
      cases o with
      | base n => rfl
      | apply => rw [hh] at hha; cases hha
      | ren q o => rfl

/-! ## Evaluation under the product -/

/-- Unpacking `v` for `p` gives `x`, now and later. -/
def Den (S : Sys) (E : Exec) (p : Nat) (s : St) (v : Val) (x : Option Res) : Prop :=
  ∀ s', Ext s s' → Inv S E p s' → (unpack (force S E p) v s').map Prod.fst = x

def DenL (S : Sys) (E : Exec) (p : Nat) (s : St) (vs : List Val)
    (x : Option (Except Err (List Val))) : Prop :=
  ∀ s', Ext s s' → Inv S E p s' → (unpackL (force S E p) vs s').map Prod.fst = x

theorem Den.mono {S : Sys} {E : Exec} {p : Nat} {s s1 : St} {v : Val} {x}
    (h : Den S E p s v x) (he : Ext s s1) : Den S E p s1 v x :=
  fun s' h1 h2 => h s' (he.trans h1) h2

mutual
theorem unpack_plain (f : Nat → St → Out) : ∀ v s, plain v = true → unpack f v s = okOut v s
  | .prod _, _, h => by simp [plain] at h
  | .tup xs, s, h => by
    simp only [plain] at h
    simp only [unpack, unpackL_plain f xs s h]
  | .int _, _, _ => rfl
  | .op _, _, _ => rfl
  | .term _ _, _, _ => rfl
theorem unpackL_plain (f : Nat → St → Out) : ∀ vs s, plainL vs = true →
    unpackL f vs s = some (.ok vs, s)
  | [], _, _ => rfl
  | v :: vs, s, h => by
    simp only [plainL, Bool.and_eq_true] at h
    simp only [unpackL, unpack_plain f v s h.1, okOut, unpackL_plain f vs s h.2]
end

theorem force_computes {S : Sys} {E : Exec} {p r : Nat} {s : St} {pr : Prod} {t : Thunk} {x}
    (hi : Inv S E p s) (h1 : s.heap[r]? = some pr) (h2 : findThunk p pr = some t)
    (hx : Computes S E t x) : (force S E p r s).map Prod.fst = x.map Prod.fst := by
  unfold force
  rw [h1]
  simp only [h2]
  cases h3 : t.memo with
  | some v =>
    obtain ⟨y, hy, hm⟩ := hi r pr t h1 (findThunk_mem h2).1 (findThunk_mem h2).2
    obtain ⟨l, hl⟩ := hm v h3
    have : lift x s = lift y s := by rw [← hx r s, ← hy r s]
    rw [hl] at this
    cases x with
    | none => cases this
    | some a =>
      simp only [lift, Option.map_some, Option.some.injEq, Prod.mk.injEq] at this
      simp [okOut, this.1]
  | none =>
    simp only [hx r s]
    cases x with
    | none => rfl
    | some a =>
      obtain ⟨a, l⟩ := a
      cases a <;> rfl

theorem force_exec_keeps (S : Sys) (p n q r : Nat) :
    Keeps S (exec S n) p (fun s => force S (exec S n) q r s) :=
  force_keeps (exec_mono S (Nat.le_refl n)) (exec_keeps S p n (Nat.le_refl n)) q r

theorem productLoop_spec {S : Sys} {p n : Nat} {o : Op} {xs : List Val} :
    ∀ ps acc s r s', Inv S (exec S n) p s →
      productLoop S (exec S n) o xs ps acc s = some (r, s') →
      Ext s s' ∧ Inv S (exec S n) p s' ∧ ∀ pr, r = .ok pr →
        (∀ t ∈ pr, t ∈ acc ∨ ∃ q ∈ ps, ∃ ys s1 s2, t = mkThunk S o q ys ∧ Ext s s1 ∧
          Inv S (exec S n) p s1 ∧ unpackL (force S (exec S n) q) xs s1 = some (.ok ys, s2)) ∧
        (∀ t ∈ acc, t ∈ pr) ∧ (∀ q ∈ ps, ∃ t ∈ pr, t.prompt = q) := by
  intro ps
  induction ps with
  | nil =>
    intro acc s r s' hi e
    simp only [productLoop, Option.some.injEq, Prod.mk.injEq] at e
    obtain ⟨e1, e2⟩ := e
    subst e2
    refine ⟨Ext.refl s, hi, ?_⟩
    intro pr hpr
    rw [← e1] at hpr
    cases hpr
    exact ⟨fun t h => .inl h, fun t h => h, fun q h => by cases h⟩
  | cons q ps ih =>
    intro acc s r s' hi e
    simp only [productLoop] at e
    cases h1 : unpackL (force S (exec S n) q) xs s with
    | none => rw [h1] at e; cases e
    | some y =>
      obtain ⟨y, s1⟩ := y
      have k := unpackL_keeps (fun r => force_exec_keeps S p n q r) xs s hi y s1 h1
      rw [h1] at e
      cases y with
      | error er =>
        simp only [Option.some.injEq, Prod.mk.injEq] at e
        obtain ⟨e1, e2⟩ := e
        subst e2
        refine ⟨k.1, k.2, ?_⟩
        intro pr hpr
        rw [← e1] at hpr
        cases hpr
      | ok ys =>
        simp only at e
        obtain ⟨k1, k2, k3⟩ := ih _ s1 r s' k.2 e
        refine ⟨k.1.trans k1, k2, ?_⟩
        intro pr hpr
        obtain ⟨a, b, c⟩ := k3 pr hpr
        refine ⟨?_, ?_, ?_⟩
        · intro t ht
          rcases a t ht with h | ⟨q', hq', ys', s2, s3, h2, h3, h4, h5⟩
          · rcases List.mem_append.1 h with h | h
            · exact .inl h
            · refine .inr ⟨q, List.mem_cons_self, ys, s, s1, ?_, Ext.refl s, hi, h1⟩
              simpa using h
          · exact .inr ⟨q', List.mem_cons_of_mem _ hq', ys', s2, s3, h2, k.1.trans h3, h4, h5⟩
        · intro t ht
          exact b t (List.mem_append_left _ ht)
        · intro q' hq'
          rcases List.mem_cons.1 hq' with h | h
          · refine ⟨mkThunk S o q ys, b _ (List.mem_append_right _ List.mem_cons_self), ?_⟩
            rw [h]
            unfold mkThunk
            split
            · rfl
            · split <;> rfl
          · exact c q' h

theorem findThunk_some {q : Nat} {pr : Prod} (h : ∃ t ∈ pr, t.prompt = q) :
    ∃ t, findThunk q pr = some t := by
  induction pr with
  | nil => obtain ⟨t, h, _⟩ := h; cases h
  | cons a as ih =>
    unfold findThunk
    by_cases ha : a.prompt = q
    · exact ⟨a, if_pos ha⟩
    · rw [if_neg ha]
      obtain ⟨t, ht, e⟩ := h
      rcases List.mem_cons.1 ht with h | h
      · exact absurd (h ▸ e) ha
      · exact ih ⟨t, h, e⟩

theorem mkThunk_prompt (S : Sys) (o : Op) (q : Nat) (ys : List Val) :
    (mkThunk S o q ys).prompt = q := by
  unfold mkThunk
  split
  · rfl
  · split <;> rfl

theorem mkThunk_memo (S : Sys) (o : Op) (q : Nat) (ys : List Val) :
    (mkThunk S o q ys).memo = none := by
  unfold mkThunk
  split
  · rfl
  · split <;> rfl

/-- `product_op` returns a product whose component `p` is the component made by `mkThunk` for the
arguments of `p`. -/
theorem productOp_spec {S : Sys} {p n : Nat} (hp : p ∈ S.prompts) {o : Op} {xs : List Val}
    {s : St} {r : Res} {s' : St} (hi : Inv S (exec S n) p s) {x}
    (hx : ∀ ys s1 s2, Ext s s1 → Inv S (exec S n) p s1 →
      unpackL (force S (exec S n) p) xs s1 = some (.ok ys, s2) →
      Computes S (exec S n) (mkThunk S o p ys) x)
    (e : productOp S (exec S n) o xs s = some (r, s')) :
    Ext s s' ∧ Inv S (exec S n) p s' ∧
      ∀ v, r = .ok v → Den S (exec S n) p s' v (x.map Prod.fst) := by
  unfold productOp at e
  cases h1 : productLoop S (exec S n) o xs S.prompts [] s with
  | none => rw [h1] at e; cases e
  | some y =>
    obtain ⟨y, s1⟩ := y
    obtain ⟨k1, k2, k3⟩ := productLoop_spec (p := p) _ _ _ _ _ hi h1
    rw [h1] at e
    cases y with
    | error er =>
      simp only [errOut, Option.some.injEq, Prod.mk.injEq] at e
      obtain ⟨e1, e2⟩ := e
      subst e2
      refine ⟨k1, k2, ?_⟩
      intro v hv
      rw [← e1] at hv
      cases hv
    | ok pr =>
      simp only [okOut, Option.some.injEq, Prod.mk.injEq] at e
      obtain ⟨e1, e2⟩ := e
      obtain ⟨a, -, c⟩ := k3 pr rfl
      have hcomp : ∀ t ∈ pr, t.prompt = p → Computes S (exec S n) t x ∧ t.memo = none := by
        intro t ht hpt
        rcases a t ht with h | ⟨q, hq, ys, s2, s3, h2, h3, h4, h5⟩
        · cases h
        · have hqp : q = p := by rw [← hpt, h2, mkThunk_prompt]
          subst hqp
          rw [h2]
          exact ⟨hx ys s2 s3 h3 h4 h5, mkThunk_memo S o q ys⟩
      have hE : Ext s1 s' := by
        rw [← e2]
        intro r' pr' h'
        refine ⟨pr', ?_, rfl⟩
        have hlt := (List.getElem?_eq_some_iff.1 h').1
        simp only
        rw [List.getElem?_append_left hlt]
        exact h'
      have hI : Inv S (exec S n) p s' := by
        rw [← e2]
        intro r' pr' t h' ht hpt
        simp only at h'
        rcases Nat.lt_or_ge r' s1.heap.length with hlt | hge
        · rw [List.getElem?_append_left hlt] at h'
          exact k2 r' pr' t h' ht hpt
        · rw [List.getElem?_append_right hge] at h'
          have : pr' = pr := by
            rcases Nat.eq_zero_or_pos (r' - s1.heap.length) with h0 | h0
            · rw [h0] at h'; simpa using h'.symm
            · rw [List.getElem?_eq_none (by simp; omega)] at h'; cases h'
          rw [this] at ht
          obtain ⟨h1, h2⟩ := hcomp t ht hpt
          refine ⟨x, h1, ?_⟩
          intro v hv
          rw [h2] at hv
          cases hv
      refine ⟨k1.trans hE, hI, ?_⟩
      intro v hv
      rw [← e1] at hv
      cases hv
      intro s'' hE' hI'
      have hnew : s'.heap[s1.heap.length]? = some pr := by
        rw [← e2]; simp
      obtain ⟨pr'', hp1, hp2⟩ := hE' _ _ hnew
      obtain ⟨t, ht⟩ := findThunk_some (c p hp)
      have hft := findThunk_erase (p := p) hp2
      rw [ht] at hft
      cases ht' : findThunk p pr'' with
      | none => rw [ht'] at hft; cases hft
      | some t'' =>
        rw [ht'] at hft
        simp only [Option.map_some, Option.some.injEq] at hft
        simp only [unpack]
        refine force_computes hI' hp1 ht' ?_
        exact computes_erase hft.symm (hcomp t (findThunk_mem ht).1 (findThunk_mem ht).2).1

theorem callTop_spec {S : Sys} {p n : Nat} (hp : p ∈ S.prompts) {o : Op} (ho : OpOK S p o)
    {xs : List Val} {s : St} {r : Res} {s' : St} (hi : Inv S (exec S n) p s) {x}
    (hx : ∀ ys s1 s2, Ext s s1 → Inv S (exec S n) p s1 →
      unpackL (force S (exec S n) p) xs s1 = some (.ok ys, s2) →
      Computes S (exec S n) (thunkFor S o p ys) x)
    (e : callOp S (exec S n) .top o xs s = some (r, s')) :
    Ext s s' ∧ Inv S (exec S n) p s' ∧
      ∀ v, r = .ok v → Den S (exec S n) p s' v (x.map Prod.fst) := by
  simp only [callOp] at e
  unfold thunkFor at hx
  cases hh : S.handled o with
  | true =>
    rw [hh] at e hx
    simp only [if_true] at e hx
    exact productOp_spec hp hi hx e
  | false =>
    rw [hh] at e hx
    have hha : S.handled .apply = true := by
      rcases ho.1 with h | h
      · rw [hh] at h; cases h
      · exact h
    simp only [Bool.false_eq_true, if_false, hha, if_true] at e hx
    refine productOp_spec hp hi ?_ e
    intro ys s1 s2 h1 h2 h3
    simp only [unpackL, unpack, okOut] at h3
    cases h4 : unpackL (force S (exec S n) p) xs s1 with
    | none => rw [h4] at h3; cases h3
    | some y =>
      obtain ⟨y, s3⟩ := y
      rw [h4] at h3
      cases y with
      | error er => simp at h3
      | ok ys' =>
        simp only [Option.some.injEq, Prod.mk.injEq, Except.ok.injEq] at h3
        rw [← h3.1]
        exact hx ys' s1 s3 h1 h2 h4

theorem map_fst_lift {α : Type} (x : Option (α × List Nat)) (s : St) :
    (lift x s).map Prod.fst = x.map Prod.fst := by
  cases x <;> rfl

mutual

theorem eval_main {S : Sys} {p n : Nat} (hp : p ∈ S.prompts) (hc : ClosedAt S p) :
    ∀ t s r s', TmOK S p t → Inv S (exec S n) p s → eval S n .top t s = some (r, s') →
      Ext s s' ∧ Inv S (exec S n) p s' ∧ ∀ v, r = .ok v →
        ∃ x, (∀ s0, eval S n (.alone (S.intp p)) t s0 = lift x s0) ∧
          Den S (exec S n) p s' v (x.map Prod.fst)
  | .lit v, s, r, s', ht, hi, e => by
    cases ht with
    | lit _ hv =>
    simp only [eval, okOut, Option.some.injEq, Prod.mk.injEq] at e
    obtain ⟨e1, e2⟩ := e
    subst e2
    refine ⟨Ext.refl s, hi, ?_⟩
    intro w hw
    rw [← e1] at hw
    cases hw
    refine ⟨some (.ok v, []), fun s0 => by simp [eval, lift, okOut], ?_⟩
    intro s'' _ _
    rw [unpack_plain _ _ _ hv]
    rfl
  | .tup ts, s, r, s', ht, hi, e => by
    cases ht with
    | tup _ hts =>
    simp only [eval] at e
    cases h1 : evals S n .top ts s with
    | none => rw [h1] at e; cases e
    | some y =>
      obtain ⟨y, s1⟩ := y
      obtain ⟨k1, k2, k3⟩ := evals_main hp hc ts s y s1 hts hi h1
      rw [h1] at e
      cases y with
      | error er =>
        simp only [errOut, Option.some.injEq, Prod.mk.injEq] at e
        obtain ⟨e1, e2⟩ := e
        subst e2
        refine ⟨k1, k2, ?_⟩
        intro v hv
        rw [← e1] at hv
        cases hv
      | ok vs =>
        simp only [okOut, Option.some.injEq, Prod.mk.injEq] at e
        obtain ⟨e1, e2⟩ := e
        subst e2
        refine ⟨k1, k2, ?_⟩
        intro v hv
        rw [← e1] at hv
        cases hv
        obtain ⟨x, hx, hd⟩ := k3 vs rfl
        refine ⟨x.map (fun a => (a.1.map Val.tup, a.2)), ?_, ?_⟩
        · intro s0
          simp only [eval, hx s0]
          cases x with
          | none => rfl
          | some a =>
            obtain ⟨a, l⟩ := a
            cases a <;> rfl
        · intro s'' h1 h2
          have := hd s'' h1 h2
          simp only [unpack]
          cases hu : unpackL (force S (exec S n) p) vs s'' with
          | none =>
            rw [hu] at this
            cases x with
            | none => rfl
            | some a => simp at this
          | some b =>
            rw [hu] at this
            obtain ⟨b, s3⟩ := b
            cases x with
            | none => simp at this
            | some a =>
              obtain ⟨a, l⟩ := a
              simp only [Option.map_some, Option.some.injEq] at this
              subst this
              cases b <;> rfl
  | .app o ts, s, r, s', ht, hi, e => by
    cases ht with
    | app _ _ ho hts =>
    simp only [eval] at e
    cases h1 : evals S n .top ts s with
    | none => rw [h1] at e; cases e
    | some y =>
      obtain ⟨y, s1⟩ := y
      obtain ⟨k1, k2, k3⟩ := evals_main hp hc ts s y s1 hts hi h1
      rw [h1] at e
      cases y with
      | error er =>
        simp only [errOut, Option.some.injEq, Prod.mk.injEq] at e
        obtain ⟨e1, e2⟩ := e
        subst e2
        refine ⟨k1, k2, ?_⟩
        intro v hv
        rw [← e1] at hv
        cases hv
      | ok vs =>
        simp only at e
        obtain ⟨x, hx, hd⟩ := k3 vs rfl
        have hgood := exec_good hc n
        have key : ∃ y z, (∀ s0, eval S n (.alone (S.intp p)) (.app o ts) s0 = lift z s0) ∧
            z.map Prod.fst = y.map Prod.fst ∧
            ∀ ys s2 s3, Ext s1 s2 → Inv S (exec S n) p s2 →
              unpackL (force S (exec S n) p) vs s2 = some (.ok ys, s3) →
              Computes S (exec S n) (thunkFor S o p ys) y := by
          have hbad : ∀ ys s2 s3, Ext s1 s2 → Inv S (exec S n) p s2 →
              unpackL (force S (exec S n) p) vs s2 = some (.ok ys, s3) →
              x.map Prod.fst = some (.ok ys) := by
            intro ys s2 s3 h3 h4 h5
            rw [← hd s2 h3 h4, h5]
            rfl
          cases x with
          | none =>
            refine ⟨none, none, fun s0 => by simp only [eval, hx s0, lift, Option.map_none], rfl, ?_⟩
            intro ys s2 s3 h3 h4 h5
            have := hbad ys s2 s3 h3 h4 h5
            simp at this
          | some a =>
            obtain ⟨a, l⟩ := a
            cases a with
            | error er =>
              refine ⟨some (.error er, l), some (.error er, l),
                fun s0 => by simp only [eval, hx s0, lift, Option.map_some, errOut], rfl, ?_⟩
              intro ys s2 s3 h3 h4 h5
              have := hbad ys s2 s3 h3 h4 h5
              simp at this
            | ok ys0 =>
              obtain ⟨y, hy⟩ := alone_callOp hgood hc o ys0
              refine ⟨y, y.map (fun b => (b.1, l ++ b.2)), ?_, by cases y <;> rfl, ?_⟩
              · intro s0
                simp only [eval, hx s0, lift, Option.map_some, hy]
                cases y <;> simp
              · intro ys s2 s3 h3 h4 h5
                have := hbad ys s2 s3 h3 h4 h5
                simp only [Option.map_some, Option.some.injEq, Except.ok.injEq] at this
                subst this
                exact thunk_computes hp hgood hc ho _ hy
        obtain ⟨y, z, hz, hyz, hcomp⟩ := key
        obtain ⟨m1, m2, m3⟩ := callTop_spec hp ho k2 hcomp e
        refine ⟨k1.trans m1, m2, ?_⟩
        intro v hv
        refine ⟨z, hz, ?_⟩
        rw [hyz]
        exact m3 v hv
termination_by structural t => t

theorem evals_main {S : Sys} {p n : Nat} (hp : p ∈ S.prompts) (hc : ClosedAt S p) :
    ∀ ts s r s', (∀ t ∈ ts, TmOK S p t) → Inv S (exec S n) p s →
      evals S n .top ts s = some (r, s') →
      Ext s s' ∧ Inv S (exec S n) p s' ∧ ∀ vs, r = .ok vs →
        ∃ x, (∀ s0, evals S n (.alone (S.intp p)) ts s0 = lift x s0) ∧
          DenL S (exec S n) p s' vs (x.map Prod.fst)
  | [], s, r, s', ht, hi, e => by
    simp only [evals, Option.some.injEq, Prod.mk.injEq] at e
    obtain ⟨e1, e2⟩ := e
    subst e2
    refine ⟨Ext.refl s, hi, ?_⟩
    intro w hw
    rw [← e1] at hw
    cases hw
    refine ⟨some (.ok [], []), fun s0 => by simp [evals, lift], ?_⟩
    intro s'' _ _
    rfl
  | t :: ts, s, r, s', ht, hi, e => by
    simp only [evals] at e
    cases h1 : eval S n .top t s with
    | none => rw [h1] at e; cases e
    | some y =>
      obtain ⟨y, s1⟩ := y
      obtain ⟨k1, k2, k3⟩ := eval_main hp hc t s y s1 (ht t List.mem_cons_self) hi h1
      rw [h1] at e
      cases y with
      | error er =>
        simp only [Option.some.injEq, Prod.mk.injEq] at e
        obtain ⟨e1, e2⟩ := e
        subst e2
        refine ⟨k1, k2, ?_⟩
        intro v hv
        rw [← e1] at hv
        cases hv
      | ok v =>
        simp only at e
        cases h2 : evals S n .top ts s1 with
        | none => rw [h2] at e; cases e
        | some z =>
          obtain ⟨z, s2⟩ := z
          obtain ⟨m1, m2, m3⟩ := evals_main hp hc ts s1 z s2
            (fun u hu => ht u (List.mem_cons_of_mem _ hu)) k2 h2
          rw [h2] at e
          cases z with
          | error er =>
            simp only [Option.some.injEq, Prod.mk.injEq] at e
            obtain ⟨e1, e2⟩ := e
            subst e2
            refine ⟨k1.trans m1, m2, ?_⟩
            intro v hv
            rw [← e1] at hv
            cases hv
          | ok vs =>
            simp only [Option.some.injEq, Prod.mk.injEq] at e
            obtain ⟨e1, e2⟩ := e
            subst e2
            refine ⟨k1.trans m1, m2, ?_⟩
            intro w hw
            rw [← e1] at hw
            cases hw
            obtain ⟨x, hx, hd⟩ := k3 v rfl
            obtain ⟨y, hy, hd'⟩ := m3 vs rfl
            have hd := hd.mono m1
            cases x with
            | none =>
              refine ⟨none, fun s0 => by simp only [evals, hx s0, lift, Option.map_none], ?_⟩
              intro s3 h3 h4
              have := hd s3 h3 h4
              simp only [unpackL]
              cases hu : unpack (force S (exec S n) p) v s3 with
              | none => rfl
              | some b => rw [hu] at this; simp at this
            | some a =>
              obtain ⟨a, l⟩ := a
              cases a with
              | error er =>
                refine ⟨some (.error er, l),
                  fun s0 => by simp only [evals, hx s0, lift, Option.map_some], ?_⟩
                intro s3 h3 h4
                have := hd s3 h3 h4
                simp only [unpackL]
                cases hu : unpack (force S (exec S n) p) v s3 with
                | none => rw [hu] at this; simp at this
                | some b =>
                  obtain ⟨b, s4⟩ := b
                  rw [hu] at this
                  simp only [Option.map_some, Option.some.injEq] at this
                  subst this
                  rfl
              | ok v0 =>
                refine ⟨y.map (fun b => (b.1.map (v0 :: ·), l ++ b.2)), ?_, ?_⟩
                · intro s0
                  simp only [evals, hx s0, lift, Option.map_some, hy]
                  cases y with
                  | none => rfl
                  | some b =>
                    obtain ⟨b, l'⟩ := b
                    cases b <;> simp [Except.map]
                · intro s3 h3 h4
                  have := hd s3 h3 h4
                  simp only [unpackL]
                  cases hu : unpack (force S (exec S n) p) v s3 with
                  | none => rw [hu] at this; simp at this
                  | some b =>
                    obtain ⟨b, s4⟩ := b
                    have hk := unpack_keeps (fun r => force_exec_keeps S p n p r) v s3 h4 b s4 hu
                    rw [hu] at this
                    simp only [Option.map_some, Option.some.injEq] at this
                    subst this
                    simp only
                    have h5 := hd' s4 (h3.trans hk.1) hk.2
                    cases hu2 : unpackL (force S (exec S n) p) vs s4 with
                    | none =>
                      rw [hu2] at h5
                      cases y with
                      | none => rfl
                      | some b => simp at h5
                    | some c =>
                      obtain ⟨c, s5⟩ := c
                      rw [hu2] at h5
                      cases y with
                      | none => simp at h5
                      | some b =>
                        obtain ⟨b, l'⟩ := b
                        simp only [Option.map_some, Option.some.injEq] at h5
                        subst h5
                        cases c <;> rfl
termination_by structural t => t

end

end Verif.Product
