import Verif.Product.Independent

/-!
# C27: theorems
-/

namespace Verif.Product

/-- **C27 (partial).** Let the handlers of `i_p` call only operations that `i_p` handles or that no
component handles, and let them neither use `fwd` nor ask for components; the other interpretations are
arbitrary. If the evaluation of a term under the product succeeds, the projection to `p` gives exactly
the outcome, value or exception, of the evaluation of the term under `i_p` alone. -/
theorem C27_independent_partial (S : Sys) (n p : Nat) (t : Tm) (s s' : St) (v : Val)
    (hp : p ∈ S.prompts) (hc : ClosedAt S p) (ht : TmOK S p t) (hs : s.heap = [])
    (e : eval S n .top t s = some (.ok v, s')) :
    (evalProduct S n p t s).map Prod.fst = (evalAlone S n p t s).map Prod.fst := by
  have hi : Inv S (exec S n) p s := by
    intro r pr t h
    rw [hs] at h
    simp at h
  obtain ⟨-, k2, k3⟩ := eval_main hp hc t s _ s' ht hi e
  obtain ⟨x, hx, hd⟩ := k3 v rfl
  have h1 := hd s' (Ext.refl s') k2
  unfold evalProduct evalAlone
  rw [e, hx s]
  simp only
  rw [h1, map_fst_lift]

/-! ## When the evaluation under the product succeeds -/

/-- The arguments of a term. -/
def Tm.children : Tm → List Tm
  | .lit _ => []
  | .tup ts => ts
  | .app _ ts => ts

theorem productLoop_total {S : Sys} {n : Nat} {o : Op} {xs : List Val} :
    ∀ ps acc s, (∀ q ∈ S.prompts, Inv S (exec S n) q s) → (∀ q ∈ ps, q ∈ S.prompts) →
      (∀ q ∈ ps, ∃ ys, DenL S (exec S n) q s xs (some (.ok ys))) →
      ∃ pr s', productLoop S (exec S n) o xs ps acc s = some (.ok pr, s') := by
  intro ps
  induction ps with
  | nil => intro acc s _ _ _; exact ⟨acc, s, rfl⟩
  | cons q ps ih =>
    intro acc s hi hsub hd
    obtain ⟨ys, hy⟩ := hd q List.mem_cons_self
    have h1 := hy s (Ext.refl s) (hi q (hsub q List.mem_cons_self))
    simp only [productLoop]
    cases hu : unpackL (force S (exec S n) q) xs s with
    | none => rw [hu] at h1; simp at h1
    | some b =>
      obtain ⟨b, s1⟩ := b
      rw [hu] at h1
      simp only [Option.map_some, Option.some.injEq] at h1
      subst h1
      simp only
      have hk : ∀ q' ∈ S.prompts, Ext s s1 ∧ Inv S (exec S n) q' s1 := fun q' hq' =>
        unpackL_keeps (fun r => force_exec_keeps S q' n q r) xs s (hi q' hq') _ s1 hu
      refine ih _ s1 (fun q' hq' => (hk q' hq').2) (fun q' h => hsub q' (List.mem_cons_of_mem _ h)) ?_
      intro q' hq'
      obtain ⟨ys', hy'⟩ := hd q' (List.mem_cons_of_mem _ hq')
      have hE := (hk q (hsub q List.mem_cons_self)).1
      exact ⟨ys', fun s2 h2 h3 => hy' s2 (hE.trans h2) h3⟩

theorem productOp_total {S : Sys} {n : Nat} {o : Op} {xs : List Val} {s : St}
    (hi : ∀ q ∈ S.prompts, Inv S (exec S n) q s)
    (hd : ∀ q ∈ S.prompts, ∃ ys, DenL S (exec S n) q s xs (some (.ok ys))) :
    ∃ v s', productOp S (exec S n) o xs s = some (.ok v, s') := by
  obtain ⟨pr, s', h⟩ := productLoop_total (o := o) S.prompts [] s hi (fun _ h => h) hd
  exact ⟨_, _, by unfold productOp; rw [h]; rfl⟩

theorem denL_cons_op {S : Sys} {E : Exec} {q : Nat} {s : St} {xs ys : List Val} (o : Op)
    (h : DenL S E q s xs (some (.ok ys))) : DenL S E q s (.op o :: xs) (some (.ok (.op o :: ys))) := by
  intro s' h1 h2
  have := h s' h1 h2
  simp only [unpackL, unpack, okOut]
  cases hu : unpackL (force S E q) xs s' with
  | none => rw [hu] at this; simp at this
  | some b =>
    obtain ⟨b, s1⟩ := b
    rw [hu] at this
    simp only [Option.map_some, Option.some.injEq] at this
    subst this
    rfl

theorem callTop_total {S : Sys} {n : Nat} {o : Op} {xs : List Val} {s : St}
    (ho : S.handled o = true ∨ S.handled .apply = true)
    (hi : ∀ q ∈ S.prompts, Inv S (exec S n) q s)
    (hd : ∀ q ∈ S.prompts, ∃ ys, DenL S (exec S n) q s xs (some (.ok ys))) :
    ∃ v s', callOp S (exec S n) .top o xs s = some (.ok v, s') := by
  simp only [callOp]
  cases hh : S.handled o with
  | true => simp only [if_true]; exact productOp_total hi hd
  | false =>
    have hha : S.handled .apply = true := by
      rcases ho with h | h
      · rw [hh] at h; cases h
      · exact h
    simp only [Bool.false_eq_true, if_false, hha, if_true]
    refine productOp_total hi ?_
    intro q hq
    obtain ⟨ys, hy⟩ := hd q hq
    exact ⟨.op o :: ys, denL_cons_op o hy⟩

theorem TmOK.children {S : Sys} {p : Nat} {t : Tm} (h : TmOK S p t) :
    ∀ u ∈ t.children, TmOK S p u := by
  cases h with
  | lit v _ => intro u hu; cases hu
  | tup ts h => exact h
  | app o ts _ h => exact h

mutual

theorem alone_eval {S : Sys} {p n : Nat} (hc : ClosedAt S p) :
    ∀ t, ∃ x, ∀ s, eval S n (.alone (S.intp p)) t s = lift x s
  | .lit v => ⟨some (.ok v, []), fun s => by simp [eval, lift, okOut]⟩
  | .tup ts => by
    obtain ⟨x, hx⟩ := alone_evals (n := n) hc ts
    cases x with
    | none => exact ⟨none, fun s => by simp [eval, hx, lift]⟩
    | some a =>
      obtain ⟨a, l⟩ := a
      cases a with
      | ok vs => exact ⟨some (.ok (.tup vs), l), fun s => by simp [eval, hx, lift, okOut]⟩
      | error e => exact ⟨some (.error e, l), fun s => by simp [eval, hx, lift, errOut]⟩
  | .app o ts => by
    obtain ⟨x, hx⟩ := alone_evals (n := n) hc ts
    cases x with
    | none => exact ⟨none, fun s => by simp [eval, hx, lift]⟩
    | some a =>
      obtain ⟨a, l⟩ := a
      cases a with
      | ok vs =>
        obtain ⟨y, hy⟩ := alone_callOp (exec_good hc n) hc o vs
        refine ⟨y.map (fun b => (b.1, l ++ b.2)), fun s => ?_⟩
        simp only [eval, hx, lift, Option.map_some, hy]
        cases y <;> simp
      | error e => exact ⟨some (.error e, l), fun s => by simp [eval, hx, lift, errOut]⟩
termination_by structural t => t

theorem alone_evals {S : Sys} {p n : Nat} (hc : ClosedAt S p) :
    ∀ ts, ∃ x, ∀ s, evals S n (.alone (S.intp p)) ts s = lift x s
  | [] => ⟨some (.ok [], []), fun s => by simp [evals, lift]⟩
  | t :: ts => by
    obtain ⟨x, hx⟩ := alone_eval (n := n) hc t
    cases x with
    | none => exact ⟨none, fun s => by simp [evals, hx, lift]⟩
    | some a =>
      obtain ⟨a, l⟩ := a
      cases a with
      | ok v =>
        obtain ⟨y, hy⟩ := alone_evals (n := n) hc ts
        refine ⟨y.map (fun b => (b.1.map (v :: ·), l ++ b.2)), fun s => ?_⟩
        simp only [evals, hx, lift, Option.map_some, hy]
        cases y with
        | none => rfl
        | some b =>
          obtain ⟨b, l'⟩ := b
          cases b <;> simp [Except.map]
      | error e => exact ⟨some (.error e, l), fun s => by simp [evals, hx, lift]⟩
termination_by structural t => t

end

/-- The alone evaluation succeeds from every state or from none. -/
theorem alone_evals_ok {S : Sys} {p n : Nat} (hc : ClosedAt S p) {ts : List Tm} {s : St} {vs s1}
    (h : evals S n (.alone (S.intp p)) ts s = some (.ok vs, s1)) (s' : St) :
    ∃ vs s1, evals S n (.alone (S.intp p)) ts s' = some (.ok vs, s1) := by
  obtain ⟨x, hx⟩ := alone_evals (n := n) hc ts
  rw [hx s] at h
  rw [hx s']
  cases x with
  | none => cases h
  | some a =>
    simp only [lift, Option.map_some, Option.some.injEq, Prod.mk.injEq] at h
    exact ⟨vs, _, by rw [lift, Option.map_some, h.1]⟩

theorem children_ok {S : Sys} {n : Nat} {m : Mode} {t : Tm} {s : St} {v s1}
    (h : eval S n m t s = some (.ok v, s1)) :
    ∃ vs s1, evals S n m t.children s = some (.ok vs, s1) := by
  cases t with
  | lit v => exact ⟨[], s, rfl⟩
  | tup ts =>
    simp only [eval] at h
    simp only [Tm.children]
    split at h
    · next h1 => exact ⟨_, _, h1⟩
    · simp [errOut] at h
    · cases h
  | app o ts =>
    simp only [eval] at h
    simp only [Tm.children]
    split at h
    · next h1 => exact ⟨_, _, h1⟩
    · simp [errOut] at h
    · cases h

mutual

theorem eval_total {S : Sys} {n : Nat} {q0 : Nat} (hq0 : q0 ∈ S.prompts)
    (hc : ∀ q ∈ S.prompts, ClosedAt S q) :
    ∀ t s, (∀ q ∈ S.prompts, TmOK S q t) → (∀ q ∈ S.prompts, Inv S (exec S n) q s) →
      (∀ q ∈ S.prompts, ∃ vs s1, evals S n (.alone (S.intp q)) t.children s = some (.ok vs, s1)) →
      ∃ v s', eval S n .top t s = some (.ok v, s')
  | .lit v, s, _, _, _ => ⟨v, s, rfl⟩
  | .tup ts, s, ht, hi, ha => by
    obtain ⟨vs, s', h⟩ := evals_total hq0 hc ts s (fun q hq => (ht q hq).children) hi ha
    exact ⟨.tup vs, s', by simp only [eval, h]; rfl⟩
  | .app o ts, s, ht, hi, ha => by
    obtain ⟨vs, s', h⟩ := evals_total hq0 hc ts s (fun q hq => (ht q hq).children) hi ha
    simp only [eval, h]
    refine callTop_total ?_ ?_ ?_
    · cases ht q0 hq0 with
      | app _ _ ho _ => exact ho.1
    · intro q hq
      exact (evals_main hq (hc q hq) ts s _ s' (ht q hq).children (hi q hq) h).2.1
    · intro q hq
      obtain ⟨-, -, k⟩ := evals_main hq (hc q hq) ts s _ s' (ht q hq).children (hi q hq) h
      obtain ⟨x, hx, hd⟩ := k vs rfl
      obtain ⟨ys, s1, hy⟩ := ha q hq
      refine ⟨ys, ?_⟩
      have := hx s
      simp only [Tm.children] at hy
      rw [hy] at this
      cases x with
      | none => simp [lift] at this
      | some a =>
        simp only [lift, Option.map_some, Option.some.injEq, Prod.mk.injEq] at this
        rw [this.1]
        exact hd
termination_by structural t => t

theorem evals_total {S : Sys} {n : Nat} {q0 : Nat} (hq0 : q0 ∈ S.prompts)
    (hc : ∀ q ∈ S.prompts, ClosedAt S q) :
    ∀ ts s, (∀ q ∈ S.prompts, ∀ t ∈ ts, TmOK S q t) → (∀ q ∈ S.prompts, Inv S (exec S n) q s) →
      (∀ q ∈ S.prompts, ∃ vs s1, evals S n (.alone (S.intp q)) ts s = some (.ok vs, s1)) →
      ∃ vs s', evals S n .top ts s = some (.ok vs, s')
  | [], s, _, _, _ => ⟨[], s, rfl⟩
  | t :: ts, s, ht, hi, ha => by
    have ha1 : ∀ q ∈ S.prompts, ∃ v s1, eval S n (.alone (S.intp q)) t s = some (.ok v, s1) ∧
        ∃ vs s2, evals S n (.alone (S.intp q)) ts s1 = some (.ok vs, s2) := by
      intro q hq
      obtain ⟨vs, s1, h⟩ := ha q hq
      simp only [evals] at h
      split at h
      · next v s2 h1 =>
        split at h
        · next h2 => exact ⟨v, s2, h1, _, _, h2⟩
        · next h2 => exact ⟨v, s2, h1, _, _, h⟩
      · simp at h
      · cases h
    obtain ⟨v, s1, h1⟩ := eval_total hq0 hc t s (fun q hq => ht q hq t List.mem_cons_self) hi
      (fun q hq => by
        obtain ⟨v, s1, h, -⟩ := ha1 q hq
        exact children_ok h)
    obtain ⟨vs, s2, h2⟩ := evals_total hq0 hc ts s1
      (fun q hq u hu => ht q hq u (List.mem_cons_of_mem _ hu))
      (fun q hq => (eval_main hq (hc q hq) t s _ s1 (ht q hq t List.mem_cons_self) (hi q hq) h1).2.1)
      (fun q hq => by
        obtain ⟨v, s3, -, vs, s4, h⟩ := ha1 q hq
        exact alone_evals_ok (hc q hq) h s1)
    exact ⟨v :: vs, s2, by simp only [evals, h1, h2]⟩
termination_by structural t => t

end

/-- **C27 (partial).** If moreover all interpretations are of this kind, and evaluating the arguments of
the term succeeds under each interpretation alone, then the evaluation under the product succeeds, and
each projection gives the outcome of the evaluation under that interpretation alone. -/
theorem C27_total_partial (S : Sys) (n : Nat) (t : Tm) (s : St)
    (hc : ∀ q ∈ S.prompts, ClosedAt S q) (ht : ∀ q ∈ S.prompts, TmOK S q t) (hs : s.heap = [])
    (ha : ∀ q ∈ S.prompts, ∃ vs s1,
      evals S n (.alone (S.intp q)) t.children s = some (.ok vs, s1)) :
    ∀ p ∈ S.prompts, (∃ v s', eval S n .top t s = some (.ok v, s')) ∧
      (evalProduct S n p t s).map Prod.fst = (evalAlone S n p t s).map Prod.fst := by
  intro p hp
  obtain ⟨v, s', h⟩ := eval_total hp hc t s ht
    (fun q _ r pr t h => by rw [hs] at h; simp at h) ha
  exact ⟨⟨v, s', h⟩, C27_independent_partial S n p t s s' v hp (hc p hp) (ht p hp) hs h⟩

/-! ## Examples -/

/-- Two interpretations of `f = 0` and `g = 1`: the first adds, the second asks for the first. -/
def exSys : Sys where
  prompts := [1, 2]
  intp := fun p o =>
    match p, o with
    | 1, .base 0 => some (fun _ => .ret (.int 3))
    | 1, .base 1 => some (fun xs => match xs with
      | [.int a, .int b] => .tick 7 (.ret (.int (a + b)))
      | _ => .raise (.user 0))
    | 2, .base 1 => some (fun xs => .need 1 (fun _ => .ret (.tup xs)))
    | _, _ => none
  dflt := fun _ _ => .raise .notHandled

def s0 : St := ⟨[], []⟩

/-- `g(f(), g(f(), 4))`. -/
def exTm : Tm :=
  .app (.base 1) [.app (.base 0) [], .app (.base 1) [.app (.base 0) [], .lit (.int 4)]]

example : (evalAlone exSys 9 1 exTm s0).map Prod.fst = some (.ok (.int 10)) := by rfl
example : (evalProduct exSys 9 1 exTm s0).map Prod.fst = some (.ok (.int 10)) := by rfl
example : ClosedAt exSys 1 := by
  constructor
  · intro o h e xs
    unfold exSys at e
    simp only at e
    split at e
    · cases e; exact .ret _
    · cases e
      simp only
      split
      · exact .tick _ _ (.ret _)
      · exact .raise _
    · omega
    · cases e
  · intro o xs; exact .raise _
example : TmOK exSys 1 exTm := by
  have h0 : OpOK exSys 1 (.base 0) := ⟨.inl rfl, fun _ _ => rfl⟩
  have h1 : OpOK exSys 1 (.base 1) := ⟨.inl rfl, fun _ _ => rfl⟩
  refine .app _ _ h1 ?_
  intro t ht
  simp only [List.mem_cons, List.not_mem_nil, or_false] at ht
  rcases ht with rfl | rfl
  · exact .app _ _ h0 (by simp)
  · refine .app _ _ h1 ?_
    intro t ht
    simp only [List.mem_cons, List.not_mem_nil, or_false] at ht
    rcases ht with rfl | rfl
    · exact .app _ _ h0 (by simp)
    · exact .lit _ rfl

/-! ## What fails -/

/-- A system with the given handlers of components 1 and 2. -/
def two (i1 i2 : Intp) (d : Nat → List Val → Prog) : Sys where
  prompts := [1, 2]
  intp := fun p => if p = 1 then i1 else i2
  dflt := fun o xs => match o with
    | .base n => d n xs
    | _ => .raise .notHandled

def only (o : Op) (h : List Val → Prog) : Intp := fun o' => if o' = o then some h else none

/-- Return the outcome. -/
def done : Res → Prog
  | .ok v => .ret v
  | .error e => .raise e

/-- **C27 fails** when a handler of `i_1` calls an operation that only `i_2` handles: alone, its default
rule is used; in the product, the call gives a term of an internal copy of the operation. -/
theorem C27_default_rule_fails :
    ∃ S t, (evalAlone S 9 1 t s0).map Prod.fst = some (.ok (.int 7)) ∧
      (evalProduct S 9 1 t s0).map Prod.fst = some (.ok (.term (.ren 1 (.base 1)) [])) :=
  ⟨two (only (.base 0) (fun _ => .call (.base 1) [] done)) (only (.base 1) (fun _ => .ret (.int 0)))
    (fun _ _ => .ret (.int 7)), .app (.base 0) [], rfl, rfl⟩

/-- **C27 fails** when a handler of `i_1` uses `fwd`: alone, this runs the default rule of the operation;
in the product, it gives a term of an internal copy of the operation. -/
theorem C27_fwd_fails :
    ∃ S t, (evalAlone S 9 1 t s0).map Prod.fst = some (.ok (.int 7)) ∧
      (evalProduct S 9 1 t s0).map Prod.fst = some (.ok (.term (.ren 1 (.base 0)) [])) :=
  ⟨two (only (.base 0) (fun xs => .fwd xs done)) (only (.base 1) (fun _ => .ret (.int 0)))
    (fun _ _ => .ret (.int 7)), .app (.base 0) [], rfl, rfl⟩

/-- **C27 fails** when a handler of `apply` of `i_1` uses `fwd`: the result is a term of an internal copy of `apply`. -/
theorem C27_fwd_apply_fails :
    ∃ S t, (evalAlone S 9 1 t s0).map Prod.fst = some (.ok (.int 7)) ∧
      (evalProduct S 9 1 t s0).map Prod.fst = some (.ok (.term (.ren 1 .apply) [.op (.ren 1 (.base 0))])) :=
  ⟨two (only .apply (fun xs => .fwd xs done)) (only (.base 0) (fun _ => .ret (.int 0)))
    (fun _ _ => .ret (.int 7)), .app (.base 0) [], rfl, rfl⟩

/-- **C27 fails** when `i_1` handles `apply` and `i_2` handles the operation: the `apply` handler is not
given the operation but an internal copy of it. -/
theorem C27_apply_operation_fails :
    ∃ S t, (evalAlone S 9 1 t s0).map Prod.fst = some (.ok (.tup [.op (.base 0)])) ∧
      (evalProduct S 9 1 t s0).map Prod.fst = some (.ok (.tup [.op (.ren 1 (.base 0))])) :=
  ⟨two (only .apply (fun xs => .ret (.tup xs))) (only (.base 0) (fun _ => .ret (.int 0)))
    (fun _ _ => .raise .notHandled), .app (.base 0) [], rfl, rfl⟩

/-- **C27 fails** when another component handles `apply`: a call, inside component 1, of an operation
without handler in `i_1` recurses for ever. -/
theorem C27_recursion_fails :
    ∃ S t, (evalAlone S 9 1 t s0).map Prod.fst = some (.ok (.int 7)) ∧
      (evalProduct S 9 1 t s0).map Prod.fst = some (.error .recursion) :=
  ⟨two (only (.base 0) (fun _ => .call (.base 1) [] done)) (only .apply (fun _ => .ret (.int 0)))
    (fun _ _ => .ret (.int 7)), .app (.base 0) [], rfl, rfl⟩

/-- **C27 fails** when another component raises on an argument: the arguments are computed for all
components, so the evaluation under the product raises. -/
theorem C27_other_failure_fails :
    ∃ S t, (evalAlone S 9 1 t s0).map Prod.fst = some (.ok (.int 7)) ∧
      (eval S 9 .top t s0).map Prod.fst = some (.error (.user 5)) :=
  ⟨two (only (.base 0) (fun _ => .ret (.int 7))) (only (.base 0) (fun _ => .raise (.user 5)))
    (fun _ _ => .raise .notHandled), .app (.base 0) [.app (.base 0) []], rfl, rfl⟩

/-- **C27 fails** for operations that no component handles: their default rule is given the product
itself as argument. -/
theorem C27_unhandled_fails :
    ∃ S t, (evalAlone S 9 1 t s0).map Prod.fst = some (.ok (.term (.base 1) [.int 7])) ∧
      (evalProduct S 9 1 t s0).map Prod.fst = some (.ok (.term (.base 1) [.prod 0])) :=
  ⟨two (only (.base 0) (fun _ => .ret (.int 7))) (only (.base 0) (fun _ => .ret (.int 0)))
    (fun _ _ => .raise .notHandled), .app (.base 1) [.app (.base 0) []], rfl, rfl⟩

/-- **C27 fails** for the order of effects of one component: evaluating `h(f(), g(k()))` alone runs `f`,
`k`, `g`, `h`; in the product `k` runs before `f`. -/
theorem C27_effect_order_fails :
    ∃ S t, (evalAlone S 9 1 t s0).map (·.2.log) = some [1, 2, 3, 4] ∧
      (evalProduct S 9 1 t s0).map (·.2.log) = some [2, 1, 3, 4] :=
  ⟨two (fun o => match o with
      | .base n => some (fun _ => .tick n (.ret (.int 0)))
      | _ => none) (fun _ => none) (fun _ _ => .raise .notHandled),
    .app (.base 4) [.app (.base 1) [], .app (.base 3) [.app (.base 2) []]], rfl, rfl⟩

/-! ### The hypotheses of `C27_total_partial` hold for two analyses of one operation -/

def exTwo : Sys :=
  two (only (.base 0) (fun xs => .ret (.tup xs))) (only (.base 0) (fun _ => .ret (.int 4)))
    (fun _ _ => .raise .notHandled)

theorem exTwo_closed (q : Nat) : ClosedAt exTwo q := by
  constructor
  · intro o h e xs
    unfold exTwo two only at e
    simp only at e
    split at e
    · simp only at e
      split at e
      · cases e; exact .ret _
      · cases e
    · simp only at e
      split at e
      · cases e; exact .ret _
      · cases e
  · intro o xs
    unfold exTwo two
    simp only
    split <;> exact .raise _

example : ∀ p ∈ exTwo.prompts,
    (evalProduct exTwo 3 p (.app (.base 0) [.app (.base 0) []]) s0).map Prod.fst =
      (evalAlone exTwo 3 p (.app (.base 0) [.app (.base 0) []]) s0).map Prod.fst := by
  intro p hp
  have ho : ∀ q, OpOK exTwo q (.base 0) := by
    intro q
    refine ⟨.inl rfl, fun _ _ => ?_⟩
    unfold exTwo two only
    simp only
    split <;> rfl
  refine (C27_total_partial exTwo 3 _ s0 (fun q _ => exTwo_closed q) (fun q _ => ?_) rfl ?_ p hp).2
  · refine .app _ _ (ho q) ?_
    intro t ht
    simp only [List.mem_cons, List.not_mem_nil, or_false] at ht
    subst ht
    exact .app _ _ (ho q) (by simp)
  · intro q hq
    have : q = 1 ∨ q = 2 := by simpa [exTwo, two] using hq
    rcases this with rfl | rfl
    · exact ⟨_, _, rfl⟩
    · exact ⟨_, _, rfl⟩

end Verif.Product
