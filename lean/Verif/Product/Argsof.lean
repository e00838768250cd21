import Verif.Product.C27

/-!
# C29: `argsof`
-/

namespace Verif.Product

/-- Some prompt does not occur in the heap. -/
theorem fresh_inv (S : Sys) (E : Exec) (s : St) : ∃ p, Inv S E p s := by
  have hb : ∀ pr : Prod, ∃ b, ∀ t ∈ pr, t.prompt < b := by
    intro pr
    induction pr with
    | nil => exact ⟨0, fun t h => by cases h⟩
    | cons a as ih =>
      obtain ⟨b, hb⟩ := ih
      refine ⟨max b (a.prompt + 1), fun t ht => ?_⟩
      rcases List.mem_cons.1 ht with h | h
      · subst h; omega
      · have := hb t h; omega
  have hh : ∀ h : List Prod, ∃ b, ∀ pr ∈ h, ∀ t ∈ pr, t.prompt < b := by
    intro h
    induction h with
    | nil => exact ⟨0, fun t h => by cases h⟩
    | cons a as ih =>
      obtain ⟨b, hb'⟩ := ih
      obtain ⟨c, hc⟩ := hb a
      refine ⟨max b c, fun pr hpr t ht => ?_⟩
      rcases List.mem_cons.1 hpr with h | h
      · subst h; have := hc t ht; omega
      · have := hb' pr h t ht; omega
  obtain ⟨b, hb⟩ := hh s.heap
  refine ⟨b, fun r pr t h ht hp => ?_⟩
  have := hb pr (List.mem_of_getElem? h) t ht
  omega

/-- The component of `p` in a new product is made from the arguments of the call, unpacked for `p`. -/
theorem productOp_thunk {S : Sys} {n p : Nat} {o : Op} {xs : List Val} {s s' : St} {v : Val}
    (hp : p ∈ S.prompts) (e : productOp S (exec S n) o xs s = some (.ok v, s')) :
    ∃ r pr ys s1 s2, v = .prod r ∧ s'.heap[r]? = some pr ∧ Ext s s1 ∧
      unpackL (force S (exec S n) p) xs s1 = some (.ok ys, s2) ∧
      findThunk p pr = some (mkThunk S o p ys) := by
  obtain ⟨p0, hi⟩ := fresh_inv S (exec S n) s
  unfold productOp at e
  cases h1 : productLoop S (exec S n) o xs S.prompts [] s with
  | none => rw [h1] at e; cases e
  | some y =>
    obtain ⟨y, s1⟩ := y
    rw [h1] at e
    obtain ⟨-, -, k3⟩ := productLoop_spec (p := p0) _ _ _ _ _ hi h1
    cases y with
    | error er => simp [errOut] at e
    | ok pr =>
      simp only [okOut, Option.some.injEq, Prod.mk.injEq, Except.ok.injEq] at e
      obtain ⟨a, -, c⟩ := k3 pr rfl
      obtain ⟨t, ht⟩ := findThunk_some (c p hp)
      obtain ⟨hm, hpt⟩ := findThunk_mem ht
      rcases a t hm with h | ⟨q, hq, ys, s2, s3, h2, h3, h4, h5⟩
      · cases h
      · have hqp : q = p := by rw [← hpt, h2, mkThunk_prompt]
        subst hqp
        exact ⟨_, pr, ys, s2, s3, e.1.symm, by rw [← e.2]; simp, h3, h5, h2 ▸ ht⟩

/-- `argsof(p)` in any component of product `r`, at any later time. -/
def ArgsOf (S : Sys) (p : Nat) (v : Val) (s : St) (ys : List Val) : Prop :=
  ∃ r, v = .prod r ∧ ∀ s', Ext s s' → ∀ n q fw k,
    exec S (n + 1) (.comp r q) fw (.argsof p k) s' = exec S n (.comp r q) fw (k (.ok (.tup ys))) s'

theorem argsOf_of {S : Sys} {p r : Nat} {pr : Prod} {t : Thunk} {s : St}
    (h : s.heap[r]? = some pr) (ht : findThunk p pr = some t) :
    ArgsOf S p (.prod r) s (match t.kind with
      | .viaApply => t.args.drop 2
      | _ => t.args) := by
  refine ⟨r, rfl, ?_⟩
  intro s' hE n q fw k
  obtain ⟨pr', h1, h2⟩ := hE r pr h
  have h3 := findThunk_erase (p := p) h2
  rw [ht] at h3
  cases h4 : findThunk p pr' with
  | none => rw [h4] at h3; cases h3
  | some t' =>
    rw [h4] at h3
    simp only [Option.map_some, Option.some.injEq] at h3
    have hk : t'.kind = t.kind := by have := congrArg Thunk.kind h3; exact this
    have ha : t'.args = t.args := by have := congrArg Thunk.args h3; exact this
    simp only [exec, h1, argsOf, h4, hk, ha]
    cases t.kind <;> rfl

/-- **C29 (partial).** If component `p` handles the operation itself, or handles neither it nor `apply`,
then `argsof(p)` gives the arguments of the call as seen by `p`, in every component and at any time. -/
theorem C29_direct_partial (S : Sys) (n p : Nat) (o : Op) (xs : List Val) (s s' : St) (v : Val)
    (hp : p ∈ S.prompts) (hk : (S.intp p o).isSome ∨ S.intp p .apply = none)
    (e : productOp S (exec S n) o xs s = some (.ok v, s')) :
    ∃ ys s1 s2, Ext s s1 ∧ unpackL (force S (exec S n) p) xs s1 = some (.ok ys, s2) ∧
      ArgsOf S p v s' ys := by
  obtain ⟨r, pr, ys, s1, s2, rfl, h1, h2, h3, h4⟩ := productOp_thunk hp e
  refine ⟨ys, s1, s2, h2, h3, ?_⟩
  have := argsOf_of (S := S) h1 h4
  unfold mkThunk at this
  cases hi : S.intp p o with
  | some h => simpa [hi] using this
  | none =>
    have ha : S.intp p .apply = none := by
      rcases hk with hk | hk
      · rw [hi] at hk; cases hk
      · exact hk
    simpa [hi, ha] using this

/-- **C29 (partial).** If component `p` handles the operation by its `apply` handler, `argsof(p)` gives the
arguments of the call as seen by `p` without the first one. -/
theorem C29_apply_partial (S : Sys) (n p : Nat) (o : Op) (xs : List Val) (s s' : St) (v : Val)
    (hp : p ∈ S.prompts) (h0 : S.intp p o = none) (ha : (S.intp p .apply).isSome)
    (e : productOp S (exec S n) o xs s = some (.ok v, s')) :
    ∃ ys s1 s2, Ext s s1 ∧ unpackL (force S (exec S n) p) xs s1 = some (.ok ys, s2) ∧
      ArgsOf S p v s' ys.tail := by
  obtain ⟨r, pr, ys, s1, s2, rfl, h1, h2, h3, h4⟩ := productOp_thunk hp e
  refine ⟨ys, s1, s2, h2, h3, ?_⟩
  have := argsOf_of (S := S) h1 h4
  unfold mkThunk at this
  simpa [h0, ha] using this

/-- Component 1 is an analysis by `apply`; component 2 returns `argsof(1)` for `f`. -/
def argsSys : Sys :=
  two (only .apply (fun xs => .ret (.tup xs))) (only (.base 0) (fun _ => .argsof 1 done))
    (fun _ _ => .raise .notHandled)

/-- **C29 fails** for an analysis given by an `apply` handler: in `f(10, 20)`, `argsof(1)` is `(20,)`. -/
theorem C29_apply_fails :
    (evalProduct argsSys 9 2 (.app (.base 0) [.lit (.int 10), .lit (.int 20)]) s0).map Prod.fst
      = some (.ok (.tup [.int 20])) := by rfl

/-- **C29 fails** if no component handles the operation itself: `argsof(1)` then contains the operation
in front of the arguments. -/
theorem C29_operation_included_fails :
    ∃ S, (evalProduct S 9 2 (.app (.base 0) [.lit (.int 10)]) s0).map Prod.fst
      = some (.ok (.tup [.op (.base 0), .int 10])) :=
  ⟨two (only .apply (fun xs => .ret (.tup xs))) (only .apply (fun _ => .argsof 1 done))
    (fun _ _ => .raise .notHandled), rfl⟩

/-- **C29 fails** in a handler that is called by a handler: in `f(10)`, whose handler calls `g(20)`, the
handler of `g` gets `argsof(1) = (10,)`. -/
theorem C29_nested_fails :
    ∃ S, (evalProduct S 9 1 (.app (.base 0) [.lit (.int 10)]) s0).map Prod.fst
      = some (.ok (.tup [.int 10])) ∧
      S.intp 1 (.base 0) = some (fun _ => .call (.base 1) [.int 20] done) ∧
      S.intp 1 (.base 1) = some (fun _ => .argsof 1 done) :=
  ⟨two (fun o => match o with
      | .base 0 => some (fun _ => .call (.base 1) [.int 20] done)
      | .base 1 => some (fun _ => .argsof 1 done)
      | _ => none) (fun _ => none) (fun _ _ => .raise .notHandled), rfl, rfl, rfl⟩

/-- In `f(10, 20)` with a component that handles `f` itself, `argsof` is right. -/
example : ∃ S : Sys, (evalProduct S 9 2 (.app (.base 0) [.lit (.int 10), .lit (.int 20)]) s0).map
    Prod.fst = some (.ok (.tup [.int 10, .int 20])) :=
  ⟨two (only (.base 0) (fun _ => .ret (.int 1))) (only (.base 0) (fun _ => .argsof 1 done))
    (fun _ _ => .raise .notHandled), rfl⟩

end Verif.Product
