import Verif.Runtime.Props

/-! # Properties of the runtime: C08, C09, C11 -/

namespace Verif.Runtime

variable {W : Type}

/-! ## One-step facts about `Runs` -/

theorem runs_op_some {Δ : Defaults W} {I : Intp W} {o : Op} {c : Clo W} {args : List Val}
    (h : I.get o = some c) (w : W) (r : Out) (w' : W) :
    Runs Δ (.op o args) ⟨I, w⟩ r ⟨I, w'⟩ ↔
      Runs Δ (.clo c args) ⟨coproduct I [(.fwd, restoreArgs (.dflt o))], w⟩ r
        ⟨coproduct I [(.fwd, restoreArgs (.dflt o))], w'⟩ := by
  constructor
  · rintro ⟨n, hr⟩
    cases n with
    | zero => simp [run] at hr
    | succ n =>
      rw [run] at hr
      simp only [h] at hr
      obtain ⟨s2, h2, e⟩ := withInterp_some hr
      have := run_intp h2
      refine ⟨n, ?_⟩
      rw [h2, this]
      cases e
      rfl
  · rintro ⟨n, hr⟩
    refine ⟨n + 1, ?_⟩
    rw [run]
    simp only [h]
    exact withInterp_intro hr

theorem runs_op_none {Δ : Defaults W} {s : St W} {o : Op} {args : List Val}
    (h : s.intp.get o = none) (hs : isSelfApply o args = false) (r : Out) (s' : St W) :
    Runs Δ (.op o args) s r s' ↔ Runs Δ (.op (.usr (.apply o.cls)) (.op o :: args)) s r s' := by
  constructor
  · rintro ⟨n, hr⟩
    cases n with
    | zero => simp [run] at hr
    | succ n =>
      rw [run] at hr
      simp only [h, hs, Bool.false_eq_true, if_false] at hr
      exact ⟨n, hr⟩
  · rintro ⟨n, hr⟩
    refine ⟨n + 1, ?_⟩
    rw [run]
    simp only [h, hs, Bool.false_eq_true, if_false]
    exact hr

theorem runs_op_self {Δ : Defaults W} {s : St W} {o : Op} {args : List Val}
    (h : s.intp.get o = none) (hs : isSelfApply o args = true) (r : Out) (s' : St W) :
    Runs Δ (.op o args) s r s' ↔ Runs Δ (.dfltRaw o args) s r s' := by
  constructor
  · rintro ⟨n, hr⟩
    cases n with
    | zero => simp [run] at hr
    | succ n =>
      rw [run] at hr
      simp only [h, hs, if_true] at hr
      exact ⟨n, hr⟩
  · rintro ⟨n, hr⟩
    refine ⟨n + 1, ?_⟩
    rw [run]
    simp only [h, hs, if_true]
    exact hr

/-- What `__default_rule__` makes of the outcome of the default: `NotHandled` becomes the
term. -/
def orTerm (o : Op) (args : List Val) : Out → Out
  | .error .notHandled => .ok (.term o args)
  | r => r

theorem runs_dfltRule {Δ : Defaults W} {s : St W} {o : Op} {args : List Val} (r : Out)
    (s' : St W) :
    Runs Δ (.dfltRule o args) s r s' ↔
      ∃ r₁, Runs Δ (.dfltRaw o args) s r₁ s' ∧ r = orTerm o args r₁ := by
  constructor
  · rintro ⟨n, hr⟩
    cases n with
    | zero => simp [run] at hr
    | succ n =>
      rw [run] at hr
      split at hr
      · cases hr
      · rename_i s1 h1
        cases hr
        exact ⟨_, ⟨n, h1⟩, rfl⟩
      · rename_i r1 s1 hne h1
        cases hr
        refine ⟨r, ⟨n, h1⟩, ?_⟩
        unfold orTerm
        split
        · exact absurd rfl hne
        · rfl
  · rintro ⟨r1, ⟨n, h1⟩, rfl⟩
    refine ⟨n + 1, ?_⟩
    rw [run, h1]
    cases r1 with
    | ok v => rfl
    | error e => cases e <;> rfl

theorem runs_raw_apply {Δ : Defaults W} {s : St W} {o : Op} {args : List Val} (r : Out)
    (s' : St W) :
    Runs Δ (.dfltRaw (.usr (.apply .base)) (.op o :: args)) s r s' ↔
      Runs Δ (.dfltRule o args) s r s' := by
  constructor
  · rintro ⟨n, hr⟩
    cases n with
    | zero => simp [run] at hr
    | succ n => rw [run] at hr; exact ⟨n, hr⟩
  · rintro ⟨n, hr⟩
    exact ⟨n + 1, by rw [run]; exact hr⟩

theorem runs_raw_sub {Δ : Defaults W} {s : St W} {m : Nat} {p : Cls} {args : List Val} (r : Out)
    (s' : St W) :
    Runs Δ (.dfltRaw (.usr (.apply (.sub m p))) args) s r s' ↔
      Runs Δ (.op (.usr (.apply p)) args) s r s' := by
  constructor
  · rintro ⟨n, hr⟩
    cases n with
    | zero => simp [run] at hr
    | succ n => rw [run] at hr; exact ⟨n, hr⟩
  · rintro ⟨n, hr⟩
    exact ⟨n + 1, by rw [run]; exact hr⟩

theorem runs_raw_user {Δ : Defaults W} {s : St W} {c : Cls} {m : Nat} {args : List Val} (r : Out)
    (s' : St W) :
    Runs Δ (.dfltRaw (.usr (.user c m)) args) s r s' ↔ Runs Δ (.prog (Δ c m args)) s r s' := by
  constructor
  · rintro ⟨n, hr⟩
    cases n with
    | zero => simp [run] at hr
    | succ n => rw [run] at hr; exact ⟨n, hr⟩
  · rintro ⟨n, hr⟩
    exact ⟨n + 1, by rw [run]; exact hr⟩

theorem runs_raw_fwd {Δ : Defaults W} {s : St W} {args : List Val} (r : Out)
    (s' : St W) :
    Runs Δ (.dfltRaw .fwd args) s r s' ↔ r = .error .runtimeError ∧ s' = s := by
  constructor
  · rintro ⟨n, hr⟩
    cases n with
    | zero => simp [run] at hr
    | succ n => rw [run] at hr; cases hr; exact ⟨rfl, rfl⟩
  · rintro ⟨rfl, rfl⟩
    exact ⟨1, rfl⟩

theorem dfltRule_not_notHandled {Δ : Defaults W} {s : St W} {o : Op} {args : List Val} {r : Out}
    {s' : St W} (h : Runs Δ (.dfltRule o args) s r s') : r ≠ .error .notHandled := by
  rw [runs_dfltRule] at h
  obtain ⟨r1, _, rfl⟩ := h
  intro e
  unfold orTerm at e
  split at e
  · cases e
  · rename_i hne
    exact hne e

/-! ## C08 -/

/-- C08: with no handler running (`fwd` unbound) and `apply` unhandled, `fwd` raises
`RuntimeError` and has no effect. -/
theorem C08_fwd_outside (Δ : Defaults W) (I : Intp W) (hf : I.get .fwd = none)
    (ha : I.get (.usr (.apply .base)) = none) (args : List Val) (w : W) (r : Out) (s' : St W) :
    Runs Δ (.op .fwd args) ⟨I, w⟩ r s' ↔ r = .error .runtimeError ∧ s' = ⟨I, w⟩ := by
  have h1 : isSelfApply .fwd args = false := by
    unfold isSelfApply; split <;> simp
  rw [runs_op_none hf h1, runs_op_self ha (by simp [isSelfApply, Op.cls])]
  show Runs Δ (.dfltRaw (.usr (.apply .base)) _) _ _ _ ↔ _
  rw [runs_raw_apply, runs_dfltRule]
  constructor
  · rintro ⟨r1, h, rfl⟩
    rw [runs_raw_fwd] at h
    exact ⟨by rw [h.1]; rfl, h.2⟩
  · rintro ⟨rfl, rfl⟩
    exact ⟨_, (runs_raw_fwd _ _).2 ⟨rfl, rfl⟩, rfl⟩

/-- `with handler(i):` for each interpretation in turn. -/
def blocks : List (IExpr W) → Prog W → Prog W
  | [], p => p
  | i :: is, p => .handle i (blocks is p) .ofOut

theorem runs_ofOut {Δ : Defaults W} (r : Out) (s : St W) (r' : Out) (s' : St W) :
    Runs Δ (.prog (.ofOut r)) s r' s' ↔ r' = r ∧ s' = s := by
  constructor
  · rintro ⟨n, h⟩
    cases n with
    | zero => simp [run] at h
    | succ n => cases r <;> (simp [Prog.ofOut, run] at h; exact ⟨h.1.symm, h.2.symm⟩)
  · rintro ⟨rfl, rfl⟩
    exact ⟨1, by cases r' <;> rfl⟩

/-- C08: inside any number of `with handler` blocks, but outside a handler, `fwd` raises
`RuntimeError` (unless one of the blocks handles `apply`). -/
theorem C08_fwd_in_blocks (Δ : Defaults W) (is : List (IExpr W))
    (ha : ∀ i ∈ is, i.compile.get (.usr (.apply .base)) = none)
    (args : List Val) (w : W) (r : Out) (s' : St W) :
    Runs Δ (.prog (blocks is (.fwd args .ofOut))) ⟨[], w⟩ r s' ↔
      r = .error .runtimeError ∧ s' = ⟨[], w⟩ := by
  have H : ∀ (is : List (IExpr W)), (∀ i ∈ is, i.compile.get (.usr (.apply .base)) = none) →
      ∀ (I : Intp W), I.get .fwd = none → I.get (.usr (.apply .base)) = none → ∀ r s',
      (Runs Δ (.prog (blocks is (.fwd args .ofOut))) ⟨I, w⟩ r s' ↔
        r = .error .runtimeError ∧ s' = ⟨I, w⟩) := by
    intro is
    induction is with
    | nil =>
      intro _ I hf ha r s'
      constructor
      · rintro ⟨n, h⟩
        cases n with
        | zero => simp [run] at h
        | succ n =>
          simp only [blocks] at h
          rw [run] at h
          split at h
          · cases h
          · rename_i r1 s1 h1
            have e1 := (C08_fwd_outside Δ I hf ha args w r1 s1).1 ⟨n, h1⟩
            have e2 := (runs_ofOut r1 s1 r s').1 ⟨n, h⟩
            exact ⟨e2.1.trans e1.1, e2.2.trans e1.2⟩
      · rintro ⟨rfl, rfl⟩
        obtain ⟨n, hn⟩ := (C08_fwd_outside Δ I hf ha args w _ _).2 ⟨rfl, rfl⟩
        obtain ⟨m, hm⟩ := (runs_ofOut (Δ := Δ) (.error .runtimeError) ⟨I, w⟩ _ _).2 ⟨rfl, rfl⟩
        refine ⟨max n m + 1, ?_⟩
        simp only [blocks]
        rw [run, run_mono (Nat.le_max_left n m) hn]
        exact run_mono (Nat.le_max_right n m) hm
    | cons i is ih =>
      intro hi I hf ha r s'
      simp only [blocks]
      rw [C01_after_handler_block]
      have hf' : (coproduct I i.compile).get .fwd = none := by
        rw [get_coproduct _ _ _ (nodup_compile i), (compile_special i).1]; exact hf
      have ha' : (coproduct I i.compile).get (.usr (.apply .base)) = none := by
        rw [get_coproduct _ _ _ (nodup_compile i), hi i (by simp)]; exact ha
      have ih' := ih (fun j hj => hi j (by simp [hj])) _ hf' ha'
      constructor
      · rintro ⟨r1, w1, h1, h2⟩
        have e1 := (ih' _ _).1 h1
        have e2 := (runs_ofOut _ _ _ _).1 h2
        have e3 : w1 = w := by have := e1.2; simp at this; exact this
        exact ⟨e2.1.trans e1.1, by rw [e2.2, e3]⟩
      · rintro ⟨rfl, rfl⟩
        exact ⟨_, w, (ih' _ _).2 ⟨rfl, rfl⟩, (runs_ofOut _ _ _ _).2 ⟨rfl, rfl⟩⟩
  exact H is ha [] rfl rfl r s'

/-- C08, example: a block whose handler calls `fwd` legitimately; outside it the hypotheses
hold. -/
example : ∀ i ∈ [IExpr.bind .nil opF (logFwd 1), .bind .nil opG (logFwd 2)],
    i.compile.get (.usr (.apply .base)) = none := by
  intro i hi
  simp only [List.mem_cons, List.not_mem_nil, or_false] at hi
  rcases hi with rfl | rfl <;> rfl

/-- C08: in the default rule in which a chain of handlers of an operation ends, `fwd` raises
`RuntimeError`; the chain is not restarted.  (`args`: what the last handler forwards; `a`: its
current arguments; `x`: what the default passes to `fwd`.) -/
theorem C08_fwd_in_default (Δ : Defaults W) (I : Intp W) (Γ : Ctx W) (hR : Rel I Γ) (c : Cls)
    (m : Nat) (args a x : List Val) (k : Out → Prog W)
    (hk : Γ.kont = some ⟨.usr (.user c m), []⟩) (ha : Γ.args = some a)
    (hΔ : Δ c m (if args = [] then a else args) = .fwd x k) (w : W) (r : Out) (w' : W) :
    Runs Δ (.op .fwd args) ⟨I, w⟩ r ⟨I, w'⟩ ↔
      ∃ r₁, SRun Δ { Γ with kont := some ⟨.fwd, []⟩ } (.prog (k (.error .runtimeError))) w r₁ w' ∧
        r = orTerm (.usr (.user c m)) (if args = [] then a else args) r₁ := by
  have himp : ∀ (Γ : Ctx W) (ha : Γ.args = some a) (y z : List Val) w1,
      SRun Δ Γ (.implicit y) w (.ok (.tup z)) w1 → z = (if y = [] then a else y) ∧ w1 = w := by
    intro Γ ha y z w1 h
    cases h with
    | implGiven h => exact ⟨by simp [h], rfl⟩
    | implCurrent h => rw [ha] at h; cases h; exact ⟨rfl, rfl⟩
    | implNone h => rw [ha] at h; cases h
    | implAsked h => rw [ha] at h; cases h
  have himp' : ∀ (Γ : Ctx W) (ha : Γ.args = some a) (y : List Val),
      SRun Δ Γ (.implicit y) w (.ok (.tup (if y = [] then a else y))) w := by
    intro Γ ha y
    by_cases h : y = []
    · subst h; exact .implCurrent ha
    · simp only [h, if_false]; exact .implGiven h
  -- `fwd` in the default
  have hfwd : ∀ w r1 w1, SRun Δ { Γ with kont := some ⟨.fwd, []⟩ } (.fwd x) w r1 w1 →
      r1 = .error .runtimeError ∧ w1 = w := by
    intro w r1 w1 h
    cases h with
    | fwdNullary h => cases h
    | fwdNext h => cases h
    | fwdEnd h h2 h3 =>
      cases h
      have e : ∀ w2, (∃ z, SRun Δ { Γ with kont := some ⟨.fwd, []⟩ } (.implicit x) w (.ok (.tup z)) w2) →
          w2 = w := by
        rintro w2 ⟨z, h⟩
        cases h with
        | implGiven h => rfl
        | implCurrent h => rfl
        | implNone h => rfl
        | implAsked h => simp only [ha] at h; cases h
      have := e _ ⟨_, h2⟩
      subst this
      cases h3 with
      | dflt h3 h4 => cases h3; exact ⟨rfl, rfl⟩
      | dfltTerm h3 => cases h3
    | fwdFail _ _ h => cases h with | implAsked h => simp only [ha] at h; cases h
    | fwdBad _ _ h hv =>
      cases h with
      | implGiven h => exact absurd rfl (hv _)
      | implCurrent h => exact absurd rfl (hv _)
      | implNone h => exact absurd rfl (hv _)
      | implAsked h => simp only [ha] at h; cases h
    | fwdFree h => cases h
  have hfwd' : ∀ w, SRun Δ { Γ with kont := some ⟨.fwd, []⟩ } (.fwd x) w (.error .runtimeError) w := by
    intro w
    by_cases hx : x = []
    · subst hx
      exact .fwdEnd rfl (.implCurrent ha) (.dflt .rawFwd (by intro h; cases h))
    · exact .fwdEnd rfl (.implGiven hx) (.dflt .rawFwd (by intro h; cases h))
  have hinv : ∀ r0 w0 r' , SRun Δ { Γ with kont := some ⟨.fwd, []⟩ }
      (.dfltRaw (.usr (.user c m)) (if args = [] then a else args)) r0 w0 r' →
      SRun Δ { Γ with kont := some ⟨.fwd, []⟩ } (.prog (k (.error .runtimeError))) r0 w0 r' := by
    intro r0 w0 r' h
    cases h with
    | rawUser h =>
      rw [hΔ] at h
      cases h with
      | fwd h1 h2 =>
        obtain ⟨rfl, rfl⟩ := hfwd _ _ _ h1
        exact h2
  constructor
  · rintro ⟨n, h⟩
    have hS := fwd_sim Δ n _ _ (TaskRel.fwd args) I Γ w r _ hR h
    clear h
    cases hS with
    | fwdNullary h => rw [hk] at h; cases h
    | fwdNext h => rw [hk] at h; cases h
    | fwdEnd h h2 h3 =>
      rw [hk] at h; cases h
      obtain ⟨rfl, rfl⟩ := himp Γ ha _ _ _ h2
      cases h3 with
      | dflt h3 h4 =>
        refine ⟨r, hinv _ _ _ h3, ?_⟩
        unfold orTerm; split
        · exact absurd rfl h4
        · rfl
      | dfltTerm h3 => exact ⟨_, hinv _ _ _ h3, rfl⟩
    | fwdFail _ _ h => cases h with | implAsked h => rw [ha] at h; cases h
    | fwdBad _ _ h hv =>
      cases h with
      | implGiven h => exact absurd rfl (hv _)
      | implCurrent h => exact absurd rfl (hv _)
      | implNone h => exact absurd rfl (hv _)
      | implAsked h => rw [ha] at h; cases h
    | fwdFree h => rw [hk] at h; cases h
  · rintro ⟨r1, h, rfl⟩
    have hraw : SRun Δ { Γ with kont := some ⟨.fwd, []⟩ }
        (.dfltRaw (.usr (.user c m)) (if args = [] then a else args)) w r1 w' := by
      refine .rawUser ?_
      rw [hΔ]
      exact .fwd (hfwd' _) h
    refine bwd_sim (.fwdEnd hk (himp' Γ ha args) ?_) I hR
    by_cases h1 : r1 = .error .notHandled
    · subst h1; exact .dfltTerm hraw
    · have : orTerm (.usr (.user c m)) (if args = [] then a else args) r1 = r1 := by
        unfold orTerm; split
        · exact absurd rfl h1
        · rfl
      rw [this]
      exact .dflt hraw h1

/-- C08, example: the default of `opF` calls `fwd`; a handler forwards to it; the caller gets the
`RuntimeError` and the handler ran once. -/
example : ∃ s', Runs (fun _ _ _ => .fwd [] .ofOut)
    (.prog (.handle (.bind .nil opF (logFwd 1)) (.call opF [.int 1] .ofOut) .ofOut)) ⟨[], []⟩
    (.error .runtimeError) s' ∧ s'.world = [1] := ⟨_, ⟨30, rfl⟩, rfl⟩

/-- C08 has a limit: if `apply` is handled, `fwd` outside handlers is given to the handler of
`apply`. -/
theorem C08_fwd_outside_apply_fails : ∃ s', Runs logDefault (.prog (.handle
    (.bind .nil (.apply .base) (.mk false (fun _ => .log 9 (.ret (.int 3)))))
    (.fwd [] .ofOut) .ofOut)) ⟨[], []⟩ (.ok (.int 3)) s' ∧ s'.world = [9] := ⟨_, ⟨30, rfl⟩, rfl⟩

/-- C08 has a second limit: the default of an unhandled operation that is called inside a handler
of another operation sees the `fwd` of that handler: here the default of `opG` forwards to the
default of `opF`. -/
theorem C08_fwd_in_inner_default_fails : ∃ s', Runs
    (fun _ n args => if n = 1 then .fwd [] .ofOut else logDefault .base n args)
    (.prog (.handle (.bind .nil opF (.mk false (fun _ => .call opG [] .ofOut)))
      (.call opF [.int 1, .int 2] .ofOut) .ofOut)) ⟨[], []⟩ (.ok (.int 7)) s' ∧ s'.world = [102] :=
  ⟨_, ⟨30, rfl⟩, rfl⟩

/-! ## C09 -/

/-- Depth of a class below `Operation`. -/
def Cls.depth : Cls → Nat
  | .base => 0
  | .sub _ p => p.depth + 1

/-- C09: an operation without handler, of a class at any depth, runs its default if no `apply` is
handled; if the default raises `NotHandled`, the result is the term. -/
theorem C09_unhandled_runs_default (Δ : Defaults W) (s : St W) (c : Cls) (m : Nat)
    (args : List Val) (ho : s.intp.get (.usr (.user c m)) = none)
    (ha : ∀ c', s.intp.get (.usr (.apply c')) = none) (r : Out) (s' : St W) :
    Runs Δ (.op (.usr (.user c m)) args) s r s' ↔
      ∃ r₁, Runs Δ (.prog (Δ c m args)) s r₁ s' ∧
        r = match r₁ with
          | .error .notHandled => .ok (.term (.usr (.user c m)) args)
          | x => x := by
  have h0 : isSelfApply (.usr (.user c m)) args = false := by
    unfold isSelfApply; split <;> simp
  rw [runs_op_none ho h0, runs_op_self (ha _) (by simp [isSelfApply])]
  have H : ∀ (q : Cls), q.depth ≤ c.depth → ∀ r s',
      (Runs Δ (.dfltRaw (.usr (.apply q)) (.op (.usr (.user c m)) :: args)) s r s' ↔
        Runs Δ (.dfltRule (.usr (.user c m)) args) s r s') := by
    intro q
    induction q with
    | base => intro _ r s'; exact runs_raw_apply r s'
    | sub n q ih =>
      intro hq r s'
      have hne : q ≠ c := by
        rintro rfl
        simp [Cls.depth] at hq
        omega
      rw [runs_raw_sub, runs_op_none (ha q) (by simp [isSelfApply, Op.cls, hne]),
        runs_op_self (ha _) (by simp [isSelfApply, Op.cls])]
      show Runs Δ (.dfltRaw (.usr (.apply .base)) _) s r s' ↔ _
      rw [runs_raw_apply, runs_dfltRule]
      have ih' := ih (by simp [Cls.depth] at hq; omega)
      constructor
      · rintro ⟨r1, h, rfl⟩
        rw [ih'] at h
        have hne := dfltRule_not_notHandled h
        have : orTerm (.usr (.apply q)) (.op (.usr (.user c m)) :: args) r1 = r1 := by
          unfold orTerm; split
          · exact absurd rfl hne
          · rfl
        rw [this]; exact h
      · intro h
        have hne := dfltRule_not_notHandled h
        refine ⟨r, (ih' _ _).2 h, ?_⟩
        unfold orTerm; split
        · exact absurd rfl hne
        · rfl
  rw [show (Op.usr (.user c m)).cls = c from rfl]
  rw [H c (Nat.le_refl _), runs_dfltRule]
  constructor
  · rintro ⟨r1, h, rfl⟩
    rw [runs_raw_user] at h
    exact ⟨r1, h, rfl⟩
  · rintro ⟨r1, h, rfl⟩
    exact ⟨r1, (runs_raw_user _ _).2 h, rfl⟩

/-- C09: a call of a handled operation runs its handler; the handlers of `apply` are not
consulted: replacing the handler of any `apply` by another leads to the same closure and
arguments. -/
theorem C09_handled_ignores_apply (Δ : Defaults W) (I : Intp W) (o : UOp) (h : Clo W)
    (ho : I.get (.usr o) = some h) (c : Cls) (hne : o ≠ .apply c) (g : Clo W)
    (args : List Val) (w : W) (r : Out) (w' : W) :
    (Runs Δ (.op (.usr o) args) ⟨I, w⟩ r ⟨I, w'⟩ ↔
      Runs Δ (.clo h args) ⟨coproduct I [(.fwd, restoreArgs (.dflt (.usr o)))], w⟩ r
        ⟨coproduct I [(.fwd, restoreArgs (.dflt (.usr o)))], w'⟩) ∧
    (Runs Δ (.op (.usr o) args) ⟨I.set (.usr (.apply c)) g, w⟩ r ⟨I.set (.usr (.apply c)) g, w'⟩ ↔
      Runs Δ (.clo h args)
        ⟨coproduct (I.set (.usr (.apply c)) g) [(.fwd, restoreArgs (.dflt (.usr o)))], w⟩ r
        ⟨coproduct (I.set (.usr (.apply c)) g) [(.fwd, restoreArgs (.dflt (.usr o)))], w'⟩) := by
  refine ⟨runs_op_some ho w r w', runs_op_some ?_ w r w'⟩
  rw [get_set, if_neg]
  · exact ho
  · intro e; cases e; exact hne rfl

/-- C09: a handler of the `apply` of the operation's own class is called with the operation and
the arguments. -/
theorem C09_apply_of_own_class (Δ : Defaults W) (I : Intp W) (c : Cls) (m : Nat) (h : Clo W)
    (ho : I.get (.usr (.user c m)) = none) (ha : I.get (.usr (.apply c)) = some h)
    (args : List Val) (w : W) (r : Out) (w' : W) :
    Runs Δ (.op (.usr (.user c m)) args) ⟨I, w⟩ r ⟨I, w'⟩ ↔
      Runs Δ (.clo h (.op (.usr (.user c m)) :: args))
        ⟨coproduct I [(.fwd, restoreArgs (.dflt (.usr (.apply c))))], w⟩ r
        ⟨coproduct I [(.fwd, restoreArgs (.dflt (.usr (.apply c))))], w'⟩ := by
  have h0 : isSelfApply (.usr (.user c m)) args = false := by
    unfold isSelfApply; split <;> simp
  rw [runs_op_none ho h0]
  exact runs_op_some ha w r w'

/-- C09 (partial): a handler of `Operation.__apply__` is called with the operation and the
arguments, for operations of class `Operation` or of a direct subclass of it. Missing: deeper
subclasses, for which this is false (`C09_apply_depth_two_fails`). -/
theorem C09_apply_of_base_partial (Δ : Defaults W) (I : Intp W) (c : Cls) (m : Nat) (h : Clo W)
    (hc : c = .base ∨ ∃ n, c = .sub n .base ∧ I.get (.usr (.apply c)) = none)
    (ho : I.get (.usr (.user c m)) = none) (ha : I.get (.usr (.apply .base)) = some h)
    (args : List Val) (w : W) (r : Out) (w' : W) :
    Runs Δ (.op (.usr (.user c m)) args) ⟨I, w⟩ r ⟨I, w'⟩ ↔
      Runs Δ (.clo h (.op (.usr (.user c m)) :: args))
        ⟨coproduct I [(.fwd, restoreArgs (.dflt (.usr (.apply .base))))], w⟩ r
        ⟨coproduct I [(.fwd, restoreArgs (.dflt (.usr (.apply .base))))], w'⟩ := by
  rcases hc with rfl | ⟨n, rfl, hn⟩
  · exact C09_apply_of_own_class Δ I .base m h ho ha args w r w'
  · have h0 : isSelfApply (.usr (.user (.sub n .base) m)) args = false := by
      unfold isSelfApply; split <;> simp
    rw [runs_op_none ho h0, runs_op_self hn (by simp [isSelfApply])]
    show Runs Δ (.dfltRaw (.usr (.apply (.sub n .base))) _) _ _ _ ↔ _
    rw [runs_raw_sub]
    exact runs_op_some ha w r w'

/-- Classes shaped like `Operation`, `Tool`, `Template` (`handlers/llm/template.py` 65, 112). -/
def clsTool : Cls := .sub 0 .base
def clsTemplate : Cls := .sub 1 clsTool

/-- An `apply` handler that returns what it was given. -/
def showArgs : Fn W := .mk false (fun args => .ret (.tup args))

/-- C09, examples: an operation of a direct subclass. -/
example : ∃ s', Runs logDefault (.prog (.handle (.bind .nil (.apply .base) showArgs)
    (.call (.user clsTool 4) [.int 1] .ofOut) .ofOut)) ⟨[], []⟩
    (.ok (.tup [.op (.usr (.user clsTool 4)), .int 1])) s' := ⟨_, ⟨30, rfl⟩⟩
/-- Default rule and term for an operation two classes below `Operation`. -/
example : ∃ s', Runs (fun _ _ _ => .raise .notHandled)
    (.prog (.call (.user clsTemplate 4) [.int 1] .ofOut)) ⟨[], ()⟩
    (.ok (.term (.usr (.user clsTemplate 4)) [.int 1])) s' := ⟨_, ⟨30, rfl⟩⟩

/-- C09 fails at depth two: an operation of class `Template` without handler; the handler of
`Operation.__apply__` gets `Tool.__apply__` as the operation. -/
theorem C09_apply_depth_two_fails : ∃ s', Runs logDefault
    (.prog (.handle (.bind .nil (.apply .base) showArgs)
      (.call (.user clsTemplate 4) [.int 1] .ofOut) .ofOut)) ⟨[], []⟩
    (.ok (.tup [.op (.usr (.apply clsTool)), .op (.usr (.user clsTemplate 4)), .int 1])) s' :=
  ⟨_, ⟨30, rfl⟩⟩

/-! ## C11 -/

mutual
/-- `evaluate(expr)` (`ops/semantics.py` 148, 169-181, 199-210), as a program: arguments first,
left to right, then the call.  `k` is what follows.  Simplifications: containers are tuples;
operations as values are left alone (handlers here are functions, not operations). -/
def evalP : Val → (Out → Prog W) → Prog W
  | .int n, k => k (.ok (.int n))
  | .op o, k => k (.ok (.op o))
  | .tup xs, k => evalsP xs (fun r => match r with
      | .ok vs => k (.ok (.tup vs))
      | .error e => k (.error e))
  | .term o xs, k => evalsP xs (fun r => match r with
      | .ok vs => match o with
        | .usr u => .call u vs k
        | .fwd => .fwd vs k
        | .getArgs => k (.ok (.term .getArgs vs))
      | .error e => k (.error e))
def evalsP : List Val → (Except Exc (List Val) → Prog W) → Prog W
  | [], k => k (.ok [])
  | x :: xs, k => evalP x (fun r => match r with
      | .ok v => evalsP xs (fun rs => match rs with
          | .ok vs => k (.ok (v :: vs))
          | .error e => k (.error e))
      | .error e => k (.error e))
end

/-- Terms whose operations are user operations (all that `evaluate` meets). -/
def userTerm : Val → Prop
  | .int _ => True
  | .op _ => True
  | .tup xs => ∀ x ∈ xs, userTerm x
  | .term o xs => (∃ u, o = .usr u) ∧ ∀ x ∈ xs, userTerm x

mutual
/-- Specification of evaluation under a fixed interpretation `I`: a big-step relation. -/
inductive Evals (Δ : Defaults W) (I : Intp W) : Val → W → Out → W → Prop where
  | int {n w} : Evals Δ I (.int n) w (.ok (.int n)) w
  | op {o w} : Evals Δ I (.op o) w (.ok (.op o)) w
  | tup {xs w vs w'} : EvalsAll Δ I xs w (.ok vs) w' → Evals Δ I (.tup xs) w (.ok (.tup vs)) w'
  | tupErr {xs w e w'} : EvalsAll Δ I xs w (.error e) w' → Evals Δ I (.tup xs) w (.error e) w'
  | term {u xs w vs w' r w''} : EvalsAll Δ I xs w (.ok vs) w' →
      Runs Δ (.op (.usr u) vs) ⟨I, w'⟩ r ⟨I, w''⟩ → Evals Δ I (.term (.usr u) xs) w r w''
  | termErr {u xs w e w'} : EvalsAll Δ I xs w (.error e) w' →
      Evals Δ I (.term (.usr u) xs) w (.error e) w'
/-- Arguments, left to right; the first exception ends it. -/
inductive EvalsAll (Δ : Defaults W) (I : Intp W) :
    List Val → W → Except Exc (List Val) → W → Prop where
  | nil {w} : EvalsAll Δ I [] w (.ok []) w
  | cons {x xs w v w' vs w''} : Evals Δ I x w (.ok v) w' → EvalsAll Δ I xs w' (.ok vs) w'' →
      EvalsAll Δ I (x :: xs) w (.ok (v :: vs)) w''
  | consErr {x xs w v w' e w''} : Evals Δ I x w (.ok v) w' → EvalsAll Δ I xs w' (.error e) w'' →
      EvalsAll Δ I (x :: xs) w (.error e) w''
  | headErr {x xs w e w'} : Evals Δ I x w (.error e) w' → EvalsAll Δ I (x :: xs) w (.error e) w'
end

mutual
theorem evalP_iff (Δ : Defaults W) (I : Intp W) : ∀ (t : Val), userTerm t → ∀ (k : Out → Prog W)
    (w : W) (r : Out) (w' : W), Runs Δ (.prog (evalP t k)) ⟨I, w⟩ r ⟨I, w'⟩ ↔
      ∃ r₁ w₁, Evals Δ I t w r₁ w₁ ∧ Runs Δ (.prog (k r₁)) ⟨I, w₁⟩ r ⟨I, w'⟩
  | .int n, _, k, w, r, w' => by
    simp only [evalP]
    constructor
    · intro h; exact ⟨_, _, .int, h⟩
    · rintro ⟨r1, w1, h, h2⟩; cases h; exact h2
  | .op o, _, k, w, r, w' => by
    simp only [evalP]
    constructor
    · intro h; exact ⟨_, _, .op, h⟩
    · rintro ⟨r1, w1, h, h2⟩; cases h; exact h2
  | .tup xs, hu, k, w, r, w' => by
    simp only [evalP]
    rw [evalsP_iff Δ I xs (by simpa [userTerm] using hu)]
    constructor
    · rintro ⟨r1, w1, h, h2⟩
      cases r1 with
      | ok vs => exact ⟨_, _, .tup h, h2⟩
      | error e => exact ⟨_, _, .tupErr h, h2⟩
    · rintro ⟨r1, w1, h, h2⟩
      cases h with
      | tup h => exact ⟨_, _, h, h2⟩
      | tupErr h => exact ⟨_, _, h, h2⟩
  | .term o xs, hu, k, w, r, w' => by
    have hu' : (∃ u, o = .usr u) ∧ ∀ x ∈ xs, userTerm x := by simpa [userTerm] using hu
    obtain ⟨⟨u, rfl⟩, hxs⟩ := hu'
    simp only [evalP]
    rw [evalsP_iff Δ I xs hxs]
    constructor
    · rintro ⟨r1, w1, h, h2⟩
      cases r1 with
      | ok vs =>
        simp only at h2
        rw [C01_after_call] at h2
        obtain ⟨r2, w2, h3, h4⟩ := h2
        exact ⟨_, _, .term h h3, h4⟩
      | error e => exact ⟨_, _, .termErr h, h2⟩
    · rintro ⟨r1, w1, h, h2⟩
      cases h with
      | term h h3 =>
        refine ⟨_, _, h, ?_⟩
        simp only
        rw [C01_after_call]
        exact ⟨_, _, h3, h2⟩
      | termErr h => exact ⟨_, _, h, h2⟩
theorem evalsP_iff (Δ : Defaults W) (I : Intp W) : ∀ (ts : List Val), (∀ t ∈ ts, userTerm t) →
    ∀ (k : Except Exc (List Val) → Prog W) (w : W) (r : Out) (w' : W),
    Runs Δ (.prog (evalsP ts k)) ⟨I, w⟩ r ⟨I, w'⟩ ↔
      ∃ r₁ w₁, EvalsAll Δ I ts w r₁ w₁ ∧ Runs Δ (.prog (k r₁)) ⟨I, w₁⟩ r ⟨I, w'⟩
  | [], _, k, w, r, w' => by
    simp only [evalsP]
    constructor
    · intro h; exact ⟨_, _, .nil, h⟩
    · rintro ⟨r1, w1, h, h2⟩; cases h; exact h2
  | t :: ts, hu, k, w, r, w' => by
    simp only [evalsP]
    rw [evalP_iff Δ I t (hu t (by simp))]
    have hts : ∀ t ∈ ts, userTerm t := fun x hx => hu x (by simp [hx])
    constructor
    · rintro ⟨r1, w1, h, h2⟩
      cases r1 with
      | ok v =>
        simp only at h2
        rw [evalsP_iff Δ I ts hts] at h2
        obtain ⟨r2, w2, h3, h4⟩ := h2
        cases r2 with
        | ok vs => exact ⟨_, _, .cons h h3, h4⟩
        | error e => exact ⟨_, _, .consErr h h3, h4⟩
      | error e => exact ⟨_, _, .headErr h, h2⟩
    · rintro ⟨r1, w1, h, h2⟩
      cases h with
      | cons h h3 =>
        refine ⟨_, _, h, ?_⟩
        simp only
        rw [evalsP_iff Δ I ts hts]
        exact ⟨_, _, h3, h2⟩
      | consErr h h3 =>
        refine ⟨_, _, h, ?_⟩
        simp only
        rw [evalsP_iff Δ I ts hts]
        exact ⟨_, _, h3, h2⟩
      | headErr h => exact ⟨_, _, h, h2⟩
end

/-- C11: `evaluate(t, intp=i)`, called under any interpretation `I`, evaluates `t` with the
handlers of `i` and nothing else, and leaves `I` in force. -/
theorem C11_evaluate_under_intp (Δ : Defaults W) (I : Intp W) (i : IExpr W) (t : Val)
    (ht : userTerm t) (w : W) (r : Out) (s' : St W) :
    Runs Δ (.prog (.interp i (evalP t .ofOut) .ofOut)) ⟨I, w⟩ r s' ↔
      Evals Δ i.compile t w r s'.world ∧ s'.intp = I := by
  rw [C01_after_interpreter_block]
  constructor
  · rintro ⟨r1, w1, h1, h2⟩
    rw [evalP_iff _ _ _ ht] at h1
    obtain ⟨r2, w2, h3, h4⟩ := h1
    obtain ⟨rfl, e⟩ := (runs_ofOut _ _ _ _).1 h4
    obtain ⟨rfl, rfl⟩ := (runs_ofOut _ _ _ _).1 h2
    simp at e
    subst e
    exact ⟨h3, rfl⟩
  · rintro ⟨h1, h2⟩
    refine ⟨r, s'.world, ?_, ?_⟩
    · rw [evalP_iff _ _ _ ht]
      exact ⟨_, _, h1, (runs_ofOut _ _ _ _).2 ⟨rfl, rfl⟩⟩
    · rw [runs_ofOut]; exact ⟨rfl, by rw [← h2]⟩

/-- C11, example: `evaluate(opG(opF(1), 2), intp={opF: …})` inside another handler of `opF`,
which is not used. -/
example : userTerm (.term (.usr opG) [.term (.usr opF) [.int 1], .int 2]) := by
  simp [userTerm]
example : ∃ s', Runs logDefault (.prog (.handle (.bind .nil opF (logFwd 1))
    (.interp (.bind .nil opF (.mk false (fun _ => .log 2 (.ret (.int 5)))))
      (evalP (.term (.usr opG) [.term (.usr opF) [.int 1], .int 2]) .ofOut) .ofOut) .ofOut))
    ⟨[], []⟩ (.ok (.int 7)) s' ∧ s'.world = [2, 112] := ⟨_, ⟨60, rfl⟩, rfl⟩

/-- C11 fails for `fwd()`: a handler of `i` that calls `fwd()` gets the default rule without
the current arguments: the default of `opF` sees no argument instead of two. -/
theorem C11_fwd_in_intp_fails : ∃ s', Runs logDefault (.prog (.interp (.bind .nil opF (logFwd 1))
      (evalP (.term (.usr opF) [.int 1, .int 2]) .ofOut) .ofOut)) ⟨[], []⟩ (.ok (.int 7)) s' ∧
    s'.world = [1, 100] := ⟨_, ⟨60, rfl⟩, rfl⟩

/-- C11 (partial): forwarding explicit arguments from a handler of `i` runs the default rule on
them. Missing: `fwd()` without arguments (`C11_fwd_in_intp_fails`). -/
theorem C11_fwd_explicit_partial (Δ : Defaults W) (i : IExpr W) (u : UOp) (f : Fn W)
    (args x : List Val) (hf : i.compile.get (.usr u) = some (.fn f)) (hn : f.nullary = false)
    (hb : f.body args = .fwd x .ofOut) (hx : x ≠ []) (w : W) (r : Out) (w' : W) :
    Runs Δ (.op (.usr u) args) ⟨i.compile, w⟩ r ⟨i.compile, w'⟩ ↔
      SRun Δ ⟨i.stacks, some ⟨.fwd, []⟩, none⟩ (.dflt (.usr u) x) w r w' := by
  have he : ∃ e, i.stacks u = some e ∧ e.raw = true ∧ e.top = f ∧ e.rest = [] := by
    have hr := compile_rel i u
    rw [hf] at hr
    cases h : i.stacks u with
    | none => rw [h] at hr; cases hr
    | some e =>
      rw [h] at hr
      cases hr with
      | some hc =>
        refine ⟨e, rfl, ?_⟩
        generalize hcl : (Clo.fn f) = c at hc
        generalize hr' : e.raw = raw at hc
        generalize hl : e.top :: e.rest = l at hc
        have aux : ∀ {b c l}, CRel b c l → ∀ (f : Fn W), c = .fn f → (f.nullary = false →
            b = true ∧ l = [f]) := by
          intro b c l h
          induction h with
          | raw f => intro f' e _; cases e; exact ⟨rfl, rfl⟩
          | @save b c s h ih =>
            intro f' e hn
            have hcn : c.nullary = false := by
              have := congrArg Clo.nullary e
              rw [nullary_saveArgs] at this
              rw [this]; exact hn
            rw [saveArgs_eq hcn] at e
            cases e
          | prompt _ _ _ _ => intro f' e _; cases e
        obtain ⟨h1, h2⟩ := aux hc f hcl.symm hn
        rw [h2] at hl
        simp at hl
        exact ⟨h1, hl.1, hl.2⟩
  obtain ⟨e, he, h1, h2, h3⟩ := he
  constructor
  · rintro ⟨n, h⟩
    have hS := fwd_sim Δ n _ _ (TaskRel.call u args) _ _ w r _ (Rel.interp i) h
    clear h
    cases hS with
    | free h => simp only [he] at h; cases h
    | handled h h' =>
      simp only [he] at h
      cases h
      rw [h1, h2, h3] at h'
      cases h' with
      | enterBad hc => rw [hn] at hc; cases hc
      | enter _ h =>
        rw [hb] at h
        cases h with
        | fwd h h' =>
          obtain ⟨rfl, rfl⟩ := SRun.ofOut h'
          cases h with
          | fwdNullary h => cases h
          | fwdNext h => cases h
          | fwdEnd h h2 h3 =>
            cases h
            cases h2 with
            | implGiven _ => exact h3
            | implCurrent _ => exact absurd rfl hx
            | implNone _ => exact absurd rfl hx
            | implAsked _ => exact absurd rfl hx
          | fwdFail _ _ h => cases h with | implAsked _ => exact absurd rfl hx
          | fwdBad _ _ h hv =>
            cases h with
            | implGiven _ => exact absurd rfl (hv _)
            | implCurrent _ => exact absurd rfl hx
            | implNone _ => exact absurd rfl hx
            | implAsked _ => exact absurd rfl hx
          | fwdFree h => cases h
  · intro h
    have : SRun Δ ⟨i.stacks, none, none⟩ (.call u args) w r w' := by
      refine .handled he ?_
      rw [h1, h2, h3]
      refine .enter (by rw [hn]; intro h; cases h) ?_
      rw [hb]
      refine .fwd (.fwdEnd rfl (.implGiven hx) ?_) (SRun.ofOut_run _ _)
      simpa using h
    exact bwd_sim this _ (Rel.interp i)

/-- C11, example for the partial theorem: `lambda *args: fwd(*args)` satisfies it. -/
example : ((Fn.mk false (fun args => .fwd args .ofOut) : Fn W)).body [.int 1] =
    .fwd [.int 1] .ofOut := rfl

end Verif.Runtime
