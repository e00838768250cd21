import Verif.Runtime.Congr

/-!
# Properties of the runtime (C01–C09, C11)

`Runs Δ t s r s'` says that the modelled Python code `t`, started with interpretation
`s.intp` and world `s.world`, ends with outcome `r` in state `s'`.
-/

namespace Verif.Runtime

variable {W : Type}

/-! Sample material for the examples: the world is a log of numbers. -/

/-- Append `n` to the log, then go on. -/
def Prog.log (n : Nat) (p : Prog (List Nat)) : Prog (List Nat) :=
  .eff (fun w => (w ++ [n], .int 0)) (fun _ => p)

/-- A handler that logs `n` and calls `fwd()`. -/
def logFwd (n : Nat) : Fn (List Nat) := .mk false (fun _ => .log n (.fwd [] .ofOut))

/-- Two user operations and a default that logs its number of arguments. -/
def opF : UOp := .user .base 0
def opG : UOp := .user .base 1
def logDefault : Defaults (List Nat) := fun _ n args => .log (100 + 10 * n + args.length) (.ret (.int 7))

/-! ## C01 -/

/-- C01: whatever runs (a program, an operation call, a handler, a `fwd`, a default rule), from
whatever interpretation, and whatever its outcome, the interpretation afterwards is the one
before. -/
theorem C01_interpretation_restored (Δ : Defaults W) (t : Task W) (s s' : St W) (r : Out)
    (h : Runs Δ t s r s') : s'.intp = s.intp := by
  obtain ⟨n, h⟩ := h
  exact run_restores Δ n t s r s' h

/-- C01: what follows a `with handler(i)` block, left with outcome `r₁` (value or exception),
runs in the interpretation in which the block was entered. -/
theorem C01_after_handler_block (Δ : Defaults W) (i : IExpr W) (p : Prog W)
    (k : Out → Prog W) (s : St W) (r : Out) (s' : St W) :
    Runs Δ (.prog (.handle i p k)) s r s' ↔
      ∃ r₁ w₁, Runs Δ (.prog p) ⟨coproduct s.intp i.compile, s.world⟩ r₁
          ⟨coproduct s.intp i.compile, w₁⟩ ∧
        Runs Δ (.prog (k r₁)) ⟨s.intp, w₁⟩ r s' := by
  constructor
  · rintro ⟨n, h⟩
    cases n with
    | zero => simp [run] at h
    | succ n =>
      rw [run] at h
      split at h
      · cases h
      · rename_i r1 s1 h1
        obtain ⟨s2, h2, rfl⟩ := withInterp_some h1
        refine ⟨r1, s2.world, ⟨n, ?_⟩, ⟨n, h⟩⟩
        rw [h2]
        have := run_restores Δ n _ _ _ _ h2
        simp only at this
        rw [← this]
  · rintro ⟨r1, w1, ⟨n, h1⟩, ⟨m, h2⟩⟩
    refine ⟨max n m + 1, ?_⟩
    obtain ⟨I, w⟩ := s
    rw [run, withInterp_intro (run_mono (Nat.le_max_left n m) h1)]
    exact run_mono (Nat.le_max_right n m) h2

/-- C01: the same for `with interpreter(i)`. -/
theorem C01_after_interpreter_block (Δ : Defaults W) (i : IExpr W) (p : Prog W)
    (k : Out → Prog W) (s : St W) (r : Out) (s' : St W) :
    Runs Δ (.prog (.interp i p k)) s r s' ↔
      ∃ r₁ w₁, Runs Δ (.prog p) ⟨i.compile, s.world⟩ r₁ ⟨i.compile, w₁⟩ ∧
        Runs Δ (.prog (k r₁)) ⟨s.intp, w₁⟩ r s' := by
  constructor
  · rintro ⟨n, h⟩
    cases n with
    | zero => simp [run] at h
    | succ n =>
      rw [run] at h
      split at h
      · cases h
      · rename_i r1 s1 h1
        obtain ⟨s2, h2, rfl⟩ := withInterp_some h1
        refine ⟨r1, s2.world, ⟨n, ?_⟩, ⟨n, h⟩⟩
        rw [h2]
        have := run_restores Δ n _ _ _ _ h2
        simp only at this
        rw [← this]
  · rintro ⟨r1, w1, ⟨n, h1⟩, ⟨m, h2⟩⟩
    refine ⟨max n m + 1, ?_⟩
    obtain ⟨I, w⟩ := s
    rw [run, withInterp_intro (run_mono (Nat.le_max_left n m) h1)]
    exact run_mono (Nat.le_max_right n m) h2

/-- C01: what follows an operation call runs in the interpretation of the call, although the
handlers that ran in between installed others. -/
theorem C01_after_call (Δ : Defaults W) (o : UOp) (args : List Val)
    (k : Out → Prog W) (s : St W) (r : Out) (s' : St W) :
    Runs Δ (.prog (.call o args k)) s r s' ↔
      ∃ r₁ w₁, Runs Δ (.op (.usr o) args) s r₁ ⟨s.intp, w₁⟩ ∧
        Runs Δ (.prog (k r₁)) ⟨s.intp, w₁⟩ r s' := by
  constructor
  · rintro ⟨n, h⟩
    cases n with
    | zero => simp [run] at h
    | succ n =>
      rw [run] at h
      split at h
      · cases h
      · rename_i r1 s1 h1
        have e := run_intp h1
        rw [e] at h1 h
        exact ⟨r1, s1.world, ⟨n, h1⟩, ⟨n, h⟩⟩
  · rintro ⟨r1, w1, ⟨n, h1⟩, ⟨m, h2⟩⟩
    refine ⟨max n m + 1, ?_⟩
    rw [run, run_mono (Nat.le_max_left n m) h1]
    exact run_mono (Nat.le_max_right n m) h2

/-- C01, example: a handler installs another block, raises out of it, and the exception leaves
two blocks. -/
example : ∃ s', Runs logDefault
    (.prog (.handle (.bind .nil opF (.mk false (fun _ =>
        .handle (.bind .nil opG (logFwd 3)) (.call opG [.int 1] (fun _ => .raise (.user 5))) .ofOut)))
      (.call opF [.int 1] .ofOut) .ofOut)) ⟨[], []⟩ (.error (.user 5)) s' ∧ s'.world = [3, 111] :=
  ⟨_, ⟨30, rfl⟩, rfl⟩

/-! ## C02 -/

/-- C02: keys of the coproduct: those of the left side in their order, then the new ones of the
right side in their order. -/
theorem C02_coproduct_keys (a b : Intp W) (hb : (b.map Prod.fst).Nodup) :
    (coproduct a b).map Prod.fst =
      a.map Prod.fst ++ (b.map Prod.fst).filter (fun o => o ∉ a.map Prod.fst) := by
  unfold coproduct
  rw [keys_foldl]
  have H : ∀ (b : Intp W) (ks ks' : List Op), (b.map Prod.fst).Nodup →
      (∀ o ∈ b.map Prod.fst, o ∉ ks') →
      b.foldl (fun ks e => if e.1 ∈ ks then ks else ks ++ [e.1]) (ks ++ ks') =
        ks ++ (ks' ++ (b.map Prod.fst).filter (fun o => o ∉ ks)) := by
    intro b
    induction b with
    | nil => intro ks ks' _ _; simp
    | cons e b ih =>
      intro ks ks' hn hd
      simp only [List.map_cons, List.nodup_cons] at hn
      rw [List.foldl_cons]
      have h2 : e.1 ∉ ks' := hd e.1 (by simp)
      by_cases h1 : e.1 ∈ ks
      · rw [if_pos (by simp [h1])]
        rw [ih ks ks' hn.2 (fun o ho => hd o (by simp at ho ⊢; exact Or.inr ho))]
        simp [h1]
      · rw [if_neg (by simp [h1, h2]), List.append_assoc]
        rw [ih ks (ks' ++ [e.1]) hn.2]
        · simp [h1]
        · intro o ho
          simp only [List.mem_append, List.mem_singleton, not_or]
          refine ⟨hd o (by simp at ho ⊢; exact Or.inr ho), ?_⟩
          rintro rfl
          exact hn.1 ho
  have := H b (a.map Prod.fst) [] hb (by simp)
  simpa using this

/-- C02: the coproduct handles exactly the union. -/
theorem C02_coproduct_handles (a b : IExpr W) (u : UOp) :
    ((IExpr.coprod a b).compile.get (.usr u)).isSome ↔
      (a.compile.get (.usr u)).isSome ∨ (b.compile.get (.usr u)).isSome := by
  simp only [IExpr.compile]
  rw [get_coproduct _ _ _ (nodup_compile b)]
  cases hb : b.compile.get (.usr u) <;> simp

/-- C02: an operation that only the left side handles keeps its handler. -/
theorem C02_left_only (a b : IExpr W) (u : UOp) (h : b.compile.get (.usr u) = none) :
    (IExpr.coprod a b).compile.get (.usr u) = a.compile.get (.usr u) := by
  simp only [IExpr.compile]
  rw [get_coproduct _ _ _ (nodup_compile b), h]

/-- C02: calling an operation that the right side handles by `f` runs `f` on the arguments
first, whether or not the left side handles it too; every operation called by `f` sees the
handlers of the coproduct. -/
theorem C02_right_first (Δ : Defaults W) (a b : IExpr W) (u : UOp) (f : Fn W) (args : List Val)
    (hb : b.compile.get (.usr u) = some (.fn f)) (hargs : f.nullary = true → args = []) :
    ∃ J : Intp W, (∀ u', J.get (.usr u') = (IExpr.coprod a b).compile.get (.usr u')) ∧
      ∀ w r w', Runs Δ (.op (.usr u) args) ⟨(IExpr.coprod a b).compile, w⟩ r
          ⟨(IExpr.coprod a b).compile, w'⟩ ↔
        Runs Δ (.prog (f.body args)) ⟨J, w⟩ r ⟨J, w'⟩ := by
  let I := (IExpr.coprod a b).compile
  -- the closure stored for `u`, and the state in which the body runs
  have key : ∀ J : Intp W, ∃ J' : Intp W, (∀ u', J'.get (.usr u') = J.get (.usr u')) ∧
      ∀ w r w', Runs Δ (.clo (saveArgs (.fn f)) args) ⟨J, w⟩ r ⟨J, w'⟩ ↔
        Runs Δ (.prog (f.body args)) ⟨J', w⟩ r ⟨J', w'⟩ := by
    intro J
    have hfn : ∀ (J : Intp W) w r w', Runs Δ (.clo (.fn f) args) ⟨J, w⟩ r ⟨J, w'⟩ ↔
        Runs Δ (.prog (f.body args)) ⟨J, w⟩ r ⟨J, w'⟩ := by
      intro J w r w'
      have hc : ¬ (f.nullary && !args.isEmpty) = true := by
        intro h; simp at h; exact h.2 (hargs h.1)
      constructor
      · rintro ⟨n, h⟩
        cases n with
        | zero => simp [run] at h
        | succ n => rw [run, if_neg hc] at h; exact ⟨n, h⟩
      · rintro ⟨n, h⟩
        exact ⟨n + 1, by rw [run, if_neg hc]; exact h⟩
    by_cases hn : f.nullary = true
    · refine ⟨J, fun _ => rfl, ?_⟩
      rw [saveArgs_nullary (c := .fn f) hn]
      exact hfn J
    · rw [saveArgs_eq (c := .fn f) (by simpa [Clo.nullary] using hn)]
      refine ⟨coproduct J [(.getArgs, .const args)], ?_, ?_⟩
      · intro u'; rw [get_coproduct_getArgs]; simp
      · intro w r w'
        rw [← hfn]
        constructor
        · rintro ⟨n, h⟩
          cases n with
          | zero => simp [run] at h
          | succ n =>
            rw [run] at h
            obtain ⟨s2, h2, e⟩ := withInterp_some h
            have := run_intp h2
            refine ⟨n, ?_⟩
            rw [h2, this]
            cases e
            rfl
        · rintro ⟨n, h⟩
          exact ⟨n + 1, by rw [run]; exact withInterp_intro h⟩
  have hI : I.get (.usr u) = some (combine (a.compile.get (.usr u)) (.usr u) (.fn f)) := by
    show (coproduct a.compile b.compile).get (.usr u) = _
    rw [get_coproduct _ _ _ (nodup_compile b), hb]
  let J1 := coproduct I [(.fwd, restoreArgs (.dflt (.usr u)))]
  have hop : ∀ c, I.get (.usr u) = some c → ∀ w r w',
      Runs Δ (.op (.usr u) args) ⟨I, w⟩ r ⟨I, w'⟩ ↔ Runs Δ (.clo c args) ⟨J1, w⟩ r ⟨J1, w'⟩ := by
    intro c hc w r w'
    constructor
    · rintro ⟨n, h⟩
      cases n with
      | zero => simp [run] at h
      | succ n =>
        rw [run] at h
        simp only [hc] at h
        obtain ⟨s2, h2, e⟩ := withInterp_some h
        have := run_intp h2
        refine ⟨n, ?_⟩
        show run Δ n _ ⟨J1, w⟩ = _
        rw [h2, this]
        cases e
        rfl
    · rintro ⟨n, h⟩
      refine ⟨n + 1, ?_⟩
      rw [run]
      simp only [hc]
      exact withInterp_intro h
  have hJ1 : ∀ u', J1.get (.usr u') = I.get (.usr u') := by
    intro u'; show (coproduct I _).get _ = _; rw [get_coproduct_fwd]; simp
  cases ha : a.compile.get (.usr u) with
  | none =>
    rw [ha] at hI
    simp only [combine, reduceCtorEq, or_self, if_false] at hI
    obtain ⟨J', h1, h2⟩ := key J1
    refine ⟨J', fun u' => (h1 u').trans (hJ1 u'), ?_⟩
    intro w r w'
    rw [← h2]
    exact hop _ hI w r w'
  | some c =>
    rw [ha] at hI
    simp only [combine, reduceCtorEq, or_self, if_false] at hI
    let J2 := coproduct J1 [(.fwd, .withFwd ((J1.get .fwd).getD (.dflt .fwd))
      (restoreArgs (saveArgs c)))]
    obtain ⟨J', h1, h2⟩ := key J2
    refine ⟨J', ?_, ?_⟩
    · intro u'
      rw [h1]
      show (coproduct J1 _).get _ = _
      rw [get_coproduct_fwd]
      simpa using hJ1 u'
    intro w r w'
    rw [← h2]
    refine (hop _ hI w r w').trans ?_
    constructor
    · rintro ⟨n, h⟩
      cases n with
      | zero => simp [run] at h
      | succ n =>
        rw [run] at h
        obtain ⟨s2, h2, e⟩ := withInterp_some h
        have := run_intp h2
        refine ⟨n, ?_⟩
        show run Δ n _ ⟨J2, w⟩ = _
        rw [h2, this]
        cases e
        rfl
    · rintro ⟨n, h⟩
      exact ⟨n + 1, by rw [run]; exact withInterp_intro h⟩

/-- C02, example: both sides handle `opF`; the right one logs first. -/
example : (IExpr.bind .nil opF (logFwd 2)).compile.get (.usr opF) = some (.fn (logFwd 2)) := by
  rfl
example : ∃ s', Runs logDefault (.op (.usr opF) [.int 1])
    ⟨(IExpr.coprod (.bind .nil opF (logFwd 1)) (.bind .nil opF (logFwd 2))).compile, []⟩
    (.ok (.int 7)) s' ∧ s'.world = [2, 1, 101] := ⟨_, ⟨30, rfl⟩, rfl⟩

/-! ## C03 -/

/-- The context in which a program starts: no handlers. -/
def Ctx.init : Ctx W := ⟨fun _ => none, none, none⟩

/-- C03: the runtime, with its prompts, saved arguments and rebinding of `fwd`, is
indistinguishable from the machine with explicit handler stacks (`SRun`). -/
theorem C03_runtime_is_stack_machine (Δ : Defaults W) (p : Prog W) (w : W) (r : Out) (w' : W) :
    Runs Δ (.prog p) ⟨[], w⟩ r ⟨[], w'⟩ ↔ SRun Δ Ctx.init (.prog p) w r w' := by
  rw [runs_iff Rel.init]
  exact ⟨fun h => h.1, fun h => ⟨h, rfl⟩⟩

/-- C03, at any point of an execution whose interpretation `I` stands for the stacks `Γ`. -/
theorem C03_refinement (Δ : Defaults W) (I : Intp W) (Γ : Ctx W) (hR : Rel I Γ) (p : Prog W)
    (w : W) (r : Out) (s' : St W) :
    Runs Δ (.prog p) ⟨I, w⟩ r s' ↔ SRun Δ Γ (.prog p) w r s'.world ∧ s'.intp = I :=
  runs_iff hR p w r s'

/-- `with handler({o: logFwd n}):` for each number in turn, outermost first. -/
def nested (o : UOp) : List Nat → Prog (List Nat) → Prog (List Nat)
  | [], p => p
  | n :: ns, p => .handle (.bind .nil o (logFwd n)) (nested o ns p) .ofOut

/-- Running the handlers of a chain one after the other. -/
theorem chain_run {Δ : Defaults (List Nat)} {o : UOp} {args : List Val} {E : Env (List Nat)} :
    ∀ (m : Nat) (ns : List Nat) (w : List Nat) (r : Out) (w' : List Nat)
      (a : Option (List Val)),
      (∀ k a', SRun Δ ⟨E, k, a'⟩ (.dflt (.usr o) args) (w ++ m :: ns) r w') →
      SRun Δ ⟨E, a.map (fun _ => ⟨.fwd, []⟩), a⟩
        (.enter (.usr o) true (logFwd m) (ns.map logFwd) args) w r w' := by
  intro m ns
  induction ns generalizing m with
  | nil =>
    intro w r w' a h
    refine .enter (by intro h; cases h) ?_
    refine .eff ?_
    refine .fwd (r := r) (w' := w') ?_ (SRun.ofOut_run _ _)
    exact .fwdEnd rfl (.implCurrent rfl) (h _ _)
  | cons n ns ih =>
    intro w r w' a h
    refine .enter (by intro h; cases h) ?_
    refine .eff ?_
    refine .fwd (r := r) (w' := w') ?_ (SRun.ofOut_run _ _)
    refine .fwdNext rfl rfl (.implCurrent rfl) ?_
    have := ih n (w ++ [m]) r w' (some args) (by
      intro k a'
      have := h k a'
      simpa using this)
    refine this.enter_ctx rfl rfl

/-- C03, corollary: a call under any number of nested handlers that log and forward runs them
from the innermost to the outermost, then the default rule, which gets the arguments of the
call. -/
theorem C03_chain_order (Δ : Defaults (List Nat)) (o : UOp) (args : List Val) (ns : List Nat)
    (n : Nat) (w : List Nat) (r : Out) (w' : List Nat)
    (hdef : ∀ Γ, SRun Δ Γ (.dflt (.usr o) args) (w ++ (n :: ns).reverse) r w') :
    Runs Δ (.prog (nested o (n :: ns) (.call o args .ofOut))) ⟨[], w⟩ r ⟨[], w'⟩ := by
  rw [C03_runtime_is_stack_machine]
  have H : ∀ (ns : List Nat) (Γ : Ctx (List Nat)) (acc : List Nat),
      (∀ m ms, acc = m :: ms → Γ.env o = some ⟨false, logFwd m, ms.map logFwd⟩) →
      (acc = [] → Γ.env o = none) → Γ.args = none → Γ.kont = none →
      ns.reverse ++ acc ≠ [] →
      (∀ Γ, SRun Δ Γ (.dflt (.usr o) args) (w ++ (ns.reverse ++ acc)) r w') →
      SRun Δ Γ (.prog (nested o ns (.call o args .ofOut))) w r w' := by
    intro ns
    induction ns with
    | nil =>
      intro Γ acc h1 h2 ha hk hne hd
      cases acc with
      | nil => exact absurd rfl hne
      | cons m ms =>
        refine .call (r := r) (w' := w') (.handled (h1 m ms rfl) ?_) (SRun.ofOut_run _ _)
        have := chain_run (Δ := Δ) (o := o) (args := args) (E := Γ.env) m ms w r w' none
          (fun k a' => hd _)
        exact this.enter_ctx rfl ha.symm
    | cons n ns ih =>
      intro Γ acc h1 h2 ha hk hne hd
      refine .handle (r := r) (w' := w') ?_ (SRun.ofOut_run _ _)
      refine ih _ (n :: acc) ?_ (by intro h; cases h) ha hk (by simp) ?_
      · intro m ms e
        cases e
        simp only [IExpr.stacks, if_true]
        cases acc with
        | nil => rw [h2 rfl]; rfl
        | cons m' ms' => rw [h1 m' ms' rfl]; rfl
      · intro Γ'; have := hd Γ'; simpa using this
  have := H (n :: ns) Ctx.init [] (by intro m ms h; cases h) (fun _ => rfl) rfl rfl (by simp)
    (by simpa using hdef)
  exact this

/-- C03, example: the hypothesis of `C03_chain_order` holds for `logDefault`. -/
example (Γ : Ctx (List Nat)) : SRun logDefault Γ (.dflt (.usr opF) [.int 1, .int 2])
    ([] ++ [1, 2, 3].reverse) (.ok (.int 7)) [3, 2, 1, 102] :=
  .dflt (.rawUser (.eff .ret)) (by intro h; cases h)

/-! ## C04 -/

mutual
/-- The same code with `fwd()` of the current activation written as `fwd(*a)`. -/
def Prog.explicit (a : List Val) : Prog W → Prog W
  | .ret v => .ret v
  | .raise e => .raise e
  | .eff f k => .eff f (fun v => (k v).explicit a)
  | .call o args k => .call o args (fun v => (k v).explicit a)
  | .fwd args k => .fwd (if args.isEmpty then a else args) (fun v => (k v).explicit a)
  | .handle i p k => .handle i (p.explicit a) (fun v => (k v).explicit a)
  | .interp i p k => .interp i p (fun v => (k v).explicit a)
end

/-- A handler function with `fwd()` written as `fwd(*args)`, `args` being its arguments. -/
def Fn.explicit : Fn W → Fn W
  | .mk n b => .mk n (fun args => (b args).explicit args)

/-- All handler functions of an interpretation with explicit forwarding. -/
def IExpr.explicit : IExpr W → IExpr W
  | .nil => .nil
  | .bind i o f => .bind i.explicit o f.explicit
  | .coprod a b => .coprod a.explicit b.explicit

theorem explicit_rel (x : List Val) : ∀ (p : Prog W), p.NoNullary →
    ProgW True (some x) p (p.explicit x)
  | .ret _, _ => .base .ret
  | .raise _, _ => .base .raise
  | .eff _ k, h => .base (.eff (fun v => explicit_rel x (k v)
      (by cases h with | eff h => exact h v)))
  | .call _ _ k, h => .base (.call (fun v => explicit_rel x (k v)
      (by cases h with | call h => exact h v)))
  | .fwd [] k, h => .base (.fwdGive trivial (fun v => explicit_rel x (k v)
      (by cases h with | fwd h => exact h v)))
  | .fwd (_ :: _) k, h => .base (.fwd (fun v => explicit_rel x (k v)
      (by cases h with | fwd h => exact h v)))
  | .handle i p k, h => .base (.handle
      (IExpr.rfl' i (fun _ => by cases h with | handle h1 h2 h3 => exact h1))
      (explicit_rel x p (by cases h with | handle h1 h2 h3 => exact h2))
      (fun v => explicit_rel x (k v) (by cases h with | handle h1 h2 h3 => exact h3 v)))
  | .interp i p k, h => .base (.interp
      (IExpr.rfl i (fun _ => by cases h with | interp h1 h2 h3 => exact h1))
      (Prog.rfl p (fun _ => by cases h with | interp h1 h2 h3 => exact h2))
      (fun v => explicit_rel x (k v) (by cases h with | interp h1 h2 h3 => exact h3 v)))

theorem explicit_intp : ∀ (i : IExpr W), i.NoNullary → IC True false i i.explicit
  | .nil, _ => .nil
  | .bind i _ (.mk n b), h => by
    cases h with
    | bind hi hf =>
      cases hf with
      | mk hf => exact .bind (explicit_intp i hi) (.mkSaved (fun args => explicit_rel args _ (hf args)))
  | .coprod a b, h => by
    cases h with
    | coprod h1 h2 => exact .coprod (explicit_intp a h1) (explicit_intp b h2)

theorem CtxC.refl_init {nn : Prop} : CtxC nn (Ctx.init : Ctx W) Ctx.init :=
  ⟨fun _ => .none, .none, rfl, fun h => absurd rfl h⟩

/-- Related programs run alike from the start. -/
theorem runs_congr {Δ : Defaults W} {nn : Prop} (hΔ : ∀ c m args, nn → (Δ c m args).NoNullary)
    {p p' : Prog W} (h : ProgW nn none p p') (w : W) (r : Out) (w' : W) :
    Runs Δ (.prog p) ⟨[], w⟩ r ⟨[], w'⟩ ↔ Runs Δ (.prog p') ⟨[], w⟩ r ⟨[], w'⟩ := by
  rw [C03_runtime_is_stack_machine, C03_runtime_is_stack_machine]
  exact ⟨fun hr => congr_sim hΔ hr CtxC.refl_init (.prog (fun x e => by cases e) h),
    fun hr => congr_sim hΔ hr CtxC.refl_init (.prog (fun x e => by cases e) h.symm)⟩

/-- C04 (partial): if the handlers in use have parameters, writing `fwd()` as `fwd(*args)` in
the handlers of an interpretation that is installed with `handler` changes nothing: no result,
exception or effect. Missing: handlers without parameters (see the counterexamples) and
handlers installed with `interpreter` (C11). -/
theorem C04_fwd_current_args_partial (Δ : Defaults W) (i : IExpr W) (p : Prog W)
    (k : Out → Prog W) (hΔ : ∀ c m args, (Δ c m args).NoNullary) (hi : i.NoNullary)
    (hp : p.NoNullary) (hk : ∀ v, (k v).NoNullary) (w : W) (r : Out) (w' : W) :
    Runs Δ (.prog (.handle i p k)) ⟨[], w⟩ r ⟨[], w'⟩ ↔
      Runs Δ (.prog (.handle i.explicit p k)) ⟨[], w⟩ r ⟨[], w'⟩ :=
  runs_congr (nn := True) (fun c m args _ => hΔ c m args)
    (.base (.handle (explicit_intp i hi) (Prog.rfl p (fun _ => hp))
      (fun v => Prog.rfl (k v) (fun _ => hk v)))) w r w'

/-- C04, example: hypotheses hold for a handler that forwards and one that calls it, and
`explicit` changes the program. -/
example : (IExpr.bind (.bind .nil opF (logFwd 1)) opG
      (.mk false (fun _ => .call opF [.int 3, .int 4] (fun _ => .fwd [] .ofOut)))).NoNullary := by
  refine .bind (.bind .nil (.mk fun _ => ?_)) (.mk fun _ => ?_)
  · refine .eff fun _ => .fwd fun v => ?_
    cases v <;> constructor
  · refine .call fun _ => .fwd fun v => ?_
    cases v <;> constructor
example : ∃ s', Runs logDefault (.prog (.handle (IExpr.bind (.bind .nil opF (logFwd 1)) opG
      (.mk false (fun _ => .call opF [.int 3, .int 4] (fun _ => .fwd [] .ofOut))))
    (.call opG [.int 1] .ofOut) .ofOut)) ⟨[], []⟩ (.ok (.int 7)) s' ∧ s'.world = [1, 102, 111] :=
  ⟨_, ⟨40, rfl⟩, rfl⟩

/-- C04 fails: `g` is handled by `lambda: fwd()` and called (without arguments) from a handler
of `f`, `lambda x: g()`.  The `fwd()` forwards the arguments of `f`: the default of `g` gets one
argument instead of none. -/
theorem C04_fwd_nullary_fails : ∃ s₁ s₂,
    Runs logDefault (.prog (.handle
      (.bind (.bind .nil opG (.mk true (fun _ => .fwd [] .ofOut)))
        opF (.mk false (fun _ => .call opG [] .ofOut)))
      (.call opF [.int 5] .ofOut) .ofOut)) ⟨[], []⟩ (.ok (.int 7)) s₁ ∧ s₁.world = [111] ∧
    Runs logDefault (.prog (.handle
      (.bind (.bind .nil opG (.mk true (fun _ => .fwd [] .ofOut)))
        opF (.mk false (fun _ => .ret (.int 0))))
      (.call opG [] .ofOut) .ofOut)) ⟨[], []⟩ (.ok (.int 7)) s₂ ∧ s₂.world = [110] :=
  ⟨_, _, ⟨30, rfl⟩, rfl, ⟨30, rfl⟩, rfl⟩

/-- C04 fails in the other direction: with an outer handler without parameters, `fwd()` runs it
and `fwd(*args)` raises a `TypeError`. -/
theorem C04_fwd_to_nullary_fails : ∃ s₁ s₂,
    Runs logDefault (.prog (.handle
      (.coprod (.bind .nil opF (.mk true (fun _ => .ret (.int 1))))
        (.bind .nil opF (.mk false (fun _ => .fwd [] .ofOut))))
      (.call opF [.int 5] .ofOut) .ofOut)) ⟨[], []⟩ (.ok (.int 1)) s₁ ∧
    Runs logDefault (.prog (.handle
      (.coprod (.bind .nil opF (.mk true (fun _ => .ret (.int 1))))
        (.bind .nil opF (.mk false (fun args => .fwd args .ofOut))))
      (.call opF [.int 5] .ofOut) .ofOut)) ⟨[], []⟩ (.error .typeError) s₂ :=
  ⟨_, _, ⟨30, rfl⟩, ⟨30, rfl⟩⟩

/-! ## C05, C06, C07 -/

/-- C05–C07 at any depth: rewriting a program by associativity of `coproduct`, the unit laws and
the nesting law, anywhere (in handler bodies, continuations, blocks), changes no result,
exception or effect.  `ProgW False none` is the compatible closure of these laws. -/
theorem C05_C06_C07_rewrite_anywhere (Δ : Defaults W) (p p' : Prog W)
    (h : ProgW False none p p') (w : W) (r : Out) (w' : W) :
    Runs Δ (.prog p) ⟨[], w⟩ r ⟨[], w'⟩ ↔ Runs Δ (.prog p') ⟨[], w⟩ r ⟨[], w'⟩ :=
  runs_congr (fun _ _ _ h => h.elim) h w r w'

/-- An interpretation that occurs while a program runs: it stands for handler stacks (by
`Rel`), and arguments are recorded only inside a handler. -/
def Live (I : Intp W) : Prop := ∃ Γ, Rel I Γ ∧ (Γ.args ≠ none → Γ.kont ≠ none)

theorem Live.init : Live ([] : Intp W) := ⟨Ctx.init, Rel.init, fun h => absurd rfl h⟩
theorem Live.handle {I : Intp W} (h : Live I) (i : IExpr W) : Live (coproduct I i.compile) := by
  obtain ⟨Γ, hR, hl⟩ := h
  exact ⟨_, hR.handle i, hl⟩
theorem Live.interp (i : IExpr W) : Live i.compile :=
  ⟨_, Rel.interp i, fun h => absurd rfl h⟩

theorem All2.rfl {α : Type} {R : α → α → Prop} (hR : ∀ x, R x x) : ∀ l, All2 R l l
  | [] => .nil
  | x :: l => .cons (hR x) (All2.rfl hR l)

theorem CtxC.refl (Γ : Ctx W) (h : Γ.args ≠ none → Γ.kont ≠ none) : CtxC False Γ Γ where
  env u := by
    cases Γ.env u with
    | none => exact .none
    | some e =>
      refine .some rfl ?_ (All2.rfl (fun f => .weaken (Fn.rfl f (fun h => h.elim))) _)
      cases e.raw with
      | true => exact Fn.rfl _ (fun h => h.elim)
      | false => exact .weaken (Fn.rfl _ (fun h => h.elim))
  kont := by
    cases Γ.kont with
    | none => exact .none
    | some k => exact .some (All2.rfl (fun f => .weaken (Fn.rfl f (fun h => h.elim))) _)
  args := rfl
  inside := h

theorem runs_congr_live {Δ : Defaults W} {I : Intp W} (hI : Live I) {p p' : Prog W}
    (h : ProgW False none p p') (w : W) (r : Out) (s' : St W) :
    Runs Δ (.prog p) ⟨I, w⟩ r s' ↔ Runs Δ (.prog p') ⟨I, w⟩ r s' := by
  obtain ⟨Γ, hR, hl⟩ := hI
  rw [runs_iff hR, runs_iff hR]
  constructor
  · rintro ⟨h1, h2⟩
    exact ⟨congr_sim (fun _ _ _ h => h.elim) h1 (CtxC.refl Γ hl) (.prog (fun x e => by cases e) h), h2⟩
  · rintro ⟨h1, h2⟩
    exact ⟨congr_sim (fun _ _ _ h => h.elim) h1 (CtxC.refl Γ hl)
      (.prog (fun x e => by cases e) h.symm), h2⟩

private theorem no {α : Prop} : False → α := fun h => h.elim

/-- C05: `coproduct(coproduct(a, b), c)` and `coproduct(a, coproduct(b, c))`, installed with
`handler` over any interpretation in use, run every program alike. -/
theorem C05_coproduct_assoc (Δ : Defaults W) (a b c : IExpr W) (p : Prog W) (k : Out → Prog W)
    (I : Intp W) (hI : Live I) (w : W) (r : Out) (s' : St W) :
    Runs Δ (.prog (.handle (.coprod (.coprod a b) c) p k)) ⟨I, w⟩ r s' ↔
      Runs Δ (.prog (.handle (.coprod a (.coprod b c)) p k)) ⟨I, w⟩ r s' :=
  runs_congr_live hI (.base (.handle (.assoc (IExpr.rfl' a no) (IExpr.rfl' b no) (IExpr.rfl' c no))
    (Prog.rfl p no) (fun v => Prog.rfl (k v) no))) w r s'

/-- C05: the same with `interpreter`. -/
theorem C05_coproduct_assoc_interpreter (Δ : Defaults W) (a b c : IExpr W) (p : Prog W)
    (k : Out → Prog W) (I : Intp W) (hI : Live I) (w : W) (r : Out) (s' : St W) :
    Runs Δ (.prog (.interp (.coprod (.coprod a b) c) p k)) ⟨I, w⟩ r s' ↔
      Runs Δ (.prog (.interp (.coprod a (.coprod b c)) p k)) ⟨I, w⟩ r s' :=
  runs_congr_live hI (.base (.interp (.assoc (IExpr.rfl a no) (IExpr.rfl b no) (IExpr.rfl c no))
    (Prog.rfl p no) (fun v => Prog.rfl (k v) no))) w r s'

/-- C06: `handler({})` changes nothing. -/
theorem C06_handler_empty (Δ : Defaults W) (p : Prog W) (I : Intp W) (hI : Live I) (w : W)
    (r : Out) (s' : St W) :
    Runs Δ (.prog (.handle .nil p .ofOut)) ⟨I, w⟩ r s' ↔ Runs Δ (.prog p) ⟨I, w⟩ r s' :=
  runs_congr_live hI (.base (.unit (Prog.rfl p no))) w r s'

/-- C06: `handler(coproduct({}, i))` is `handler(i)`. -/
theorem C06_unit_left (Δ : Defaults W) (i : IExpr W) (p : Prog W) (k : Out → Prog W)
    (I : Intp W) (hI : Live I) (w : W) (r : Out) (s' : St W) :
    Runs Δ (.prog (.handle (.coprod .nil i) p k)) ⟨I, w⟩ r s' ↔
      Runs Δ (.prog (.handle i p k)) ⟨I, w⟩ r s' :=
  runs_congr_live hI (.base (.handle (.unitL (IExpr.rfl' i no))
    (Prog.rfl p no) (fun v => Prog.rfl (k v) no))) w r s'

/-- C06: `handler(coproduct(i, {}))` is `handler(i)`. -/
theorem C06_unit_right (Δ : Defaults W) (i : IExpr W) (p : Prog W) (k : Out → Prog W)
    (I : Intp W) (hI : Live I) (w : W) (r : Out) (s' : St W) :
    Runs Δ (.prog (.handle (.coprod i .nil) p k)) ⟨I, w⟩ r s' ↔
      Runs Δ (.prog (.handle i p k)) ⟨I, w⟩ r s' :=
  runs_congr_live hI (.base (.handle (.unitR (IExpr.rfl' i no))
    (Prog.rfl p no) (fun v => Prog.rfl (k v) no))) w r s'

/-- C07: two nested blocks are one block of the coproduct. -/
theorem C07_nested_is_coproduct (Δ : Defaults W) (a b : IExpr W) (p : Prog W) (k : Out → Prog W)
    (I : Intp W) (hI : Live I) (w : W) (r : Out) (s' : St W) :
    Runs Δ (.prog (.handle a (.handle b p .ofOut) k)) ⟨I, w⟩ r s' ↔
      Runs Δ (.prog (.handle (.coprod a b) p k)) ⟨I, w⟩ r s' :=
  runs_congr_live hI (.base (.nest (IExpr.rfl' a no) (IExpr.rfl' b no)
    (Prog.rfl p no) (fun v => Prog.rfl (k v) no))) w r s'

/-- C05–C07, example: a live interpretation with two handlers for one operation, and a program
that reaches all of them. -/
example : Live (coproduct (IExpr.bind .nil opF (logFwd 1)).compile
    (IExpr.bind .nil opF (logFwd 2)).compile) := (Live.interp _).handle _
example : ∃ s', Runs logDefault (.prog (.handle (.coprod (.coprod (.bind .nil opF (logFwd 3))
      (.bind .nil opF (logFwd 4))) (.bind .nil opF (logFwd 5))) (.call opF [.int 0] .ofOut) .ofOut))
    ⟨coproduct (IExpr.bind .nil opF (logFwd 1)).compile
      (IExpr.bind .nil opF (logFwd 2)).compile, []⟩ (.ok (.int 7)) s' ∧
    s'.world = [5, 4, 3, 2, 1, 101] := ⟨_, ⟨60, rfl⟩, rfl⟩

/-- C06 has a limit: `interpreter(coproduct({}, i))` is not `interpreter(i)`; only the former
records the arguments for `fwd()`. -/
theorem C06_interpreter_unit_fails : ∃ s₁ s₂,
    Runs logDefault (.prog (.interp (.coprod .nil (.bind .nil opF (logFwd 1)))
      (.call opF [.int 0] .ofOut) .ofOut)) ⟨[], []⟩ (.ok (.int 7)) s₁ ∧ s₁.world = [1, 101] ∧
    Runs logDefault (.prog (.interp (.bind .nil opF (logFwd 1))
      (.call opF [.int 0] .ofOut) .ofOut)) ⟨[], []⟩ (.ok (.int 7)) s₂ ∧ s₂.world = [1, 100] :=
  ⟨_, _, ⟨60, rfl⟩, rfl, ⟨60, rfl⟩, rfl⟩

end Verif.Runtime
