import Verif.Llm.Exec

/-!
# C51: REPL sessions

Model of `ReplSession` (`handlers/llm/evaluation.py` 586-688) on the model of code and eval providers in `Exec`.

* Sources are numbers; the texts of tracebacks are given by a function of the snippet.
* `sys.stdout`/`sys.stderr` are only written to (no `seek` on them by the snippet); a snippet does not call `exec_code` of
  its own session.
* The seed is a dict, or a `ChainMap` of dicts; its flat view is what its lookup gives.
-/

namespace Verif.Exec

/-- The provider that is installed. -/
inductive Provider where
  | unrestricted (builtins : Val)
  | restricted (base guard : Dict)

/-- `exec(bytecode, env)`. -/
def Provider.exec : Provider → DictId → Code → St → St × Outcome
  | .unrestricted b => unsafeExec b
  | .restricted base guard => restrictedExec base guard

/-- The lookup of a `ChainMap`: the first dict with the name. -/
def chainGet (heap : DictId → Dict) : List DictId → VName → Option Val
  | [], _ => none
  | d :: ds, k =>
    match heap d k with
    | some v => some v
    | none => chainGet heap ds k

/-- A session: its namespace and the sources so far. The captured output is in the state. -/
structure Session where
  scope : DictId
  prior : List Nat

/-- `ReplSession(env)` (610-633) for the dicts of `env`; also gives the dicts of `env` afterwards if it is a `ChainMap`. -/
def newSession (maps : List DictId) (s : St) : Session × List DictId × St :=
  let scope := s.next
  (⟨scope, []⟩, scope :: maps, { s.update scope (chainGet s.heap maps) with next := s.next + 1, out := [], err := [] })

/-- A snippet: its source, its code, and the traceback that is shown if it raises. -/
structure Snippet where
  source : Nat
  code : Code
  traceback : List Nat

/-- `exec_code(code)` (653-688) with `runcode` (641-651): the session and state after it and the text returned; no text
if `SystemExit` propagates. -/
def execCode (p : Provider) (z : Session) (x : Snippet) (s : St) : Session × St × Option (List Nat) :=
  let outStart := s.out.length
  let errStart := s.err.length
  let z := { z with prior := z.prior ++ [x.source] }
  match p.exec z.scope x.code s with
  | (s, .ok) => (z, s, some (s.out.drop outStart ++ s.err.drop errStart))
  | (s, .error) =>
    let s := { s with err := s.err ++ x.traceback }
    (z, s, some (s.out.drop outStart ++ s.err.drop errStart))
  | (s, .exit) => (z, s, none)

/-- Calls one after the other (an exit of one ends that call only; the caller may go on). -/
def execAll (p : Provider) (z : Session) : List Snippet → St → Session × St
  | [], s => (z, s)
  | x :: xs, s => execAll p (execCode p z x s).1 xs (execCode p z x s).2.1

/-! ## What is stated -/

/-- How a snippet ends in a state. -/
def ends (p : Provider) (z : Session) (x : Snippet) (s : St) : Outcome := (p.exec z.scope x.code s).2

/-- The sources of the error-free snippets of a sequence, in order. -/
def errorFree (p : Provider) (z : Session) : List Snippet → St → List Nat
  | [], _ => []
  | x :: xs, s =>
    (if ends p z x s = .ok then [x.source] else []) ++ errorFree p (execCode p z x s).1 xs (execCode p z x s).2.1

/-- None of the snippets raises. -/
def NoErrors (p : Provider) (z : Session) : List Snippet → St → Prop
  | [], _ => True
  | x :: xs, s => ends p z x s = .ok ∧ NoErrors p (execCode p z x s).1 xs (execCode p z x s).2.1

/-- `base` and `guard` have the names they should have, if restricted. -/
def Provider.Ok : Provider → Prop
  | .unrestricted _ => True
  | .restricted base guard => Reserved base guard

/-- Not one of the names the providers use themselves. -/
def Plain (k : VName) : Prop := k ≠ nBuiltins ∧ k ∉ guards ∧ k ∉ defaults

/-! ## Proofs -/

/-- Output is only added to, dicts other than that of the session (and new ones) change by recorded writes only. -/
theorem exec_spec (p : Provider) (env : DictId) (c : Code) (s s' : St) (o : Outcome) (hn : env < s.next)
    (h : p.exec env c s = (s', o)) :
    ∃ l x y, s'.log = s.log ++ l ∧ s'.out = s.out ++ x ∧ s'.err = s.err ++ y ∧ s.next ≤ s'.next ∧
      ∀ d k, d ≠ env → d < s.next → s'.heap d k = match lastWrite l d k with | some w => w | none => s.heap d k := by
  cases p with
  | unrestricted b =>
    unfold Provider.exec unsafeExec at h
    obtain ⟨l, x, y, h1, h2, h3, h4, h5⟩ := run_spec _ _ _ _ _ h
    refine ⟨l, x, y, ?_, ?_, ?_, ?_, ?_⟩
    · rw [h1]; split <;> rfl
    · rw [h2]; split <;> rfl
    · rw [h3]; split <;> rfl
    · rw [h4]; split <;> exact Nat.le_refl _
    · intro d k hd _
      rw [h5]
      cases lastWrite l d k with
      | some w => rfl
      | none =>
        simp only
        split
        · rfl
        · simp [St.update, hd]
  | restricted base guard =>
    obtain ⟨l, x, y, h1, h2, h3, h4, h5, -⟩ := restricted_spec hn h
    exact ⟨l, x, y, h1, h2, h3, by rw [h4]; exact Nat.le_succ _, fun d k hd hl => h5 d k hd (Nat.ne_of_lt hl)⟩

/-- The parts of one call. -/
theorem execCode_eq (p : Provider) (z : Session) (x : Snippet) (s : St) :
    (execCode p z x s).1 = ⟨z.scope, z.prior ++ [x.source]⟩ ∧
    (execCode p z x s).2.1.heap = (p.exec z.scope x.code s).1.heap ∧
    (execCode p z x s).2.1.next = (p.exec z.scope x.code s).1.next ∧
    (execCode p z x s).2.1.log = (p.exec z.scope x.code s).1.log := by
  unfold execCode
  cases h : p.exec z.scope x.code s with
  | mk s' o => cases o <;> simp [h]

/-- Each call returns exactly what was written to standard output and then what was written to standard error since it
began; what was there before is kept. -/
theorem C51_output (p : Provider) (z z' : Session) (x : Snippet) (s s' : St) (r : List Nat) (hn : z.scope < s.next)
    (h : execCode p z x s = (z', s', some r)) :
    ∃ o e, s'.out = s.out ++ o ∧ s'.err = s.err ++ e ∧ r = o ++ e ∧
      (ends p z x s = .error → ∃ e', e = e' ++ x.traceback) := by
  unfold execCode at h
  cases hr : p.exec z.scope x.code s with
  | mk s₁ o₁ =>
    obtain ⟨l, o, e, h1, h2, h3, -, -⟩ := exec_spec p z.scope x.code s s₁ o₁ hn hr
    simp only [hr] at h
    cases o₁ with
    | ok =>
      simp only [Prod.mk.injEq, Option.some.injEq] at h
      obtain ⟨-, rfl, rfl⟩ := h
      refine ⟨o, e, h2, h3, by rw [h2, h3]; simp, ?_⟩
      intro he; simp [ends, hr] at he
    | error =>
      simp only [Prod.mk.injEq, Option.some.injEq] at h
      obtain ⟨-, rfl, rfl⟩ := h
      exact ⟨o, e ++ x.traceback, h2, by simp [h3], by simp [h2, h3], fun _ => ⟨e, rfl⟩⟩
    | exit => simp at h

/-- Only `SystemExit` propagates. -/
theorem C51_survives (p : Provider) (z : Session) (x : Snippet) (s : St) :
    (∃ r, (execCode p z x s).2.2 = some r) ↔ ends p z x s ≠ .exit := by
  unfold execCode ends
  cases h : p.exec z.scope x.code s with
  | mk s' o => cases o <;> simp [h]

/-- What code writes does not depend on the output so far. -/
theorem run_output (own : DictId) (c : Code) (s t : St) (hh : s.heap = t.heap) :
    ∃ o e h, (run own c s).1.out = s.out ++ o ∧ (run own c s).1.err = s.err ++ e ∧
      (run own c t).1.out = t.out ++ o ∧ (run own c t).1.err = t.err ++ e ∧ (run own c s).2 = (run own c t).2 ∧
      (run own c s).1.heap = h ∧ (run own c t).1.heap = h := by
  induction c generalizing s t with
  | done => exact ⟨[], [], s.heap, by simp [run], by simp [run], by simp [run], by simp [run], rfl, rfl, hh.symm⟩
  | raise => exact ⟨[], [], s.heap, by simp [run], by simp [run], by simp [run], by simp [run], rfl, rfl, hh.symm⟩
  | exit => exact ⟨[], [], s.heap, by simp [run], by simp [run], by simp [run], by simp [run], rfl, rfl, hh.symm⟩
  | self k ih => simp only [run]; exact ih own s t hh
  | get d n k ih => simp only [run]; rw [← hh]; exact ih _ s t hh
  | set d n v k ih =>
    simp only [run]
    exact ih { s.update d ((s.heap d).put n (some v)) with log := s.log ++ [(d, n, some v)] }
      { t.update d ((t.heap d).put n (some v)) with log := t.log ++ [(d, n, some v)] } (by simp [St.update, hh])
  | del d n k ih =>
    simp only [run, ← hh]
    cases s.heap d n with
    | none => exact ⟨[], [], s.heap, by simp, by simp, by simp, by simp, rfl, rfl, hh.symm⟩
    | some v =>
      exact ih { s.update d ((s.heap d).put n none) with log := s.log ++ [(d, n, none)] }
        { t.update d ((s.heap d).put n none) with log := t.log ++ [(d, n, none)] } (by simp [St.update, hh])
  | out t' k ih =>
    simp only [run]
    obtain ⟨o, e, h, h1, h2, h3, h4, h5⟩ := ih { s with out := s.out ++ t' } { t with out := t.out ++ t' } hh
    exact ⟨t' ++ o, e, h, by rw [h1]; simp, h2, by rw [h3]; simp, h4, h5⟩
  | err t' k ih =>
    simp only [run]
    obtain ⟨o, e, h, h1, h2, h3, h4, h5⟩ := ih { s with err := s.err ++ t' } { t with err := t.err ++ t' } hh
    exact ⟨o, t' ++ e, h, h1, by rw [h2]; simp, h3, by rw [h4]; simp, h5⟩

theorem exec_output (p : Provider) (env : DictId) (c : Code) (s t : St) (hh : s.heap = t.heap) (hn : s.next = t.next) :
    ∃ o e, (p.exec env c s).1.out = s.out ++ o ∧ (p.exec env c s).1.err = s.err ++ e ∧
      (p.exec env c t).1.out = t.out ++ o ∧ (p.exec env c t).1.err = t.err ++ e ∧
      (p.exec env c s).2 = (p.exec env c t).2 := by
  cases p with
  | unrestricted b =>
    simp only [Provider.exec, unsafeExec]
    rw [← hh]
    split
    · obtain ⟨o, e, -, h1, h2, h3, h4, h5, -⟩ := run_output env c s t hh
      exact ⟨o, e, h1, h2, h3, h4, h5⟩
    · obtain ⟨o, e, -, h1, h2, h3, h4, h5, -⟩ := run_output env c
        (s.update env ((s.heap env).put nBuiltins (some b))) (t.update env ((s.heap env).put nBuiltins (some b)))
        (by simp [St.update, hh])
      exact ⟨o, e, h1, h2, h3, h4, h5⟩
  | restricted base guard =>
    simp only [Provider.exec, restrictedExec]
    rw [← hh, ← hn]
    obtain ⟨o, e, -, h1, h2, h3, h4, h5, -⟩ := run_output s.next c
      { s.update s.next (rglobals base guard (s.heap env)) with next := s.next + 1 }
      { t.update s.next (rglobals base guard (s.heap env)) with next := s.next + 1 } (by simp [St.update, hh])
    refine ⟨o, e, ?_⟩
    revert h1 h2 h3 h4 h5
    cases run s.next c { s.update s.next (rglobals base guard (s.heap env)) with next := s.next + 1 } with
    | mk s₁ o₁ =>
      cases run s.next c { t.update s.next (rglobals base guard (s.heap env)) with next := s.next + 1 } with
      | mk t₁ o₂ =>
        intro h1 h2 h3 h4 h5
        simp only at h1 h2 h3 h4 h5
        subst h5
        cases o₁ <;> exact ⟨h1, h2, h3, h4, rfl⟩

/-- What a call returns does not depend on the output of earlier ones, nor on their sources. -/
theorem C51_own_output (p : Provider) (z w : Session) (hz : z.scope = w.scope) (x : Snippet) (s t : St)
    (hh : s.heap = t.heap) (hn : s.next = t.next) : (execCode p z x s).2.2 = (execCode p w x t).2.2 := by
  obtain ⟨o, e, h1, h2, h3, h4, h5⟩ := exec_output p z.scope x.code s t hh hn
  unfold execCode
  simp only [← hz]
  revert h1 h2 h3 h4 h5
  cases p.exec z.scope x.code s with
  | mk s₁ o₁ =>
    cases p.exec z.scope x.code t with
    | mk t₁ o₂ =>
      intro h1 h2 h3 h4 h5
      simp only at h1 h2 h3 h4 h5
      subst h5
      cases o₁ with
      | ok => simp [h1, h2, h3, h4]
      | error => simp [h1, h2, h3, h4]
      | exit => rfl

/-- The sources are those of all calls, in order; they are the error-free ones if none raises. -/
theorem C51_prior_partial (p : Provider) (z : Session) (xs : List Snippet) (s : St) (h : NoErrors p z xs s) :
    (execAll p z xs s).1.prior = z.prior ++ errorFree p z xs s := by
  induction xs generalizing z s with
  | nil => simp [execAll, errorFree]
  | cons x xs ih =>
    obtain ⟨h1, h2⟩ := h
    rw [execAll, ih _ _ h2, errorFree, (execCode_eq p z x s).1, if_pos h1]
    simp

theorem C51_prior_all (p : Provider) (z : Session) (xs : List Snippet) (s : St) :
    (execAll p z xs s).1.prior = z.prior ++ xs.map (·.source) := by
  induction xs generalizing z s with
  | nil => simp [execAll]
  | cons x xs ih => rw [execAll, ih, (execCode_eq p z x s).1]; simp

theorem chainGet_iff (heap : DictId → Dict) (maps : List DictId) (k : VName) (v : Val) :
    chainGet heap maps k = some v ↔ ∃ pre d post, maps = pre ++ d :: post ∧ (∀ d' ∈ pre, heap d' k = none) ∧
      heap d k = some v := by
  induction maps with
  | nil => simp [chainGet]
  | cons d ds ih =>
    rw [chainGet]
    cases hd : heap d k with
    | some w =>
      simp only [Option.some.injEq]
      constructor
      · rintro rfl; exact ⟨[], d, ds, rfl, by simp, hd⟩
      · rintro ⟨pre, d', post, he, hp, hv⟩
        cases pre with
        | nil => cases he; rw [hd] at hv; exact Option.some.inj hv
        | cons a pre => cases he; rw [hp d (List.mem_cons_self ..)] at hd; cases hd
    | none =>
      rw [ih]
      constructor
      · rintro ⟨pre, d', post, rfl, hp, hv⟩
        refine ⟨d :: pre, d', post, rfl, ?_, hv⟩
        intro x hx
        rcases List.mem_cons.1 hx with rfl | hx
        · exact hd
        · exact hp x hx
      · rintro ⟨pre, d', post, he, hp, hv⟩
        cases pre with
        | nil => cases he; rw [hd] at hv; cases hv
        | cons a pre => cases he; exact ⟨pre, d', post, rfl, fun x hx => hp x (List.mem_cons_of_mem _ hx), hv⟩

/-- The session stays in one dict; at the start a name there has the value of the first dict of the seed that has it. -/
theorem C51_seeded (maps : List DictId) (s : St) (k : VName) :
    (∀ v, (newSession maps s).2.2.heap (newSession maps s).1.scope k = some v ↔
      ∃ pre d post, maps = pre ++ d :: post ∧ (∀ d' ∈ pre, s.heap d' k = none) ∧ s.heap d k = some v) ∧
    ∀ p xs s', (execAll p (newSession maps s).1 xs s').1.scope = (newSession maps s).1.scope := by
  refine ⟨fun v => by rw [← chainGet_iff]; simp [newSession, St.update], ?_⟩
  intro p xs
  generalize (newSession maps s).1 = z
  induction xs generalizing z with
  | nil => intro s'; rfl
  | cons x xs ih =>
    intro s'
    rw [execAll, ih, (execCode_eq p z x s').1]

/-- Under the unrestricted provider a name is as last assigned or deleted by any earlier snippet, raising or not. -/
theorem C51_bindings_unrestricted (b : Val) (z : Session) (xs : List Snippet) (s : St) (k : VName) (hk : k ≠ nBuiltins) :
    (execAll (.unrestricted b) z xs s).2.heap z.scope k =
      match lastWrite (written s (execAll (.unrestricted b) z xs s).2) z.scope k with
      | some w => w
      | none => s.heap z.scope k := by
  suffices h : ∃ l, (execAll (.unrestricted b) z xs s).2.log = s.log ++ l ∧
      (execAll (.unrestricted b) z xs s).2.heap z.scope k =
        match lastWrite l z.scope k with | some w => w | none => s.heap z.scope k by
    obtain ⟨l, h1, h2⟩ := h
    rw [written_eq h1, h2]
  induction xs generalizing z s with
  | nil => exact ⟨[], by simp [execAll], rfl⟩
  | cons x xs ih =>
    rw [execAll]
    obtain ⟨hz, hh, -, hl⟩ := execCode_eq (.unrestricted b) z x s
    obtain ⟨l, h1, h2⟩ := ih (execCode (.unrestricted b) z x s).1 (execCode (.unrestricted b) z x s).2.1
    rw [hz] at h1 h2 ⊢
    rw [hl] at h1
    rw [hh] at h2
    cases hr : (Provider.unrestricted b).exec z.scope x.code s with
    | mk s₁ o₁ =>
      rw [hr] at h1 h2
      have hu := C50_unsafe b z.scope x.code s s₁ o₁ hr k hk
      obtain ⟨l', -, -, h3, -⟩ := run_spec _ _ _ _ _ hr
      have h3 : s₁.log = s.log ++ l' := by rw [h3]; split <;> rfl
      rw [written_eq h3] at hu
      refine ⟨l' ++ l, by simp only at h1; rw [h1, h3, List.append_assoc], ?_⟩
      simp only at h2
      rw [h2, lastWrite_append]
      cases lastWrite l z.scope k with
      | some w => rfl
      | none => exact hu

/-- Under both providers: a name that an error-free snippet assigns last is seen with that value by the next one, if the
snippet has run in `own`. -/
theorem C51_bindings_partial (p : Provider) (hp : p.Ok) (z : Session) (x : Snippet) (s : St) (k : VName) (v : Val)
    (hk : Plain k) (hn : z.scope < s.next) (ho : ends p z x s = .ok) (own : DictId)
    (hown : own = match p with | .unrestricted _ => z.scope | .restricted _ _ => s.next)
    (hw : lastWrite (written s (execCode p z x s).2.1) own k = some (some v))
    (he : own = z.scope ∨ lastWrite (written s (execCode p z x s).2.1) z.scope k = none) :
    (execCode p z x s).2.1.heap (execCode p z x s).1.scope k = some v ∧
    match p with
    | .unrestricted _ => True
    | .restricted base guard =>
      rglobals base guard ((execCode p z x s).2.1.heap (execCode p z x s).1.scope) k = some v := by
  obtain ⟨hz, hh, -, hl⟩ := execCode_eq p z x s
  unfold written at hw he
  rw [hz, hh]
  rw [hl] at hw he
  cases p with
  | unrestricted b =>
    refine ⟨?_, trivial⟩
    subst hown
    cases hr : (Provider.unrestricted b).exec z.scope x.code s with
    | mk s₁ o₁ =>
      rw [hr] at hw
      have := C50_unsafe b z.scope x.code s s₁ o₁ hr k hk.1
      unfold written at this
      simp only at hw
      rw [hw] at this
      exact this
  | restricted base guard =>
    subst hown
    have h1 : ((Provider.restricted base guard).exec z.scope x.code s).1.heap z.scope k = some v := by
      cases hr : (Provider.restricted base guard).exec z.scope x.code s with
      | mk s₁ o₁ =>
        have ho' : o₁ = .ok := by simpa [ends, hr] using ho
        subst ho'
        rw [hr] at hw he
        refine C50_assigned_partial base guard hp z.scope x.code s s₁ hn hr k v hk.1 hk.2.1 hk.2.2 hw ?_
        rcases he with he | he
        · exact absurd he.symm (Nat.ne_of_lt hn)
        · exact he
    exact ⟨h1, (C50_seen base guard _ hp).1 k v h1 hk.1 hk.2.1⟩

/-- Dicts of the seed are changed by nothing but writes of the snippets themselves to them (by calling a function whose
globals they are). -/
theorem C51_seed (p : Provider) (maps : List DictId) (s : St) (xs : List Snippet) (d : DictId) (hd : d < s.next)
    (k : VName)
    (hw : lastWrite (written s (execAll p (newSession maps s).1 xs (newSession maps s).2.2).2) d k = none) :
    (execAll p (newSession maps s).1 xs (newSession maps s).2.2).2.heap d k = s.heap d k := by
  have key : ∀ (xs : List Snippet) (z : Session) (t : St), z.scope < t.next → d < z.scope →
      ∃ l, (execAll p z xs t).2.log = t.log ++ l ∧
        (execAll p z xs t).2.heap d k = match lastWrite l d k with | some w => w | none => t.heap d k := by
    intro xs
    induction xs with
    | nil => intro z t _ _; exact ⟨[], by simp [execAll], rfl⟩
    | cons x xs ih =>
      intro z t hz hdz
      obtain ⟨e1, e2, e3, e4⟩ := execCode_eq p z x t
      cases hr : p.exec z.scope x.code t with
      | mk s₁ o₁ =>
        obtain ⟨l, -, -, h1, -, -, h4, h5⟩ := exec_spec p z.scope x.code t s₁ o₁ hz hr
        rw [hr] at e2 e3 e4
        obtain ⟨l', h6, h7⟩ := ih (execCode p z x t).1 (execCode p z x t).2.1 (by
          rw [e1, e3]; exact Nat.lt_of_lt_of_le hz h4) (by rw [e1]; exact hdz)
        rw [execAll]
        refine ⟨l ++ l', by rw [h6, e4, h1, List.append_assoc], ?_⟩
        rw [h7, lastWrite_append]
        cases lastWrite l' d k with
        | some w => rfl
        | none =>
          simp only [e2]
          exact h5 d k (Nat.ne_of_lt hdz) (Nat.lt_trans hdz hz)
  obtain ⟨l, h1, h2⟩ := key xs (newSession maps s).1 (newSession maps s).2.2 (Nat.lt_succ_self _) hd
  have hl : (newSession maps s).2.2.log = s.log := rfl
  rw [hl] at h1
  rw [written_eq h1] at hw
  rw [h2, hw]
  simp [newSession, St.update, Nat.ne_of_lt hd]

/-! ## Where the property fails -/

namespace ReplExample
open ExecExample

/-- The restricted provider and a session seeded with dict 0. -/
def prov : Provider := .restricted exBase exGuard
def free : Provider := .unrestricted (.obj 300)
def sess : Session := (newSession [0] start).1
def init : St := (newSession [0] start).2.2

/-- `def f(): return g` -/
def defF : Snippet := ⟨1, .self fun d => .set d 30 (.fn d 31) .done, []⟩
/-- `g = 7` -/
def setG : Snippet := ⟨2, .self fun d => .set d 31 (.obj 7) .done, []⟩
/-- `print(f())`: looks up `g` in the globals of `f`; 1 is printed if it is there. -/
def callF : Snippet := ⟨3, .self fun d => .get d 30 fun f =>
  match f with
  | some (.fn d' n) => .get d' n fun g => match g with | some _ => .out [1] .done | none => .raise
  | _ => .raise, [9]⟩
/-- `g = 7; raise E` -/
def setRaise : Snippet := ⟨4, .self fun d => .set d 31 (.obj 7) .raise, [9]⟩
/-- `print(g)` -/
def printG : Snippet := ⟨5, .self fun d => .get d 31 fun g => match g with | some _ => .out [1] .done | none => .raise, [9]⟩
/-- `del x` -/
def delX : Snippet := ⟨6, .self fun d => .del d 20 .done, [9]⟩

/-- What the last of the snippets returns. -/
def lastResult (p : Provider) (xs : List Snippet) (x : Snippet) : Option (List Nat) :=
  (execCode p (execAll p sess xs init).1 x (execAll p sess xs init).2).2.2

example : lastResult free [defF, setG] callF = some [1] := rfl
example : lastResult prov [setG] printG = some [1] := rfl
example : lastResult free [setRaise] printG = some [1] := rfl

end ReplExample

open ReplExample ExecExample

/-- A raising snippet is listed too. -/
theorem C51_prior_fails : ∃ (p : Provider) (z : Session) (xs : List Snippet) (s : St), p.Ok ∧ z.prior = [] ∧
    (execAll p z xs s).1.prior ≠ errorFree p z xs s :=
  ⟨free, sess, [⟨1, .raise, []⟩], init, trivial, rfl, by
    rw [C51_prior_all]; decide⟩

/-- Under the restricted provider a function does not see names that later snippets bind (it raises, where the same
snippets print under the unrestricted one). -/
theorem C51_later_fails : prov.Ok ∧ lastResult prov [defF, setG] callF = some [9] ∧
    lastResult free [defF, setG] callF = some [1] := ⟨example_reserved, rfl, rfl⟩

/-- Under the restricted provider what a raising snippet has bound is lost. -/
theorem C51_raising_fails : prov.Ok ∧ lastResult prov [setRaise] printG = some [9] ∧
    lastResult free [setRaise] printG = some [1] := ⟨example_reserved, rfl, rfl⟩

/-- Under the restricted provider a deleted name is there again for the next snippet. -/
theorem C51_deleted_fails : prov.Ok ∧ lastResult prov [delX] delX = some [] ∧
    lastResult free [delX] delX = some [9] := ⟨example_reserved, rfl, rfl⟩

/-- A seed that is a `ChainMap` gets the namespace of the session as its first dict: its lookups change. -/
theorem C51_chain_fails : ∃ (maps : List DictId) (s : St) (k : VName) (x : Snippet),
    let z := newSession maps s
    chainGet (execCode free z.1 x z.2.2).2.1.heap z.2.1 k ≠ chainGet s.heap maps k :=
  ⟨[0], start, 31, setG, by decide⟩

end Verif.Exec
