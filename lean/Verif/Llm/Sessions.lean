/-!
# C82: one REPL session for each call of a template

Model of `PythonRepl` (`handlers/llm/completions.py` 295-347), of the operation `_repl_session` (`handlers/llm/evaluation.py`
691-705) and of what `ReplSession.__init__` does with the context (`evaluation.py` 610-633), while `PythonRepl` is installed.

Simplifications: names, values, dicts and contexts are numbers. What a template does is a sequence of actions, which are
performed in order. Exceptions are left out. `LiteLLMProvider` puts another layer into the context of a call for templates that are not
recursive (`completions.py` 667-668), which is left out. What code does in a session is to bind names (C51 has the rest).
-/

namespace Verif.Llm.Sessions

abbrev Dict := Nat → Option Nat

def Dict.put (d : Dict) (k v : Nat) : Dict := fun n => if n = k then some v else d n

/-- Which context is asked for tools. -/
inductive Ref where
  /-- The context of the call that runs: `collect_tools(env)` in `call_assistant`. -/
  | own
  /-- The context of a template: `template.tools` (`template.py` 216-231). -/
  | template (c : Nat)

mutual
/-- What happens. -/
inductive Act where
  /-- The tools are collected, which asks for the session. -/
  | ask (r : Ref)
  /-- The tool `exec_code` of the running call runs an assignment. -/
  | run (k v : Nat)
  /-- A variable of a dict is changed, for instance one of a module. -/
  | set (d k v : Nat)
  /-- A template with this context is called. -/
  | call (c : Nat) (args : Dict) (body : Acts)
inductive Acts where
  | nil
  | cons (a : Act) (as : Acts)
end

/-- A session that was given out, and the running call at the time. -/
structure Obs where
  call : Option Nat
  session : Nat

structure State where
  dicts : Nat → Dict
  nDicts : Nat
  /-- The maps of a context. -/
  chains : Nat → List Nat
  nChains : Nat
  /-- The namespaces of sessions. -/
  scopes : Nat → Nat
  nSessions : Nat
  nCalls : Nat
  log : List Obs

def upd {α : Type} (f : Nat → α) (n : Nat) (a : α) : Nat → α := fun m => if m = n then a else f m

/-- The value of a name in a `ChainMap`. -/
def get (dicts : Nat → Dict) : List Nat → Dict
  | [], _ => none
  | d :: ds, k =>
    match dicts d k with
    | some v => some v
    | none => get dicts ds k

/-- `ReplSession(env)` (610-626): a flat copy of the context becomes its first layer. -/
def newSession (c : Nat) (s : State) : State :=
  { s with
    dicts := upd s.dicts s.nDicts (get s.dicts (s.chains c))
    nDicts := s.nDicts + 1
    chains := upd s.chains c (s.nDicts :: s.chains c)
    scopes := upd s.scopes s.nSessions s.nDicts
    nSessions := s.nSessions + 1 }

def note (call : Option Nat) (z : Nat) (s : State) : State := { s with log := s.log ++ [⟨call, z⟩] }

/-- The running call: its number and its context. -/
abbrev Cur := Option (Nat × Nat)

/-- `_repl_session(env)`: `session_for` (325-331) in a call, else a new session (`evaluation.py` 705). -/
def askSession (cur : Cur) (cell : Option Nat) (c : Nat) (s : State) : State × Option Nat :=
  match cur with
  | none => (note none s.nSessions (newSession c s), none)
  | some (n, _) =>
    match cell with
    | some z => (note (some n) z s, some z)
    | none => (note (some n) s.nSessions (newSession c s), some s.nSessions)

mutual
/-- An action; `cell` is the variable `session` of the running call (323). -/
def step (cur : Cur) (cell : Option Nat) (s : State) : Act → State × Option Nat
  | .ask (.template c) => askSession cur cell c s
  | .ask .own =>
    match cur with
    | none => (s, cell)
    | some (n, e) => askSession (some (n, e)) cell e s
  | .run k v =>
    match cell with
    | none => (s, cell)
    | some z => ({ s with dicts := upd s.dicts (s.scopes z) ((s.dicts (s.scopes z)).put k v) }, cell)
  | .set d k v => ({ s with dicts := upd s.dicts d ((s.dicts d).put k v) }, cell)
  | .call c args body =>
    -- `template.__context__.new_child(bound_args.arguments)` (`completions.py` 665); `_apply` (316-334)
    let s' := { s with
      dicts := upd s.dicts s.nDicts args
      nDicts := s.nDicts + 1
      chains := upd s.chains s.nChains (s.nDicts :: s.chains c)
      nChains := s.nChains + 1
      nCalls := s.nCalls + 1 }
    ((steps (some (s.nCalls, s.nChains)) none s' body).1, cell)
  termination_by structural a => a
def steps (cur : Cur) (cell : Option Nat) (s : State) : Acts → State × Option Nat
  | .nil => (s, cell)
  | .cons a as => steps cur (step cur cell s a).2 (step cur cell s a).1 as
  termination_by structural as => as
end

/-! ## Specification -/

/-- The sessions of two observations are the same exactly if they were made in the same call. -/
def Fits (a b : Obs) : Prop := a.session = b.session ↔ a.call.isSome ∧ a.call = b.call

mutual
/-- In calls, only the context of the call is asked; outside of calls nothing is. -/
def Act.Clean (inCall : Bool) : Act → Prop
  | .ask .own => inCall = true
  | .ask (.template _) => False
  | .run _ _ => True
  | .set _ _ _ => True
  | .call _ _ body => body.Clean true
  termination_by structural a => a
def Acts.Clean (inCall : Bool) : Acts → Prop
  | .nil => True
  | .cons a as => a.Clean inCall ∧ as.Clean inCall
  termination_by structural as => as
end

mutual
/-- The changes of variables among actions, in order, made to a dict. -/
def Act.changes (d : Nat) (x : Dict) : Act → Dict
  | .set d' k v => if d' = d then x.put k v else x
  | .call _ _ body => body.changes d x
  | _ => x
  termination_by structural a => a
def Acts.changes (d : Nat) (x : Dict) : Acts → Dict
  | .nil => x
  | .cons a as => as.changes d (a.changes d x)
  termination_by structural as => as
end

mutual
/-- Variables are changed in dicts below a number only. -/
def Act.SetsBelow (n : Nat) : Act → Prop
  | .set d _ _ => d < n
  | .call _ _ body => body.SetsBelow n
  | _ => True
  termination_by structural a => a
def Acts.SetsBelow (n : Nat) : Acts → Prop
  | .nil => True
  | .cons a as => a.SetsBelow n ∧ as.SetsBelow n
  termination_by structural as => as
end

/-- What the last assignment to a name by the code of this call, not of calls in it, assigns. -/
def lastRun (k : Nat) (x : Option Nat) : Acts → Option Nat
  | .nil => x
  | .cons (.run k' v) as => lastRun k (if k' = k then some v else x) as
  | .cons (.ask _) as => lastRun k x as
  | .cons (.set _ _ _) as => lastRun k x as
  | .cons (.call _ _ _) as => lastRun k x as

/-! ## Proofs: sessions -/

structure Inv (cur : Cur) (cell : Option Nat) (s : State) : Prop where
  bound : ∀ o ∈ s.log, o.session < s.nSessions ∧ ∀ c, o.call = some c → c < s.nCalls
  curOk : ∀ n e, cur = some (n, e) → n < s.nCalls
  cellOk : ∀ z, cell = some z → z < s.nSessions ∧ cur.isSome = true
  own : ∀ o ∈ s.log, ∀ n e, cur = some (n, e) → (o.call = some n ↔ cell = some o.session)
  fits : s.log.Pairwise Fits

structure Post (cur : Cur) (cell : Option Nat) (s : State) (cell' : Option Nat) (s' : State) : Prop where
  inv : Inv cur cell' s'
  sessions : s.nSessions ≤ s'.nSessions
  calls : s.nCalls ≤ s'.nCalls
  keep : ∀ z, cell = some z → cell' = some z
  new : ∀ z, cell' = some z → cell = some z ∨ s.nSessions ≤ z
  log : ∃ new, s'.log = s.log ++ new ∧ ∀ o ∈ new,
    (∃ n e, cur = some (n, e) ∧ o.call = some n ∧ cell' = some o.session) ∨
      (s.nSessions ≤ o.session ∧ ∀ c, o.call = some c → s.nCalls ≤ c)

theorem Post.same {cur cell s s'} (h : Inv cur cell s) (h1 : s'.log = s.log) (h2 : s'.nSessions = s.nSessions)
    (h3 : s'.nCalls = s.nCalls) : Post cur cell s cell s' where
  inv := ⟨by rw [h1, h2, h3]; exact h.bound, by rw [h3]; exact h.curOk, by rw [h2]; exact h.cellOk, by rw [h1]; exact h.own,
    by rw [h1]; exact h.fits⟩
  sessions := Nat.le_of_eq h2.symm
  calls := Nat.le_of_eq h3.symm
  keep := fun _ h => h
  new := fun _ h => .inl h
  log := ⟨[], by rw [h1, List.append_nil], fun o ho => (nomatch ho)⟩

theorem Post.trans {cur cell s cell' s' cell'' s''} (h : Post cur cell s cell' s') (h' : Post cur cell' s' cell'' s'') :
    Post cur cell s cell'' s'' where
  inv := h'.inv
  sessions := Nat.le_trans h.sessions h'.sessions
  calls := Nat.le_trans h.calls h'.calls
  keep := fun z hz => h'.keep z (h.keep z hz)
  new := fun z hz => by
    rcases h'.new z hz with h1 | h1
    · exact h.new z h1
    · exact .inr (Nat.le_trans h.sessions h1)
  log := by
    obtain ⟨n1, e1, f1⟩ := h.log
    obtain ⟨n2, e2, f2⟩ := h'.log
    refine ⟨n1 ++ n2, by rw [e2, e1, List.append_assoc], fun o ho => ?_⟩
    rcases List.mem_append.mp ho with ho | ho
    · rcases f1 o ho with ⟨n, e, a, b, c⟩ | h1
      · exact .inl ⟨n, e, a, b, h'.keep _ c⟩
      · exact .inr h1
    · rcases f2 o ho with h1 | h1
      · exact .inl h1
      · exact .inr ⟨Nat.le_trans h.sessions h1.1, fun c hc => Nat.le_trans h.calls (h1.2 c hc)⟩

theorem pairwise_snoc {l : List Obs} {o : Obs} (h : l.Pairwise Fits) (ho : ∀ a ∈ l, Fits a o) : (l ++ [o]).Pairwise Fits :=
  List.pairwise_append.mpr ⟨h, List.pairwise_singleton .., fun a ha b hb => by
    rw [List.mem_singleton.mp hb]; exact ho a ha⟩

theorem ask_post {cur : Cur} {cell : Option Nat} {s : State} (c : Nat) (h : Inv cur cell s) :
    Post cur cell s (askSession cur cell c s).2 (askSession cur cell c s).1 := by
  cases cur with
  | none =>
    have hcell : cell = none := by
      cases cell with
      | none => rfl
      | some z => exact absurd (h.cellOk z rfl).2 (fun h => (nomatch h))
    subst hcell
    refine ⟨⟨?_, fun n e he => (nomatch he), fun z hz => (nomatch hz), fun o _ n e he => (nomatch he), ?_⟩, Nat.le_succ _, Nat.le_refl _,
      fun z hz => hz, fun z hz => .inl hz, ⟨[_], rfl, ?_⟩⟩
    · intro o ho
      rcases List.mem_append.mp ho with ho | ho
      · exact ⟨Nat.lt_succ_of_lt (h.bound o ho).1, (h.bound o ho).2⟩
      · obtain rfl := List.mem_singleton.mp ho
        exact ⟨Nat.lt_succ_self _, fun c hc => (nomatch hc)⟩
    · refine pairwise_snoc h.fits fun a ha => ⟨fun he => ?_, fun he => ?_⟩
      · exact absurd he (Nat.ne_of_lt (h.bound a ha).1)
      · rw [he.2] at he; exact nomatch he.1
    · intro o ho
      obtain rfl := List.mem_singleton.mp ho
      exact .inr ⟨Nat.le_refl _, fun c hc => (nomatch hc)⟩
  | some ne =>
    obtain ⟨n, e⟩ := ne
    cases cell with
    | none =>
      refine ⟨⟨?_, h.curOk, ?_, ?_, ?_⟩, Nat.le_succ _, Nat.le_refl _, fun z hz => (nomatch hz), ?_, ⟨[_], rfl, ?_⟩⟩
      · intro o ho
        rcases List.mem_append.mp ho with ho | ho
        · exact ⟨Nat.lt_succ_of_lt (h.bound o ho).1, (h.bound o ho).2⟩
        · obtain rfl := List.mem_singleton.mp ho
          exact ⟨Nat.lt_succ_self _, fun c hc => by cases hc; exact h.curOk n e rfl⟩
      · intro z hz
        cases hz
        exact ⟨Nat.lt_succ_self _, rfl⟩
      · intro o ho n' e' he
        cases he
        rcases List.mem_append.mp ho with ho | ho
        · refine ⟨fun hc => ?_, fun hc => ?_⟩
          · exact nomatch (h.own o ho n e rfl).mp hc
          · exact absurd (Option.some.inj hc).symm (Nat.ne_of_lt (h.bound o ho).1)
        · obtain rfl := List.mem_singleton.mp ho
          exact ⟨fun _ => rfl, fun _ => rfl⟩
      · refine pairwise_snoc h.fits fun a ha => ⟨fun he => ?_, fun he => ?_⟩
        · exact absurd he (Nat.ne_of_lt (h.bound a ha).1)
        · exact nomatch (h.own a ha n e rfl).mp he.2
      · intro z hz
        cases hz
        exact .inr (Nat.le_refl _)
      · intro o ho
        obtain rfl := List.mem_singleton.mp ho
        exact .inl ⟨n, e, rfl, rfl, rfl⟩
    | some z =>
      refine ⟨⟨?_, h.curOk, h.cellOk, ?_, ?_⟩, Nat.le_refl _, Nat.le_refl _, fun z hz => hz, fun z hz => .inl hz, ⟨[_], rfl, ?_⟩⟩
      · intro o ho
        rcases List.mem_append.mp ho with ho | ho
        · exact h.bound o ho
        · obtain rfl := List.mem_singleton.mp ho
          exact ⟨(h.cellOk z rfl).1, fun c hc => by cases hc; exact h.curOk n e rfl⟩
      · intro o ho n' e' he
        cases he
        rcases List.mem_append.mp ho with ho | ho
        · exact h.own o ho n e rfl
        · obtain rfl := List.mem_singleton.mp ho
          exact ⟨fun _ => rfl, fun _ => rfl⟩
      · refine pairwise_snoc h.fits fun a ha => ⟨fun he => ?_, fun he => ?_⟩
        · have hc := (h.own a ha n e rfl).mpr (congrArg some (he : a.session = z).symm)
          exact ⟨by rw [hc]; rfl, hc⟩
        · exact (Option.some.inj ((h.own a ha n e rfl).mp he.2)).symm
      · intro o ho
        obtain rfl := List.mem_singleton.mp ho
        exact .inl ⟨n, e, rfl, rfl, rfl⟩

mutual
theorem step_post (cur : Cur) (cell : Option Nat) (s : State) (h : Inv cur cell s) : ∀ a : Act,
    Post cur cell s (step cur cell s a).2 (step cur cell s a).1
  | .ask (.template c) => ask_post c h
  | .ask .own =>
    match cur, h with
    | none, h => .same h rfl rfl rfl
    | some (_, e), h => ask_post e h
  | .run k v =>
    match cell, h with
    | none, h => .same h rfl rfl rfl
    | some _, h => .same h rfl rfl rfl
  | .set d k v => .same h rfl rfl rfl
  | .call c args body => by
    let s' : State := { s with
      dicts := upd s.dicts s.nDicts args
      nDicts := s.nDicts + 1
      chains := upd s.chains s.nChains (s.nDicts :: s.chains c)
      nChains := s.nChains + 1
      nCalls := s.nCalls + 1 }
    have h' : Inv (some (s.nCalls, s.nChains)) none s' := by
      refine ⟨fun o ho => ⟨(h.bound o ho).1, fun c hc => Nat.lt_succ_of_lt ((h.bound o ho).2 c hc)⟩, ?_, fun z hz => (nomatch hz), ?_,
        h.fits⟩
      · intro n e he
        cases he
        exact Nat.lt_succ_self _
      · intro o ho n e he
        cases he
        exact ⟨fun hc => absurd ((h.bound o ho).2 _ hc) (Nat.lt_irrefl _), fun hc => (nomatch hc)⟩
    have p := steps_post (some (s.nCalls, s.nChains)) none s' h' body
    show Post cur cell s cell (steps (some (s.nCalls, s.nChains)) none s' body).1
    have hs : s.nSessions ≤ (steps (some (s.nCalls, s.nChains)) none s' body).1.nSessions := p.sessions
    have hc : s.nCalls ≤ (steps (some (s.nCalls, s.nChains)) none s' body).1.nCalls := Nat.le_of_succ_le p.calls
    obtain ⟨new, e, f⟩ := p.log
    have f' : ∀ o ∈ new, s.nSessions ≤ o.session ∧ ∀ c, o.call = some c → s.nCalls ≤ c := by
      intro o ho
      rcases f o ho with ⟨n, e, h1, h2, h3⟩ | h1
      · cases h1
        refine ⟨?_, fun c hc => ?_⟩
        · rcases p.new _ h3 with h4 | h4
          · exact nomatch h4
          · exact h4
        · rw [h2] at hc
          cases hc
          exact Nat.le_refl _
      · exact ⟨h1.1, fun c hc => Nat.le_of_succ_le (h1.2 c hc)⟩
    refine ⟨⟨p.inv.bound, fun n e he => Nat.lt_of_lt_of_le (h.curOk n e he) hc, fun z hz =>
      ⟨Nat.lt_of_lt_of_le (h.cellOk z hz).1 hs, (h.cellOk z hz).2⟩, ?_, p.inv.fits⟩, hs, hc, fun z hz => hz, fun z hz => .inl hz,
      ⟨new, e, fun o ho => .inr (f' o ho)⟩⟩
    intro o ho n e' he
    rw [e] at ho
    rcases List.mem_append.mp ho with ho | ho
    · exact h.own o ho n e' he
    · refine ⟨fun h1 => ?_, fun h1 => ?_⟩
      · exact absurd (h.curOk n e' he) (Nat.not_lt.mpr ((f' o ho).2 n h1))
      · exact absurd (h.cellOk _ h1).1 (Nat.not_lt.mpr (f' o ho).1)
theorem steps_post (cur : Cur) (cell : Option Nat) (s : State) (h : Inv cur cell s) : ∀ as : Acts,
    Post cur cell s (steps cur cell s as).2 (steps cur cell s as).1
  | .nil => .same h rfl rfl rfl
  | .cons a as =>
    have p := step_post cur cell s h a
    p.trans (steps_post cur _ _ p.inv as)
end

/-! ## Proofs: contexts -/

theorem upd_same {α : Type} (f : Nat → α) (n : Nat) (a : α) : upd f n a n = a := if_pos rfl

theorem upd_ne {α : Type} (f : Nat → α) {n m : Nat} (a : α) (h : m ≠ n) : upd f n a m = f m := if_neg h

/-- Nothing below the two numbers is touched but by changes of variables. -/
structure Apart (nd nc : Nat) (cur : Cur) (cell : Option Nat) (s : State) : Prop where
  dicts : nd ≤ s.nDicts
  chains : nc ≤ s.nChains
  curOk : ∀ n e, cur = some (n, e) → nc ≤ e
  cellOk : ∀ z, cell = some z → nd ≤ s.scopes z ∧ z < s.nSessions

structure Kept (nd nc : Nat) (changes : Nat → Dict → Dict) (s s' : State) : Prop where
  dicts : ∀ d, d < nd → s'.dicts d = changes d (s.dicts d)
  chains : ∀ c, c < nc → s'.chains c = s.chains c
  scopes : ∀ z, z < s.nSessions → s'.scopes z = s.scopes z
  nDicts : s.nDicts ≤ s'.nDicts
  nChains : s.nChains ≤ s'.nChains
  nSessions : s.nSessions ≤ s'.nSessions

theorem own_kept {nd nc n e : Nat} {cell : Option Nat} {s : State} (h : Apart nd nc (some (n, e)) cell s) :
    Apart nd nc (some (n, e)) (askSession (some (n, e)) cell e s).2 (askSession (some (n, e)) cell e s).1 ∧
      Kept nd nc (fun _ x => x) s (askSession (some (n, e)) cell e s).1 := by
  cases cell with
  | some z => exact ⟨⟨h.dicts, h.chains, h.curOk, h.cellOk⟩, ⟨fun _ _ => rfl, fun _ _ => rfl, fun _ _ => rfl, Nat.le_refl _, Nat.le_refl _,
      Nat.le_refl _⟩⟩
  | none =>
    refine ⟨⟨Nat.le_succ_of_le h.dicts, h.chains, h.curOk, ?_⟩, ⟨?_, ?_, ?_, Nat.le_succ _, Nat.le_refl _, Nat.le_succ _⟩⟩
    · intro z hz
      cases hz
      refine ⟨?_, Nat.lt_succ_self _⟩
      show nd ≤ upd s.scopes s.nSessions s.nDicts s.nSessions
      rw [upd_same]
      exact h.dicts
    · exact fun d hd => upd_ne _ _ (Nat.ne_of_lt (Nat.lt_of_lt_of_le hd h.dicts))
    · exact fun c hc => upd_ne _ _ (Nat.ne_of_lt (Nat.lt_of_lt_of_le hc (h.curOk n e rfl)))
    · exact fun z hz => upd_ne _ _ (Nat.ne_of_lt hz)

mutual
theorem step_kept (nd nc : Nat) (cur : Cur) (cell : Option Nat) (s : State) (h : Apart nd nc cur cell s) : ∀ a : Act,
    a.Clean cur.isSome → Apart nd nc cur (step cur cell s a).2 (step cur cell s a).1 ∧
      Kept nd nc (fun d x => a.changes d x) s (step cur cell s a).1
  | .ask (.template c), hc => by
    rw [Act.Clean] at hc
    exact hc.elim
  | .ask .own, hc =>
    match cur, h with
    | none, _ => by
      rw [Act.Clean] at hc
      exact nomatch hc
    | some (_, _), h => own_kept h
  | .run k v, _ =>
    match cell, h with
    | none, h => ⟨h, ⟨fun _ _ => rfl, fun _ _ => rfl, fun _ _ => rfl, Nat.le_refl _, Nat.le_refl _, Nat.le_refl _⟩⟩
    | some z, h => ⟨⟨h.dicts, h.chains, h.curOk, h.cellOk⟩,
      ⟨fun d hd => upd_ne _ _ (Nat.ne_of_lt (Nat.lt_of_lt_of_le hd (h.cellOk z rfl).1)), fun _ _ => rfl, fun _ _ => rfl,
        Nat.le_refl _, Nat.le_refl _, Nat.le_refl _⟩⟩
  | .set d k v, _ => by
    refine ⟨⟨h.dicts, h.chains, h.curOk, h.cellOk⟩, ⟨fun d' _ => ?_, fun _ _ => rfl, fun _ _ => rfl, Nat.le_refl _, Nat.le_refl _,
      Nat.le_refl _⟩⟩
    show upd s.dicts d ((s.dicts d).put k v) d' = if d = d' then (s.dicts d').put k v else s.dicts d'
    by_cases e : d = d'
    · subst e
      rw [upd_same, if_pos rfl]
    · rw [upd_ne _ _ (fun h => e h.symm), if_neg e]
  | .call c args body, hc => by
    rw [Act.Clean] at hc
    let s' : State := { s with
      dicts := upd s.dicts s.nDicts args
      nDicts := s.nDicts + 1
      chains := upd s.chains s.nChains (s.nDicts :: s.chains c)
      nChains := s.nChains + 1
      nCalls := s.nCalls + 1 }
    have h' : Apart nd nc (some (s.nCalls, s.nChains)) none s' := by
      refine ⟨Nat.le_succ_of_le h.dicts, Nat.le_succ_of_le h.chains, ?_, fun z hz => (nomatch hz)⟩
      intro n e he
      cases he
      exact h.chains
    obtain ⟨_, k⟩ := steps_kept nd nc (some (s.nCalls, s.nChains)) none s' h' body hc
    have k' : Kept nd nc (fun d x => body.changes d x) s (steps (some (s.nCalls, s.nChains)) none s' body).1 := by
      refine ⟨fun d hd => ?_, fun c hc => ?_, k.scopes, Nat.le_of_succ_le k.nDicts, Nat.le_of_succ_le k.nChains, k.nSessions⟩
      · rw [k.dicts d hd]
        exact congrArg (fun x => body.changes d x) (upd_ne _ _ (Nat.ne_of_lt (Nat.lt_of_lt_of_le hd h.dicts)))
      · rw [k.chains c hc]
        exact upd_ne _ _ (Nat.ne_of_lt (Nat.lt_of_lt_of_le hc h.chains))
    exact ⟨⟨Nat.le_trans h.dicts k'.nDicts, Nat.le_trans h.chains k'.nChains, h.curOk, fun z hz => by
      show nd ≤ (steps (some (s.nCalls, s.nChains)) none s' body).1.scopes z ∧ _
      rw [k'.scopes z (h.cellOk z hz).2]
      exact ⟨(h.cellOk z hz).1, Nat.lt_of_lt_of_le (h.cellOk z hz).2 k'.nSessions⟩⟩, k'⟩
theorem steps_kept (nd nc : Nat) (cur : Cur) (cell : Option Nat) (s : State) (h : Apart nd nc cur cell s) : ∀ as : Acts,
    as.Clean cur.isSome → Apart nd nc cur (steps cur cell s as).2 (steps cur cell s as).1 ∧
      Kept nd nc (fun d x => as.changes d x) s (steps cur cell s as).1
  | .nil, _ => ⟨h, ⟨fun _ _ => rfl, fun _ _ => rfl, fun _ _ => rfl, Nat.le_refl _, Nat.le_refl _, Nat.le_refl _⟩⟩
  | .cons a as, hc => by
    rw [Acts.Clean] at hc
    obtain ⟨h1, k1⟩ := step_kept nd nc cur cell s h a hc.1
    obtain ⟨h2, k2⟩ := steps_kept nd nc cur _ _ h1 as hc.2
    refine ⟨h2, ⟨fun d hd => ?_, fun c hc => ?_, fun z hz => ?_, Nat.le_trans k1.nDicts k2.nDicts,
      Nat.le_trans k1.nChains k2.nChains, Nat.le_trans k1.nSessions k2.nSessions⟩⟩
    · exact (k2.dicts d hd).trans (congrArg (fun x => as.changes d x) (k1.dicts d hd))
    · exact (k2.chains c hc).trans (k1.chains c hc)
    · exact (k2.scopes z (Nat.lt_of_lt_of_le hz k1.nSessions)).trans (k1.scopes z hz)
end

mutual
theorem changes_above {n d : Nat} (h : n ≤ d) (x : Dict) : ∀ a : Act, a.SetsBelow n → a.changes d x = x
  | .set d' k v, hs => by
    rw [Act.SetsBelow] at hs
    rw [Act.changes, if_neg (Nat.ne_of_lt (Nat.lt_of_lt_of_le hs h))]
  | .call _ _ body, hs => changes_above' h x body (by rw [Act.SetsBelow] at hs; exact hs)
  | .ask _, _ => rfl
  | .run _ _, _ => rfl
theorem changes_above' {n d : Nat} (h : n ≤ d) (x : Dict) : ∀ as : Acts, as.SetsBelow n → as.changes d x = x
  | .nil, _ => rfl
  | .cons a as, hs => by
    rw [Acts.SetsBelow] at hs
    rw [Acts.changes, changes_above h x a hs.1, changes_above' h x as hs.2]
end

/-- With a session, its namespace stays first in the context, and only its own code changes it. -/
theorem steps_scope (n0 n e z : Nat) (k : Nat) : ∀ (as : Acts) (s : State), as.Clean true → as.SetsBelow n0 →
    n0 ≤ s.scopes z → s.scopes z < s.nDicts → e < s.nChains → z < s.nSessions →
    (steps (some (n, e)) (some z) s as).1.chains e = s.chains e ∧
      (steps (some (n, e)) (some z) s as).1.dicts (s.scopes z) k = lastRun k (s.dicts (s.scopes z) k) as := by
  intro as
  induction as using Acts.rec (motive_1 := fun _ => True) with
  | nil => intro s _ _ _ _ _ _; exact ⟨rfl, rfl⟩
  | cons a as _ ih =>
    intro s hc hs h1 h2 h3 h4
    rw [Acts.Clean] at hc
    rw [Acts.SetsBelow] at hs
    cases a with
    | ask r =>
      cases r with
      | own => exact ih _ hc.2 hs.2 h1 h2 h3 h4
      | template c =>
        have := hc.1
        rw [Act.Clean] at this
        exact this.elim
    | run k' v =>
      obtain ⟨i1, i2⟩ := ih { s with dicts := upd s.dicts (s.scopes z) ((s.dicts (s.scopes z)).put k' v) } hc.2 hs.2 h1 h2 h3 h4
      refine ⟨i1, i2.trans ?_⟩
      rw [lastRun]
      refine congrArg (fun x => lastRun k x as) ?_
      show upd s.dicts (s.scopes z) ((s.dicts (s.scopes z)).put k' v) (s.scopes z) k = _
      rw [upd_same, Dict.put]
      by_cases hk : k = k'
      · rw [if_pos hk, if_pos hk.symm]
      · rw [if_neg hk, if_neg (fun h => hk h.symm)]
    | set d k' v =>
      have hd := hs.1
      rw [Act.SetsBelow] at hd
      obtain ⟨i1, i2⟩ := ih { s with dicts := upd s.dicts d ((s.dicts d).put k' v) } hc.2 hs.2 h1 h2 h3 h4
      refine ⟨i1, i2.trans ?_⟩
      rw [lastRun]
      refine congrArg (fun x => lastRun k x as) ?_
      show upd s.dicts d ((s.dicts d).put k' v) (s.scopes z) k = _
      rw [upd_ne _ _ (Nat.ne_of_gt (Nat.lt_of_lt_of_le hd h1))]
    | call c args body =>
      obtain ⟨_, kept⟩ := step_kept s.nDicts s.nChains none none s
        ⟨Nat.le_refl _, Nat.le_refl _, fun _ _ h => (nomatch h), fun _ h => (nomatch h)⟩ (.call c args body)
        (by have := hc.1; rw [Act.Clean] at this ⊢; exact this)
      let s1 := (step none none s (.call c args body)).1
      have es : s1.scopes z = s.scopes z := kept.scopes z h4
      obtain ⟨i1, i2⟩ := ih s1 hc.2 hs.2 (by rw [es]; exact h1) (by rw [es]; exact Nat.lt_of_lt_of_le h2 kept.nDicts)
        (Nat.lt_of_lt_of_le h3 kept.nChains) (Nat.lt_of_lt_of_le h4 kept.nSessions)
      refine ⟨i1.trans (kept.chains e h3), ?_⟩
      rw [es] at i2
      refine i2.trans ?_
      rw [lastRun]
      refine congrArg (fun x => lastRun k x as) ?_
      rw [kept.dicts _ h2]
      exact congrFun (changes_above h1 _ _ hs.1) k
  | ask => trivial
  | run => trivial
  | set => trivial
  | call => trivial

/-! ## Theorems -/

/-- Whatever happens, two times that a session was given out, it was the same one exactly if this was in the same call of a template. -/
theorem C82_sessions (s : State) (h : s.log = []) (as : Acts) : (steps none none s as).1.log.Pairwise Fits :=
  (steps_post none none s ⟨by rw [h]; exact fun o ho => (nomatch ho), fun _ _ he => (nomatch he), fun _ hz => (nomatch hz),
    by rw [h]; exact fun o ho => (nomatch ho), by rw [h]; exact .nil⟩ as).inv.fits

/-- Calls leave the contexts of templates, and all variables there were, as they are; but for the changes of variables that are not made
in a session. -/
theorem C82_no_leak_partial (s : State) (as : Acts) (h : as.Clean false) :
    (∀ c, c < s.nChains → (steps none none s as).1.chains c = s.chains c) ∧
      ∀ d, d < s.nDicts → (steps none none s as).1.dicts d = as.changes d (s.dicts d) := by
  obtain ⟨_, k⟩ := steps_kept s.nDicts s.nChains none none s
    ⟨Nat.le_refl _, Nat.le_refl _, fun _ _ h => (nomatch h), fun _ h => (nomatch h)⟩ as h
  exact ⟨k.chains, k.dicts⟩

/-- From the first time that tools are collected in a call, a name has in the context the value that the code of the session gave it
last, or else the value it had at that time. Calls in this call do not matter. -/
theorem C82_visible_partial (n e k v : Nat) (s : State) (he : e < s.nChains) (as : Acts) (h : as.Clean true)
    (hs : as.SetsBelow s.nDicts) (hv : lastRun k (get s.dicts (s.chains e) k) as = some v) :
    get (steps (some (n, e)) none s (.cons (.ask .own) as)).1.dicts
      ((steps (some (n, e)) none s (.cons (.ask .own) as)).1.chains e) k = some v := by
  let s1 := note (some n) s.nSessions (newSession e s)
  have e1 : steps (some (n, e)) none s (.cons (.ask .own) as) = steps (some (n, e)) (some s.nSessions) s1 as := rfl
  have sc : s1.scopes s.nSessions = s.nDicts := upd_same ..
  obtain ⟨h1, h2⟩ := steps_scope s.nDicts n e s.nSessions k as s1 h hs (Nat.le_of_eq sc.symm) (by rw [sc]; exact Nat.lt_succ_self _)
    he (Nat.lt_succ_self _)
  rw [sc] at h2
  have h3 : s1.dicts s.nDicts = get s.dicts (s.chains e) := upd_same ..
  have h4 : s1.chains e = s.nDicts :: s.chains e := upd_same ..
  rw [e1, h1, h4, get, h2, h3, hv]

/-! ## Examples -/

def emptyDict : Dict := fun _ => none

/-- A template whose context has the variables of a module: name 5 is 50. -/
def start : State where
  dicts := fun d => if d = 0 then emptyDict.put 5 50 else emptyDict
  nDicts := 1
  chains := fun c => if c = 0 then [0] else []
  nChains := 1
  scopes := fun _ => 0
  nSessions := 0
  nCalls := 0
  log := []

def acts : List Act → Acts
  | [] => .nil
  | a :: as => .cons a (acts as)

/-- Two rounds in a call with another call between them. -/
def program : Acts := acts [.call 0 emptyDict (acts [.ask .own, .run 7 70,
  .call 0 emptyDict (acts [.ask .own, .run 7 71, .ask .own]), .ask .own])]

example : (steps none none start program).1.log = [⟨some 0, 0⟩, ⟨some 1, 1⟩, ⟨some 1, 1⟩, ⟨some 0, 0⟩] := rfl

example : program.Clean false := by simp [program, acts, Acts.Clean, Act.Clean]

example : lastRun 7 none (acts [.run 7 70, .call 0 emptyDict (acts [.ask .own, .run 7 71]), .ask .own]) = some 70 := rfl

/-- Tools are listed outside of a call (`template.tools`): the context of the template has another layer from then on, which hides a
change of the module's variable. -/
theorem C82_listing_fails : ∃ (s : State) (as : Acts), (steps none none s as).1.chains 0 ≠ s.chains 0 ∧
    as.changes 0 (s.dicts 0) 5 = some 51 ∧
    get (steps none none s as).1.dicts (s.chains 0) 5 = some 51 ∧
    get (steps none none s as).1.dicts ((steps none none s as).1.chains 0) 5 = some 50 :=
  ⟨start, acts [.ask (.template 0), .set 0 5 51], by decide, rfl, rfl, rfl⟩

/-- The tools of a template are listed in a call before its own tools are: what the code of the session assigns is then in the
context of that template after the call. -/
theorem C82_leak_fails : ∃ (s : State) (as : Acts), (∀ x : Nat, get s.dicts (s.chains 0) 7 ≠ some x) ∧
    get (steps none none s as).1.dicts ((steps none none s as).1.chains 0) 7 = some 70 :=
  ⟨start, acts [.call 0 emptyDict (acts [.ask (.template 0), .ask .own, .run 7 70])], fun _ h => (nomatch h), rfl⟩

/-- A change of a module's variable during a call is not seen in the context of the call. -/
theorem C82_stale_fails : ∃ (s : State) (n e : Nat) (as : Acts), as.Clean true ∧ e < s.nChains ∧
    get (steps (some (n, e)) none s as).1.dicts (s.chains e) 5 = some 51 ∧
    get (steps (some (n, e)) none s as).1.dicts ((steps (some (n, e)) none s as).1.chains e) 5 = some 50 :=
  ⟨start, 0, 0, acts [.ask .own, .set 0 5 51], by simp [acts, Acts.Clean, Act.Clean], by decide, rfl, rfl⟩

end Verif.Llm.Sessions
