/-!
# Snippets are type-checked before they run (C101)

Model of a call of a template with the tool `exec_code`, from the replies of the model to the snippets that run:

* `_pydantic_type_code.validate` (`handlers/llm/encoding.py` 225-261), which parses, scans, type-checks and compiles a snippet;
* `_recover_template_def` (`handlers/llm/evaluation.py` 260-289), as far as its three results, and `_splice_repl` (292-337), as far as the
  statements that are put into the body and the number of those whose errors count (which lines these are: C60);
* `ReplSession.prior_snippets` (635-639) and `exec_code` (653-688), as far as the list of sources;
* `call_assistant` (`handlers/llm/completions.py` 419-458): all tool calls of a reply are decoded, then the reply is returned;
  `RetryLLMHandler` (593-602, 604-610, 628-644), `LiteLLMProvider._call` (684-695): the tool calls of a reply are executed in order.

Simplifications:
* The parser, the scan for imports that cannot be nested, the compiler and the type checker are arbitrary functions; so are what a snippet
  and what another tool do. The language model is an arbitrary function of all that has happened in the call.
* `ast.parse` in `_splice_repl` and the operation `parse` give the same statements (both providers call `ast.parse`).
* Encoding a decoded snippet gives its source (C65), so the session's list has the sources that were sent. Snippets and tools do not call
  `exec_code` of this session. Calls of other templates have sessions of their own (C82) and are part of what tools and snippets do.
* `type_check` raises `TypeError` if and only if the checker finds an error in the region; if mypy cannot run, there is a `RuntimeError`,
  which has the same effect here.
* Of the history only what is needed here is recorded, as a list of events.
-/

namespace Verif.Llm.Checked

/-- Source code. -/
abbrev Src := List Char

/-- What `_recover_template_def` finds for the function of the template (evaluation.py 270-289): there may be no anchor in the context at
all (encoding.py 249-250), its source may be unavailable (279-281, `None`), or available without the definition (284-288, `RuntimeError`). -/
inductive Anchor
  | absent | sourceless | drifted | found

/-- How running a snippet ends: normally, with an exception (whose traceback is returned as text), with `SystemExit`. -/
inductive Ending
  | ok | raised | exit
  deriving DecidableEq

/-- Why something is rejected: encoding.py 228-231, 239-240 (`syntax`, `nonNestable`), an exception of `_splice_repl` (`spliced`,
`drift`), 257 (`illTyped`), 260-261 (`compile`); `undecodable`: other tool calls and results that cannot be decoded. -/
inductive Err
  | notString | syntax | nonNestable | spliced | drift | illTyped | compile | undecodable
  deriving DecidableEq

/-- A tool call of a reply: `exec_code` with a string or with something else, or another call. -/
inductive Call
  | code (arg : Option Src)
  | tool (i : Nat)

/-- A reply: its tool calls, and whether its text can be decoded (completions.py 440-458). -/
structure Reply where
  calls : List Call
  valid : Bool

/-- A decoded tool call: a code object (with the source that is found for it in `linecache`) or another. -/
inductive Decoded
  | code (s : Src)
  | tool (i : Nat)

/-- What happens: the model is asked; the type checker is run on a body, of which the errors in the last `n` statements count; a reply is
rejected; a snippet is run; another tool is run. -/
inductive Event (Stmt : Type)
  | asked
  | checked (body : List Stmt) (n : Nat) (passed : Bool)
  | rejected (e : Err)
  | ran (s : Src) (e : Ending)
  | tool (i : Nat) (raised : Bool)

/-- Everything that is arbitrary. -/
structure World (σ Stmt : Type) where
  parse : Src → Option (List Stmt)
  nestable : List Stmt → Bool
  compiles : List Stmt → Bool
  passes : List Stmt → Nat → Bool
  run : σ → Src → σ × Ending
  decodes : Nat → Bool
  tool : σ → Nat → σ × Bool
  anchor : Anchor
  llm : List (Event Stmt) → Reply

/-- The state of a call: the rest of the world, `session._prior_snippets` and what has happened. -/
structure St (σ Stmt : Type) where
  w : σ
  prior : List Src
  log : List (Event Stmt)

variable {σ Stmt : Type}

/-- `"".join(s if s.endswith("\n") else s + "\n" for s in [*prior, snippet])` (evaluation.py 326). -/
def joined (ss : List Src) : Src :=
  (ss.map fun s => if s.getLast? = some '\n' then s else s ++ ['\n']).flatten

/-- `_splice_repl` (evaluation.py 315-337): the body and how many of its last statements are those of the snippet. -/
def spliceRepl (W : World σ Stmt) (prior : List Src) (s : Src) : Except Err (Option (List Stmt × Nat)) :=
  match W.parse s with
  | none => .error .spliced
  | some cur =>
    if cur.length = 0 then .ok none
    else match W.anchor with
      | .drifted => .error .drift
      | .found =>
        match W.parse (joined (prior ++ [s])) with
        | none => .error .spliced
        | some body => .ok (some (body, cur.length))
      | _ => .ok none

/-- The type check in `validate` (encoding.py 248-257). -/
def check (W : World σ Stmt) (prior : List Src) (s : Src) : List (Event Stmt) × Except Err Unit :=
  match W.anchor with
  | .absent => ([], .ok ())
  | _ =>
    match spliceRepl W prior s with
    | .error e => ([], .error e)
    | .ok none => ([], .ok ())
    | .ok (some (body, n)) =>
      ([.checked body n (W.passes body n)], if W.passes body n then .ok () else .error .illTyped)

/-- `validate` (encoding.py 225-261). -/
def validate (W : World σ Stmt) (prior : List Src) : Option Src → List (Event Stmt) × Except Err Src
  | none => ([], .error .notString)
  | some s =>
    match W.parse s with
    | none => ([], .error .syntax)
    | some cur =>
      if W.nestable cur then
        match check W prior s with
        | (l, .error e) => (l, .error e)
        | (l, .ok ()) => if W.compiles cur then (l, .ok s) else (l, .error .compile)
      else ([], .error .nonNestable)

/-- Decoding one tool call. -/
def decode (W : World σ Stmt) (prior : List Src) : Call → List (Event Stmt) × Except Err Decoded
  | .code a =>
    match validate W prior a with
    | (l, .error e) => (l, .error e)
    | (l, .ok s) => (l, .ok (.code s))
  | .tool i => ([], if W.decodes i then .ok (.tool i) else .error .undecodable)

/-- The loop over the tool calls of a reply (completions.py 427-437). -/
def decodeAll (W : World σ Stmt) (prior : List Src) : List Call → List (Event Stmt) × Except Err (List Decoded)
  | [] => ([], .ok [])
  | c :: cs =>
    match decode W prior c with
    | (l, .error e) => (l, .error e)
    | (l, .ok d) =>
      match decodeAll W prior cs with
      | (l', .error e) => (l ++ l', .error e)
      | (l', .ok ds) => (l ++ l', .ok (d :: ds))

/-- `call_assistant` (completions.py 403-460): the model is asked, and its reply is decoded. -/
def attempt (W : World σ Stmt) (st : St σ Stmt) : St σ Stmt × Except Err (List Decoded) :=
  let r := W.llm st.log
  match decodeAll W st.prior r.calls with
  | (l, .error e) => ({ st with log := st.log ++ .asked :: l ++ [.rejected e] }, .error e)
  | (l, .ok ds) =>
    if ds.isEmpty && !r.valid then
      ({ st with log := st.log ++ .asked :: l ++ [.rejected .undecodable] }, .error .undecodable)
    else ({ st with log := st.log ++ .asked :: l }, .ok ds)

/-- `RetryLLMHandler._call_assistant` (completions.py 612-626), with `n` attempts after the first; without the handler, `n` is 0. -/
def assistant (W : World σ Stmt) : Nat → St σ Stmt → St σ Stmt × Except Err (List Decoded)
  | 0, st => attempt W st
  | n + 1, st =>
    match attempt W st with
    | (st', .error _) => assistant W n st'
    | (st', .ok ds) => (st', .ok ds)

/-- `call_tool` (completions.py 463-488, 628-644) for one decoded call; `exec_code` adds the source and runs the code (evaluation.py
676-688). The result says whether the call of the template goes on: `SystemExit` ends it, and so do errors of other tools that are not
caught. -/
def callTool (W : World σ Stmt) (catches : Bool) (st : St σ Stmt) : Decoded → St σ Stmt × Bool
  | .code s =>
    let r := W.run st.w s
    (⟨r.1, st.prior ++ [s], st.log ++ [.ran s r.2]⟩, r.2 != .exit)
  | .tool i =>
    let r := W.tool st.w i
    (⟨r.1, st.prior, st.log ++ [.tool i r.2]⟩, !r.2 || catches)

/-- The loop over the decoded calls (completions.py 694-695). -/
def callTools (W : World σ Stmt) (catches : Bool) : List Decoded → St σ Stmt → St σ Stmt × Bool
  | [], st => (st, true)
  | d :: ds, st =>
    match callTool W catches st d with
    | (st', true) => callTools W catches ds st'
    | (st', false) => (st', false)

/-- The loop of `LiteLLMProvider._call` (completions.py 687-695), for at most `f` rounds; `n` and `catches` are for the retry handler. -/
def rounds (W : World σ Stmt) (n : Nat) (catches : Bool) : Nat → St σ Stmt → St σ Stmt
  | 0, st => st
  | f + 1, st =>
    match assistant W n st with
    | (st', .error _) => st'
    | (st', .ok ds) =>
      if ds.isEmpty then st'
      else match callTools W catches ds st' with
        | (st'', true) => rounds W n catches f st''
        | (st'', false) => st''

/-- What has happened in a call of a template, from world `w` on. -/
def call (W : World σ Stmt) (n : Nat) (catches : Bool) (f : Nat) (w : σ) : List (Event Stmt) :=
  (rounds W n catches f ⟨w, [], []⟩).log

/-! ## Specification -/

/-- The snippets that were run. -/
def rans (l : List (Event Stmt)) : List Src :=
  l.filterMap fun | .ran s _ => some s | _ => none

/-- Something is executed. -/
def Runs : Event Stmt → Prop
  | .ran _ _ => True
  | .tool _ _ => True
  | _ => False

/-- `l` is what happened in one round so far, after `before`: the model has been asked once. -/
def Since (before l pre : List (Event Stmt)) : Prop := pre = before ++ .asked :: l ∧ .asked ∉ l

/-- Statements of snippets put one after another are those of the snippets. -/
def Lines (W : World σ Stmt) : Prop :=
  ∀ (ss : List Src) (bs : List (List Stmt)), ss.map W.parse = bs.map some → W.parse (joined ss) = some bs.flatten

/-- The statements of snippets. -/
def stmts (W : World σ Stmt) (ss : List Src) : List Stmt := (ss.map fun s => (W.parse s).getD []).flatten

/-- A snippet can be run: it parses, can be nested and compiles. -/
def Sound (W : World σ Stmt) (s : Src) : Prop :=
  ∃ cur, W.parse s = some cur ∧ W.nestable cur = true ∧ W.compiles cur = true

/-- A snippet passes the check after the snippets `ss`. -/
def Passes (W : World σ Stmt) (ss : List Src) (s : Src) : Prop :=
  W.passes (stmts W (ss ++ [s])) (stmts W [s]).length = true

/-- What is known about a snippet that is about to be run, after `pre`: it was decoded in the same round, in which nothing was rejected; if
it has statements and the anchor can be found, the checker has passed it after the snippets run in earlier rounds. -/
def Known (W : World σ Stmt) (pre : List (Event Stmt)) (s : Src) : Prop :=
  ∃ before l cur, Since before l pre ∧ (∀ e, .rejected e ∉ l) ∧
    W.parse s = some cur ∧ W.nestable cur = true ∧ W.compiles cur = true ∧
    (cur ≠ [] → W.anchor ≠ .drifted ∧ (W.anchor = .found →
      ∃ body, W.parse (joined (rans before ++ [s])) = some body ∧ .checked body cur.length true ∈ l ∧
        W.passes body cur.length = true))

/-! ## Decoding -/

theorem validate_ok (W : World σ Stmt) (prior : List Src) (a : Option Src) (l : List (Event Stmt)) (s : Src)
    (h : validate W prior a = (l, .ok s)) :
    a = some s ∧ ∃ cur, W.parse s = some cur ∧ W.nestable cur = true ∧ W.compiles cur = true ∧
      (cur ≠ [] → W.anchor ≠ .drifted ∧ (W.anchor = .found →
        ∃ body, W.parse (joined (prior ++ [s])) = some body ∧ .checked body cur.length true ∈ l ∧
          W.passes body cur.length = true)) := by
  cases a with
  | none => simp [validate] at h
  | some t =>
    simp only [validate] at h
    cases hp : W.parse t with
    | none => simp [hp] at h
    | some cur =>
      simp only [hp] at h
      by_cases hn : W.nestable cur = true
      · simp only [hn, if_true] at h
        cases hc : check W prior t with
        | mk l' r =>
          cases r with
          | error e => simp [hc] at h
          | ok u =>
            simp only [hc] at h
            by_cases hk : W.compiles cur = true
            · simp only [hk, if_true, Prod.mk.injEq, Except.ok.injEq] at h
              obtain ⟨rfl, rfl⟩ := h
              refine ⟨rfl, cur, hp, hn, hk, fun hne => ?_⟩
              have hl : cur.length ≠ 0 := by simpa using hne
              cases ha : W.anchor with
              | absent => simp
              | sourceless => simp
              | drifted => simp [check, spliceRepl, ha, hp, hl] at hc
              | found =>
                refine ⟨by simp, fun _ => ?_⟩
                cases hb : W.parse (joined (prior ++ [t])) with
                | none => simp [check, spliceRepl, ha, hp, hl, hb] at hc
                | some body =>
                  cases hw : W.passes body cur.length with
                  | false => simp [check, spliceRepl, ha, hp, hl, hb, hw] at hc
                  | true =>
                    simp [check, spliceRepl, ha, hp, hl, hb, hw] at hc
                    exact ⟨body, rfl, by rw [← hc]; simp, hw⟩
            · simp [hk] at h
      · simp [hn] at h

/-- Decoding does nothing but check. -/
def Checks (l : List (Event Stmt)) : Prop := ∀ e ∈ l, ∃ b n p, e = Event.checked b n p

theorem check_checks (W : World σ Stmt) (prior : List Src) (s : Src) : Checks (check W prior s).1 := by
  unfold check
  split
  · simp [Checks]
  · split
    · simp [Checks]
    · simp [Checks]
    · intro e he
      exact ⟨_, _, _, List.mem_singleton.1 he⟩

theorem validate_checks (W : World σ Stmt) (prior : List Src) (a : Option Src) : Checks (validate W prior a).1 := by
  cases a with
  | none => simp [validate, Checks]
  | some s =>
    simp only [validate]
    split
    · simp [Checks]
    · split
      · have hc := check_checks W prior s
        split
        · rename_i h; rw [h] at hc; exact hc
        · rename_i h; rw [h] at hc
          split <;> exact hc
      · simp [Checks]

theorem decode_checks (W : World σ Stmt) (prior : List Src) (c : Call) : Checks (decode W prior c).1 := by
  cases c with
  | tool i => simp [decode, Checks]
  | code a =>
    have hc := validate_checks W prior a
    simp only [decode]
    split <;> (rename_i h; rw [h] at hc; exact hc)

theorem decodeAll_checks (W : World σ Stmt) (prior : List Src) (cs : List Call) : Checks (decodeAll W prior cs).1 := by
  induction cs with
  | nil => simp [decodeAll, Checks]
  | cons c cs ih =>
    have hc := decode_checks W prior c
    simp only [decodeAll]
    split
    · rename_i h; rw [h] at hc; exact hc
    · rename_i h; rw [h] at hc
      split <;>
      · rename_i h'
        rw [h'] at ih
        intro e he
        rcases List.mem_append.1 he with he | he
        · exact hc e he
        · exact ih e he

theorem decodeAll_ok (W : World σ Stmt) (prior : List Src) (cs : List Call) (l : List (Event Stmt)) (ds : List Decoded)
    (h : decodeAll W prior cs = (l, .ok ds)) (s : Src) (hs : .code s ∈ ds) :
    ∃ cur, W.parse s = some cur ∧ W.nestable cur = true ∧ W.compiles cur = true ∧
      (cur ≠ [] → W.anchor ≠ .drifted ∧ (W.anchor = .found →
        ∃ body, W.parse (joined (prior ++ [s])) = some body ∧ .checked body cur.length true ∈ l ∧
          W.passes body cur.length = true)) := by
  induction cs generalizing l ds with
  | nil =>
    simp [decodeAll] at h
    rw [h.2] at hs
    simp at hs
  | cons c cs ih =>
    simp only [decodeAll] at h
    cases hd : decode W prior c with
    | mk l₁ r =>
      cases r with
      | error e => simp [hd] at h
      | ok d =>
        simp only [hd] at h
        cases hr : decodeAll W prior cs with
        | mk l₂ r₂ =>
          cases r₂ with
          | error e => simp [hr] at h
          | ok ds' =>
            simp only [hr, Prod.mk.injEq, Except.ok.injEq] at h
            obtain ⟨rfl, rfl⟩ := h
            rcases List.mem_cons.1 hs with rfl | hs
            · cases c with
              | tool i => cases hdc : W.decodes i <;> simp [decode, hdc] at hd
              | code a =>
                simp only [decode] at hd
                cases hv : validate W prior a with
                | mk l₃ r₃ =>
                  cases r₃ with
                  | error e => simp [hv] at hd
                  | ok t =>
                    simp only [hv, Prod.mk.injEq, Except.ok.injEq, Decoded.code.injEq] at hd
                    obtain ⟨rfl, rfl⟩ := hd
                    obtain ⟨_, cur, h1, h2, h3, h4⟩ := validate_ok W prior a l₃ t hv
                    refine ⟨cur, h1, h2, h3, fun hne => ⟨(h4 hne).1, fun hf => ?_⟩⟩
                    obtain ⟨b, hb, hm, hp⟩ := (h4 hne).2 hf
                    exact ⟨b, hb, List.mem_append_left _ hm, hp⟩
            · obtain ⟨cur, h1, h2, h3, h4⟩ := ih l₂ ds' hr hs
              refine ⟨cur, h1, h2, h3, fun hne => ⟨(h4 hne).1, fun hf => ?_⟩⟩
              obtain ⟨b, hb, hm, hp⟩ := (h4 hne).2 hf
              exact ⟨b, hb, List.mem_append_right _ hm, hp⟩

/-! ## Invariants of a call -/

theorem rans_append (a b : List (Event Stmt)) : rans (a ++ b) = rans a ++ rans b := by
  simp [rans, List.filterMap_append]

theorem rans_checks {l : List (Event Stmt)} (h : Checks l) : rans l = [] := by
  simp only [rans, List.filterMap_eq_nil_iff]
  intro e he
  obtain ⟨b, n, p, rfl⟩ := h e he
  rfl

/-- The invariant: what is known of every snippet that was run, of every rejection, and of the session's list. -/
structure Inv (W : World σ Stmt) (st : St σ Stmt) : Prop where
  prior : st.prior = rans st.log
  ran : ∀ pre s e post, st.log = pre ++ .ran s e :: post → Known W pre s
  rejected : ∀ pre e post, st.log = pre ++ .rejected e :: post →
    (∃ before l, Since before l pre ∧ ∀ x ∈ l, ¬ Runs x) ∧ (post = [] ∨ ∃ post', post = .asked :: post')

/-- Splitting a list that was extended at its end. -/
theorem split_append {α : Type} {l m pre post : List α} {x : α} (h : l ++ m = pre ++ x :: post) :
    (∃ q, l = pre ++ x :: q ∧ post = q ++ m) ∨ ∃ p, pre = l ++ p ∧ m = p ++ x :: post := by
  rw [List.append_eq_append_iff] at h
  rcases h with ⟨a, h1, h2⟩ | ⟨a, h1, h2⟩
  · exact Or.inr ⟨a, h1, h2⟩
  · cases a with
    | nil => exact Or.inr ⟨[], by simpa using h1.symm, by simpa using h2.symm⟩
    | cons y ys =>
      simp only [List.cons_append, List.cons.injEq] at h2
      exact Or.inl ⟨ys, by rw [h1, h2.1], h2.2⟩

theorem Checks.not_ran {l : List (Event Stmt)} (h : Checks l) {s : Src} {e : Ending} : .ran s e ∉ l := by
  intro hm; obtain ⟨_, _, _, h'⟩ := h _ hm; cases h'

theorem Checks.not_rejected {l : List (Event Stmt)} (h : Checks l) {e : Err} : .rejected e ∉ l := by
  intro hm; obtain ⟨_, _, _, h'⟩ := h _ hm; cases h'

theorem Checks.not_asked {l : List (Event Stmt)} (h : Checks l) : .asked ∉ l := by
  intro hm; obtain ⟨_, _, _, h'⟩ := h _ hm; cases h'

theorem Checks.not_runs {l : List (Event Stmt)} (h : Checks l) : ∀ x ∈ l, ¬ Runs x := by
  intro x hx; obtain ⟨_, _, _, rfl⟩ := h _ hx; simp [Runs]

/-- An accepted reply. -/
theorem inv_ask (W : World σ Stmt) (st : St σ Stmt) (h : Inv W st) (l : List (Event Stmt)) (hl : Checks l) :
    Inv W { st with log := st.log ++ .asked :: l } := by
  constructor
  · rw [h.prior]; simp only [rans_append]
    have := rans_checks hl
    simp only [rans, List.filterMap_cons] at this ⊢
    simp [this]
  · intro pre s e post he
    rcases split_append he with ⟨q, h1, h2⟩ | ⟨p, h1, h2⟩
    · exact h.ran pre s e q h1
    · have hm : Event.ran s e ∈ Event.asked :: l := by rw [h2]; simp
      simp [hl.not_ran] at hm
  · intro pre e post he
    rcases split_append he with ⟨q, h1, h2⟩ | ⟨p, h1, h2⟩
    · refine ⟨(h.rejected pre e q h1).1, ?_⟩
      rcases (h.rejected pre e q h1).2 with rfl | ⟨q', rfl⟩
      · exact Or.inr ⟨l, by simpa using h2⟩
      · exact Or.inr ⟨_, h2⟩
    · have hm : Event.rejected e ∈ Event.asked :: l := by rw [h2]; simp
      simp [hl.not_rejected] at hm

/-- A rejected reply. -/
theorem inv_reject (W : World σ Stmt) (st : St σ Stmt) (h : Inv W st) (l : List (Event Stmt)) (hl : Checks l) (e : Err) :
    Inv W { st with log := st.log ++ .asked :: l ++ [.rejected e] } := by
  have h' := inv_ask W st h l hl
  have hlog : ∀ pre x post, st.log ++ Event.asked :: l ++ [.rejected e] = pre ++ x :: post →
      (∃ q, st.log ++ .asked :: l = pre ++ x :: q ∧ post = q ++ [.rejected e]) ∨
        (pre = st.log ++ .asked :: l ∧ x = .rejected e ∧ post = []) := by
    intro pre x post he
    rcases split_append he with h1 | ⟨p, h1, h2⟩
    · exact Or.inl h1
    · cases p with
      | nil => simp at h2; exact Or.inr ⟨by simpa using h1, h2.1.symm, h2.2⟩
      | cons y ys => simp at h2
  constructor
  · have := h'.prior
    simp only [rans_append] at this ⊢
    rw [this]; simp [rans]
  · intro pre s x post he
    rcases hlog _ _ _ he with ⟨q, h1, h2⟩ | ⟨_, h2, _⟩
    · exact h'.ran pre s x q h1
    · cases h2
  · intro pre x post he
    rcases hlog _ _ _ he with ⟨q, h1, h2⟩ | ⟨h1, h2, h3⟩
    · refine ⟨(h'.rejected pre x q h1).1, ?_⟩
      rcases (h'.rejected pre x q h1).2 with rfl | ⟨q', rfl⟩
      · have : Event.rejected x ∈ Event.asked :: l := by
          have h3 := congrArg List.getLast? h1
          rw [List.getLast?_append, List.getLast?_append] at h3
          simp only [List.getLast?_singleton, Option.some_or] at h3
          rw [List.getLast?_eq_some_getLast (by simp), Option.some_or] at h3
          rw [← Option.some.inj h3]
          exact List.getLast_mem _
        simp [hl.not_rejected] at this
      · exact Or.inr ⟨_, h2⟩
    · subst h1; subst h3
      exact ⟨⟨st.log, l, ⟨rfl, hl.not_asked⟩, hl.not_runs⟩, Or.inl rfl⟩

/-- What `attempt` and `assistant` guarantee. -/
def Ready (W : World σ Stmt) (st : St σ Stmt) (ds : List Decoded) : Prop :=
  ∃ before l, Since before l st.log ∧ (∀ e, .rejected e ∉ l) ∧ ∀ s, .code s ∈ ds →
    ∃ cur, W.parse s = some cur ∧ W.nestable cur = true ∧ W.compiles cur = true ∧
      (cur ≠ [] → W.anchor ≠ .drifted ∧ (W.anchor = .found →
        ∃ body, W.parse (joined (rans before ++ [s])) = some body ∧ .checked body cur.length true ∈ l ∧
          W.passes body cur.length = true))

theorem attempt_inv (W : World σ Stmt) (st : St σ Stmt) (h : Inv W st) :
    Inv W (attempt W st).1 ∧ ∀ ds, (attempt W st).2 = .ok ds → Ready W (attempt W st).1 ds := by
  have hc := decodeAll_checks W st.prior (W.llm st.log).calls
  simp only [attempt]
  cases hd : decodeAll W st.prior (W.llm st.log).calls with
  | mk l r =>
    rw [hd] at hc
    cases r with
    | error e => exact ⟨inv_reject W st h l hc e, by simp⟩
    | ok ds =>
      simp only
      split
      · exact ⟨inv_reject W st h l hc _, by simp⟩
      · refine ⟨inv_ask W st h l hc, fun ds' hds => ?_⟩
        simp only [Except.ok.injEq] at hds; subst hds
        refine ⟨st.log, l, ⟨rfl, hc.not_asked⟩, fun e => hc.not_rejected, fun s hs => ?_⟩
        rw [← h.prior]
        exact decodeAll_ok W st.prior _ l ds hd s hs

theorem assistant_inv (W : World σ Stmt) (n : Nat) (st : St σ Stmt) (h : Inv W st) :
    Inv W (assistant W n st).1 ∧ ∀ ds, (assistant W n st).2 = .ok ds → Ready W (assistant W n st).1 ds := by
  induction n generalizing st with
  | zero => exact attempt_inv W st h
  | succ n ih =>
    have ha := attempt_inv W st h
    simp only [assistant]
    cases hd : attempt W st with
    | mk st' r =>
      rw [hd] at ha
      cases r with
      | error e => exact ih st' ha.1
      | ok ds => exact ha

/-- An event of an execution. -/
theorem inv_run (W : World σ Stmt) (st : St σ Stmt) (h : Inv W st) (w : σ) (prior : List Src) (x : Event Stmt) (hx : Runs x)
    (hp : prior = st.prior ++ rans [x]) (hr : Ready W st []) (hk : ∀ s e, x = .ran s e → Known W st.log s) :
    Inv W ⟨w, prior, st.log ++ [x]⟩ := by
  have hlog : ∀ pre y post, st.log ++ [x] = pre ++ y :: post →
      (∃ q, st.log = pre ++ y :: q ∧ post = q ++ [x]) ∨ (pre = st.log ∧ y = x ∧ post = []) := by
    intro pre y post he
    rcases split_append he with h1 | ⟨p, h1, h2⟩
    · exact Or.inl h1
    · cases p with
      | nil => simp at h2; exact Or.inr ⟨by simpa using h1, h2.1.symm, h2.2⟩
      | cons y ys => simp at h2
  constructor
  · rw [hp, h.prior, rans_append]
  · intro pre s e post he
    rcases hlog _ _ _ he with ⟨q, h1, h2⟩ | ⟨rfl, h2, _⟩
    · exact h.ran pre s e q h1
    · exact hk s e h2.symm
  · intro pre e post he
    rcases hlog _ _ _ he with ⟨q, h1, h2⟩ | ⟨_, h2, _⟩
    · refine ⟨(h.rejected pre e q h1).1, ?_⟩
      rcases (h.rejected pre e q h1).2 with rfl | ⟨q', rfl⟩
      · obtain ⟨before, l, ⟨hb, _⟩, hl, _⟩ := hr
        have : Event.rejected e ∈ Event.asked :: l := by
          rw [h1] at hb
          have h3 := congrArg List.getLast? hb
          rw [List.getLast?_append, List.getLast?_append] at h3
          simp only [List.getLast?_singleton, Option.some_or] at h3
          rw [List.getLast?_eq_some_getLast (by simp), Option.some_or] at h3
          rw [Option.some.inj h3]
          exact List.getLast_mem _
        simp [hl] at this
      · exact Or.inr ⟨_, h2⟩
    · subst h2; simp [Runs] at hx

theorem Ready.mono {W : World σ Stmt} {st : St σ Stmt} {ds ds' : List Decoded} (h : Ready W st ds) (hs : ∀ d ∈ ds', d ∈ ds) :
    Ready W st ds' := by
  obtain ⟨b, l, h1, h2, h3⟩ := h
  exact ⟨b, l, h1, h2, fun s hm => h3 s (hs _ hm)⟩

theorem Ready.run {W : World σ Stmt} {st : St σ Stmt} {ds : List Decoded} (h : Ready W st ds) (w : σ) (prior : List Src)
    (x : Event Stmt) (hx : Runs x) : Ready W ⟨w, prior, st.log ++ [x]⟩ ds := by
  obtain ⟨b, l, ⟨h1, h1'⟩, h2, h3⟩ := h
  refine ⟨b, l ++ [x], ⟨by simp [h1], ?_⟩, fun e => ?_, fun s hm => ?_⟩
  · simp only [List.mem_append, List.mem_singleton, not_or]
    exact ⟨h1', by rintro rfl; simp [Runs] at hx⟩
  · simp only [List.mem_append, List.mem_singleton, not_or]
    exact ⟨h2 e, by rintro rfl; simp [Runs] at hx⟩
  · obtain ⟨cur, c1, c2, c3, c4⟩ := h3 s hm
    refine ⟨cur, c1, c2, c3, fun hne => ⟨(c4 hne).1, fun hf => ?_⟩⟩
    obtain ⟨body, hb, hm, hp⟩ := (c4 hne).2 hf
    exact ⟨body, hb, List.mem_append_left _ hm, hp⟩

theorem callTool_inv (W : World σ Stmt) (catches : Bool) (st : St σ Stmt) (d : Decoded) (ds : List Decoded) (h : Inv W st)
    (hr : Ready W st (d :: ds)) :
    Inv W (callTool W catches st d).1 ∧ Ready W (callTool W catches st d).1 ds := by
  have h0 : Ready W st [] := hr.mono (by simp)
  have h1 : Ready W st ds := hr.mono (by simp +contextual)
  cases d with
  | code s =>
    refine ⟨inv_run W st h _ _ _ trivial (by simp [rans]) h0 ?_, h1.run _ _ _ trivial⟩
    intro s' e he
    cases he
    obtain ⟨b, l, k1, k2, k3⟩ := hr
    obtain ⟨cur, c⟩ := k3 s (by simp)
    exact ⟨b, l, cur, k1, k2, c⟩
  | tool i =>
    exact ⟨inv_run W st h _ _ _ trivial (by simp [rans]) h0 (by simp), h1.run _ _ _ trivial⟩

theorem callTools_inv (W : World σ Stmt) (catches : Bool) (ds : List Decoded) (st : St σ Stmt) (h : Inv W st)
    (hr : Ready W st ds) : Inv W (callTools W catches ds st).1 := by
  induction ds generalizing st with
  | nil => exact h
  | cons d ds ih =>
    have hc := callTool_inv W catches st d ds h hr
    simp only [callTools]
    cases hd : callTool W catches st d with
    | mk st' b =>
      rw [hd] at hc
      cases b with
      | true => exact ih st' hc.1 hc.2
      | false => exact hc.1

theorem rounds_inv (W : World σ Stmt) (n : Nat) (catches : Bool) (f : Nat) (st : St σ Stmt) (h : Inv W st) :
    Inv W (rounds W n catches f st) := by
  induction f generalizing st with
  | zero => exact h
  | succ f ih =>
    have ha := assistant_inv W n st h
    simp only [rounds]
    cases hd : assistant W n st with
    | mk st' r =>
      rw [hd] at ha
      cases r with
      | error e => exact ha.1
      | ok ds =>
        simp only
        split
        · exact ha.1
        · have hc := callTools_inv W catches ds st' ha.1 (ha.2 ds rfl)
          cases hk : callTools W catches ds st' with
          | mk st'' b =>
            rw [hk] at hc
            cases b with
            | true => exact ih st'' hc
            | false => exact hc

theorem call_inv (W : World σ Stmt) (n : Nat) (catches : Bool) (f : Nat) (w : σ) :
    Inv W (rounds W n catches f ⟨w, [], []⟩) :=
  rounds_inv W n catches f _ ⟨rfl, by simp, by simp⟩

theorem Since.unique {b l b' l' pre : List (Event Stmt)} (h : Since b l pre) (h' : Since b' l' pre) : b = b' ∧ l = l' := by
  obtain ⟨h1, h2⟩ := h
  obtain ⟨h3, h4⟩ := h'
  rw [h1] at h3
  rcases split_append h3 with ⟨q, k1, k2⟩ | ⟨p, k1, k2⟩
  · exact absurd (by rw [k2]; simp) h4
  · cases p with
    | nil => simp at k1 k2; exact ⟨k1.symm, k2⟩
    | cons y ys => simp only [List.cons_append, List.cons.injEq] at k2; exact absurd (by rw [k2.2]; simp) h2

/-- All snippets that were run can be parsed. -/
theorem rans_parse {W : World σ Stmt} {st : St σ Stmt} (h : Inv W st) (pre post : List (Event Stmt)) (hl : st.log = pre ++ post) :
    ∀ s ∈ rans pre, ∃ cur, W.parse s = some cur := by
  intro s hs
  obtain ⟨x, hx, hxs⟩ := List.mem_filterMap.1 hs
  cases x with
  | ran t e =>
    simp at hxs; subst hxs
    obtain ⟨a, b, hab⟩ := List.append_of_mem hx
    obtain ⟨_, _, cur, _, _, hp, _⟩ := h.ran a t e (b ++ post) (by rw [hl, hab]; simp)
    exact ⟨cur, hp⟩
  | _ => simp at hxs

theorem lines_stmts {W : World σ Stmt} (hL : Lines W) (ss : List Src) (h : ∀ s ∈ ss, ∃ cur, W.parse s = some cur) :
    W.parse (joined ss) = some (stmts W ss) := by
  refine hL ss (ss.map fun s => (W.parse s).getD []) ?_
  rw [List.map_map]
  refine List.map_congr_left fun s hs => ?_
  obtain ⟨cur, hc⟩ := h s hs
  simp [hc]

/-! ## Theorems -/

/-- **C101.** Every snippet that is run was decoded in the same round, in which nothing was rejected. It parses, can be nested and
compiles. If it has statements and the definition of the template is found, it has passed the type check, after the snippets that were run
in earlier rounds; if the source has drifted, it has no statements. -/
theorem C101_checked_partial (W : World σ Stmt) (hL : Lines W) (n : Nat) (catches : Bool) (f : Nat) (w : σ)
    (pre post : List (Event Stmt)) (s : Src) (e : Ending) (h : call W n catches f w = pre ++ .ran s e :: post) :
    ∃ before l, Since before l pre ∧ (∀ e, .rejected e ∉ l) ∧ Sound W s ∧
      (stmts W [s] ≠ [] → W.anchor ≠ .drifted ∧ (W.anchor = .found →
        .checked (stmts W (rans before ++ [s])) (stmts W [s]).length true ∈ l ∧ Passes W (rans before) s)) := by
  have hi := call_inv W n catches f w
  obtain ⟨before, l, cur, h1, h2, h3, h4, h5, h6⟩ := hi.ran pre s e post h
  have hs : stmts W [s] = cur := by simp [stmts, h3]
  refine ⟨before, l, h1, h2, ⟨cur, h3, h4, h5⟩, fun hne => ?_⟩
  rw [hs] at hne
  refine ⟨(h6 hne).1, fun hf => ?_⟩
  obtain ⟨body, hb, hm, hp⟩ := (h6 hne).2 hf
  have hbody : W.parse (joined (rans before ++ [s])) = some (stmts W (rans before ++ [s])) := by
    refine lines_stmts hL _ fun t ht => ?_
    rcases List.mem_append.1 ht with ht | ht
    · exact rans_parse hi before (.asked :: l ++ .ran s e :: post) (by
        show call W n catches f w = _
        rw [h, h1.1]; simp) t ht
    · rw [List.mem_singleton.1 ht]; exact ⟨cur, h3⟩
  rw [hb, Option.some.injEq] at hbody
  subst hbody
  rw [Passes, hs]
  exact ⟨hm, hp⟩

/-- **C101.** If something of a reply is rejected, nothing of this reply is executed, neither before nor after: nothing has been since the
model was asked, and next it is asked again, or the call is over. -/
theorem C101_rejected (W : World σ Stmt) (n : Nat) (catches : Bool) (f : Nat) (w : σ) (pre post : List (Event Stmt)) (e : Err)
    (h : call W n catches f w = pre ++ .rejected e :: post) :
    (∃ before l, Since before l pre ∧ ∀ x ∈ l, ¬ Runs x) ∧ (post = [] ∨ ∃ post', post = .asked :: post') :=
  (call_inv W n catches f w).rejected pre e post h

/-- **C101.** The list of the session has the snippets that were run, all of them and in order; none that was rejected. -/
theorem C101_prior (W : World σ Stmt) (n : Nat) (catches : Bool) (f : Nat) (w : σ) :
    (rounds W n catches f ⟨w, [], []⟩).prior = rans (call W n catches f w) :=
  (call_inv W n catches f w).prior

/-- **C101.** Which snippets are accepted, after snippets `prior` that parse. -/
theorem C101_accepts (W : World σ Stmt) (hL : Lines W) (prior : List Src) (hp : ∀ t ∈ prior, ∃ cur, W.parse t = some cur) (s : Src) :
    (∃ l, validate W prior (some s) = (l, .ok s)) ↔
      Sound W s ∧ (stmts W [s] ≠ [] → W.anchor ≠ .drifted ∧ (W.anchor = .found → Passes W prior s)) := by
  constructor
  · rintro ⟨l, h⟩
    obtain ⟨_, cur, h3, h4, h5, h6⟩ := validate_ok W prior (some s) l s h
    have hs : stmts W [s] = cur := by simp [stmts, h3]
    refine ⟨⟨cur, h3, h4, h5⟩, fun hne => ?_⟩
    rw [hs] at hne
    refine ⟨(h6 hne).1, fun hf => ?_⟩
    obtain ⟨body, hb, hm, hpass⟩ := (h6 hne).2 hf
    have hbody := lines_stmts hL (prior ++ [s]) (by
      intro t ht
      rcases List.mem_append.1 ht with ht | ht
      · exact hp t ht
      · rw [List.mem_singleton.1 ht]; exact ⟨cur, h3⟩)
    rw [hb, Option.some.injEq] at hbody
    subst hbody
    rw [Passes, hs]; exact hpass
  · rintro ⟨⟨cur, h3, h4, h5⟩, h6⟩
    have hs : stmts W [s] = cur := by simp [stmts, h3]
    rw [Passes, hs] at h6
    have hbody := lines_stmts hL (prior ++ [s]) (by
      intro t ht
      rcases List.mem_append.1 ht with ht | ht
      · exact hp t ht
      · rw [List.mem_singleton.1 ht]; exact ⟨cur, h3⟩)
    by_cases hne : cur = []
    · subst hne
      cases ha : W.anchor <;> simp [validate, check, spliceRepl, h3, h4, h5, ha]
    · have hl : cur.length ≠ 0 := by simpa using hne
      cases ha : W.anchor with
      | absent => simp [validate, check, h3, h4, h5, ha]
      | sourceless => simp [validate, check, spliceRepl, h3, h4, h5, ha, hl]
      | drifted => exact absurd ha (h6 hne).1
      | found =>
        have := (h6 hne).2 ha
        simp [validate, check, spliceRepl, h3, h4, h5, ha, hl, hbody, this]

/-- **C101.** An argument that is no string is rejected. -/
theorem C101_string (W : World σ Stmt) (prior : List Src) : validate W prior none = ([], .error .notString) := rfl

/-- **C101.** Why a snippet is rejected: first for its syntax, then for the check, and last because it does not compile. Nothing is checked
for its syntax alone. -/
theorem C101_why (W : World σ Stmt) (hL : Lines W) (prior : List Src) (hp : ∀ t ∈ prior, ∃ cur, W.parse t = some cur) (s : Src) :
    (W.parse s = none → validate W prior (some s) = ([], .error .syntax)) ∧
    ∀ cur, W.parse s = some cur →
      (W.nestable cur = false → validate W prior (some s) = ([], .error .nonNestable)) ∧
      (W.nestable cur = true → cur ≠ [] →
        (W.anchor = .drifted → validate W prior (some s) = ([], .error .drift)) ∧
        (W.anchor = .found → ¬ Passes W prior s → (validate W prior (some s)).2 = .error .illTyped)) ∧
      (W.nestable cur = true → W.compiles cur = false → (cur = [] ∨ W.anchor ≠ .drifted ∧ (W.anchor = .found → Passes W prior s)) →
        (validate W prior (some s)).2 = .error .compile) := by
  refine ⟨fun h => by simp [validate, h], fun cur h => ?_⟩
  have hs : stmts W [s] = cur := by simp [stmts, h]
  have hbody : W.parse (joined (prior ++ [s])) = some (stmts W (prior ++ [s])) := by
    apply hL (prior ++ [s]) ((prior ++ [s]).map fun s => (W.parse s).getD [])
    rw [List.map_map]
    apply List.map_congr_left
    intro t ht
    have : ∃ cur, W.parse t = some cur := by
      rcases List.mem_append.1 ht with ht | ht
      · exact hp t ht
      · rw [List.mem_singleton] at ht; subst ht; exact ⟨_, h⟩
    obtain ⟨c, hc⟩ := this
    simp [hc]
  refine ⟨fun h' => by simp [validate, h, h'], fun h' hne => ⟨fun ha => ?_, fun ha hn => ?_⟩, fun h' hc hx => ?_⟩
  · have hl : cur.length ≠ 0 := by simpa using hne
    simp [validate, h, h', check, ha, spliceRepl, hl]
  · have hl : cur.length ≠ 0 := by simpa using hne
    rw [Passes, hs, Bool.not_eq_true] at hn
    simp [validate, h, h', check, ha, spliceRepl, hl, hbody, hn]
  · by_cases hne : cur = []
    · subst hne
      cases ha : W.anchor <;> simp [validate, h, h', check, ha, spliceRepl, hc]
    · have hl : cur.length ≠ 0 := by simpa using hne
      obtain ⟨h1, h2⟩ := hx.resolve_left hne
      cases ha : W.anchor with
      | absent => simp [validate, h, h', check, ha, hc]
      | sourceless => simp [validate, h, h', check, ha, spliceRepl, hl, hc]
      | drifted => exact absurd ha h1
      | found =>
        have := h2 ha
        rw [Passes, hs] at this
        simp [validate, h, h', check, ha, spliceRepl, hl, hbody, this, hc]

/-- The tool call of an event. -/
def Event.what : Event Stmt → Option Decoded
  | .ran s _ => some (.code s)
  | .tool i _ => some (.tool i)
  | _ => none

/-- **C101.** The tool calls of an accepted reply are executed in its order, and all of them unless one ends the call of the template. -/
theorem C101_order (W : World σ Stmt) (catches : Bool) (ds : List Decoded) (st : St σ Stmt) :
    ∃ l, (callTools W catches ds st).1.log = st.log ++ l ∧ l.map Event.what <+: ds.map some ∧
      ((callTools W catches ds st).2 = true → l.map Event.what = ds.map some) := by
  induction ds generalizing st with
  | nil => exact ⟨[], by simp [callTools]⟩
  | cons d ds ih =>
    simp only [callTools]
    have hc : ∃ x, (callTool W catches st d).1.log = st.log ++ [x] ∧ x.what = some d := by
      cases d with
      | code s => exact ⟨_, rfl, rfl⟩
      | tool i => exact ⟨_, rfl, rfl⟩
    cases hd : callTool W catches st d with
    | mk st' b =>
      rw [hd] at hc
      obtain ⟨x, hx, hw⟩ := hc
      cases b with
      | true =>
        obtain ⟨l, h1, h2, h3⟩ := ih st'
        refine ⟨x :: l, ?_, ?_, ?_⟩
        · have hx : st'.log = st.log ++ [x] := hx
          simp only [h1, hx]; simp
        · simpa [hw] using h2
        · simpa [hw] using h3
      | false => exact ⟨[x], hx, by simp [hw], by simp⟩

/-- Events that end the call of a template: a snippet exits, or another tool raises and the error is not caught. -/
inductive Ends (catches : Bool) : Event Stmt → Prop
  | exit (s) : Ends catches (.ran s .exit)
  | raised (i) : catches = false → Ends catches (.tool i true)

/-- **C101.** The call of the template goes on after the tool calls of a reply exactly if none of them ends it, and nothing is executed
after one that does. Errors in snippets do not end it. -/
theorem C101_ends (W : World σ Stmt) (catches : Bool) (ds : List Decoded) (st : St σ Stmt) :
    ∃ l, (callTools W catches ds st).1.log = st.log ++ l ∧
      ((callTools W catches ds st).2 = true ↔ ∀ x ∈ l, ¬ Ends catches x) ∧
      ∀ pre x post, l = pre ++ x :: post → Ends catches x → post = [] := by
  induction ds generalizing st with
  | nil => exact ⟨[], by simp [callTools]⟩
  | cons d ds ih =>
    simp only [callTools]
    have hc : ∃ x, (callTool W catches st d).1.log = st.log ++ [x] ∧ ((callTool W catches st d).2 = true ↔ ¬ Ends catches x) := by
      cases d with
      | code s =>
        refine ⟨_, rfl, ?_⟩
        simp only [callTool]
        generalize (W.run st.w s).2 = e
        cases e with
        | ok => exact ⟨fun _ h => (by cases h), fun _ => rfl⟩
        | raised => exact ⟨fun _ h => (by cases h), fun _ => rfl⟩
        | exit => exact ⟨fun h => (by cases h), fun h => absurd (.exit s) h⟩
      | tool i =>
        refine ⟨_, rfl, ?_⟩
        simp only [callTool]
        generalize (W.tool st.w i).2 = b
        cases b with
        | false => exact ⟨fun _ h => (by cases h), fun _ => rfl⟩
        | true =>
          cases catches with
          | false => exact ⟨fun h => (by cases h), fun h => absurd (.raised i rfl) h⟩
          | true => exact ⟨fun _ h => (by cases h with | raised _ h => cases h), fun _ => rfl⟩
    cases hd : callTool W catches st d with
    | mk st' b =>
      rw [hd] at hc
      obtain ⟨x, hx, hw⟩ := hc
      have hx : st'.log = st.log ++ [x] := hx
      cases b with
      | true =>
        have hw : ¬ Ends catches x := hw.1 rfl
        obtain ⟨l, h1, h2, h3⟩ := ih st'
        refine ⟨x :: l, ?_, ?_, ?_⟩
        · rw [h1, hx, List.append_assoc]; rfl
        · simp only [h2, List.forall_mem_cons]
          exact ⟨fun h => ⟨hw, h⟩, fun h => h.2⟩
        · intro pre y post e hy
          cases pre with
          | nil =>
            simp only [List.nil_append, List.cons.injEq] at e
            exact absurd (e.1 ▸ hy) hw
          | cons z pre =>
            simp only [List.cons_append, List.cons.injEq] at e
            exact h3 pre y post e.2 hy
      | false =>
        have hw : Ends catches x := Classical.byContradiction fun h => by cases hw.2 h
        refine ⟨[x], hx, ?_, ?_⟩
        · simp [hw]
        · intro pre y post e hy
          cases pre with
          | nil => simp only [List.nil_append, List.cons.injEq] at e; exact e.2.symm
          | cons z pre => simp at e

/-- The calls of `exec_code`. -/
def codes (cs : List Call) : List (Option Src) := cs.filterMap fun | .code a => some a | _ => none

/-- The decoded calls of `exec_code`. -/
def codes' (ds : List Decoded) : List Src := ds.filterMap fun | .code s => some s | _ => none

theorem decodeAll_codes (W : World σ Stmt) (prior : List Src) (cs : List Call) (l : List (Event Stmt)) (ds : List Decoded)
    (h : decodeAll W prior cs = (l, .ok ds)) : (codes' ds).map some = codes cs := by
  induction cs generalizing l ds with
  | nil =>
    simp [decodeAll] at h
    rw [h.2]; rfl
  | cons c cs ih =>
    simp only [decodeAll] at h
    cases hd : decode W prior c with
    | mk l₁ r =>
      cases r with
      | error e => simp [hd] at h
      | ok d =>
        simp only [hd] at h
        cases hr : decodeAll W prior cs with
        | mk l₂ r₂ =>
          cases r₂ with
          | error e => simp [hr] at h
          | ok ds' =>
            simp only [hr, Prod.mk.injEq, Except.ok.injEq] at h
            obtain ⟨rfl, rfl⟩ := h
            have ih := ih l₂ ds' hr
            cases c with
            | tool i =>
              cases hdc : W.decodes i <;> simp [decode, hdc] at hd
              rw [← hd.2]
              simpa [codes, codes'] using ih
            | code a =>
              simp only [decode] at hd
              cases hv : validate W prior a with
              | mk l₃ r₃ =>
                cases r₃ with
                | error e => simp [hv] at hd
                | ok t =>
                  simp only [hv, Prod.mk.injEq, Except.ok.injEq] at hd
                  obtain ⟨rfl, rfl⟩ := hd
                  have ha := (validate_ok W prior a l₃ t hv).1
                  subst ha
                  simpa [codes, codes'] using ih

/-- **C101.** A reply whose tool calls are accepted is decoded to these, in order. -/
theorem C101_decoded (W : World σ Stmt) (prior : List Src) (cs : List Call) (l : List (Event Stmt)) (ds : List Decoded)
    (h : decodeAll W prior cs = (l, .ok ds)) :
    ds.map (fun | .code s => .code (some s) | .tool i => .tool i) = cs := by
  induction cs generalizing l ds with
  | nil =>
    simp [decodeAll] at h
    rw [h.2]; rfl
  | cons c cs ih =>
    simp only [decodeAll] at h
    cases hd : decode W prior c with
    | mk l₁ r =>
      cases r with
      | error e => simp [hd] at h
      | ok d =>
        simp only [hd] at h
        cases hr : decodeAll W prior cs with
        | mk l₂ r₂ =>
          cases r₂ with
          | error e => simp [hr] at h
          | ok ds' =>
            simp only [hr, Prod.mk.injEq, Except.ok.injEq] at h
            obtain ⟨rfl, rfl⟩ := h
            have ih := ih l₂ ds' hr
            cases c with
            | tool i =>
              cases hdc : W.decodes i <;> simp [decode, hdc] at hd
              rw [← hd.2]
              simpa using ih
            | code a =>
              simp only [decode] at hd
              cases hv : validate W prior a with
              | mk l₃ r₃ =>
                cases r₃ with
                | error e => simp [hv] at hd
                | ok t =>
                  simp only [hv, Prod.mk.injEq, Except.ok.injEq] at hd
                  obtain ⟨rfl, rfl⟩ := hd
                  have ha := (validate_ok W prior a l₃ t hv).1
                  subst ha
                  simpa using ih

/-- The model sends at most one snippet in each reply. -/
def Single (W : World σ Stmt) : Prop := ∀ l, (codes (W.llm l).calls).length ≤ 1

/-- Before a snippet is run, none has been run since the model was asked; `ds` is still to be executed. -/
def Alone (st : St σ Stmt) (ds : List Decoded) : Prop :=
  (∀ pre s e post, st.log = pre ++ .ran s e :: post → ∃ before l, Since before l pre ∧ rans l = []) ∧
    (ds ≠ [] → ∃ before l, Since before l st.log ∧ (rans l).length + (codes' ds).length ≤ 1)

theorem attempt_alone (W : World σ Stmt) (hS : Single W) (st : St σ Stmt) (h : Alone st []) :
    Alone (attempt W st).1 [] ∧ ∀ ds, (attempt W st).2 = .ok ds → Alone (attempt W st).1 ds := by
  have hc := decodeAll_checks W st.prior (W.llm st.log).calls
  have hs := hS st.log
  have hlog : ∀ m : List (Event Stmt), (∀ s e, Event.ran s e ∉ m) → ∀ pre s e post, st.log ++ m = pre ++ .ran s e :: post →
      ∃ before l, Since before l pre ∧ rans l = [] := by
    intro m hm pre s e post he
    rcases split_append he with ⟨q, h1, h2⟩ | ⟨p, h1, h2⟩
    · exact h.1 pre s e q h1
    · exact absurd (by rw [h2]; simp) (hm s e)
  simp only [attempt]
  cases hd : decodeAll W st.prior (W.llm st.log).calls with
  | mk l r =>
    rw [hd] at hc
    have hr : ∀ e, Alone { st with log := st.log ++ .asked :: l ++ [.rejected e] } [] := fun e =>
      ⟨fun pre s x post hx => hlog (.asked :: l ++ [.rejected e]) (by simp [hc.not_ran]) pre s x post (by simpa using hx), by simp⟩
    cases r with
    | error e => exact ⟨hr e, by simp⟩
    | ok ds =>
      simp only
      split
      · exact ⟨hr _, by simp⟩
      · have ha := hlog (.asked :: l) (by simp [hc.not_ran])
        refine ⟨⟨ha, by simp⟩, fun ds' hds => ⟨ha, fun _ => ⟨st.log, l, ⟨rfl, hc.not_asked⟩, ?_⟩⟩⟩
        simp only [Except.ok.injEq] at hds; subst hds
        have := congrArg List.length (decodeAll_codes W st.prior _ l ds hd)
        rw [List.length_map] at this
        rw [rans_checks hc, this]
        simpa using hs

theorem assistant_alone (W : World σ Stmt) (hS : Single W) (n : Nat) (st : St σ Stmt) (h : Alone st []) :
    Alone (assistant W n st).1 [] ∧ ∀ ds, (assistant W n st).2 = .ok ds → Alone (assistant W n st).1 ds := by
  induction n generalizing st with
  | zero => exact attempt_alone W hS st h
  | succ n ih =>
    have ha := attempt_alone W hS st h
    simp only [assistant]
    cases hd : attempt W st with
    | mk st' r =>
      rw [hd] at ha
      cases r with
      | error e => exact ih st' ha.1
      | ok ds => exact ha

theorem callTool_alone (W : World σ Stmt) (catches : Bool) (st : St σ Stmt) (d : Decoded) (ds : List Decoded)
    (h : Alone st (d :: ds)) : Alone (callTool W catches st d).1 ds := by
  obtain ⟨h1, h2⟩ := h
  obtain ⟨before, l, ⟨h3, h3'⟩, h4⟩ := h2 (by simp)
  have key : ∀ x : Event Stmt, x ≠ .asked → (∀ s e, x = .ran s e → rans l = []) → ∀ (w : σ) p,
      (rans [x]).length + (codes' ds).length ≤ (codes' (d :: ds)).length → Alone ⟨w, p, st.log ++ [x]⟩ ds := by
    intro x hx hr w p hl
    refine ⟨?_, fun _ => ⟨before, l ++ [x], ⟨by simp [h3], ?_⟩, ?_⟩⟩
    · intro pre s e post he
      rcases split_append he with ⟨q, k1, k2⟩ | ⟨p, k1, k2⟩
      · exact h1 pre s e q k1
      · cases p with
        | nil =>
          simp at k1 k2
          subst k1
          exact ⟨before, l, ⟨h3, h3'⟩, hr s e k2.1⟩
        | cons y ys => simp at k2
    · simp only [List.mem_append, List.mem_singleton, not_or]
      exact ⟨h3', fun hc => hx hc.symm⟩
    · rw [rans_append, List.length_append]; omega
  cases d with
  | code s =>
    have hr : rans l = [] := by
      have : (codes' (Decoded.code s :: ds)).length = (codes' ds).length + 1 := by simp [codes']
      exact List.length_eq_zero_iff.1 (by omega)
    exact key _ (by simp) (fun _ _ _ => hr) _ _ (by simp [rans, codes']; omega)
  | tool i => exact key _ (by simp) (by simp) _ _ (by simp [rans, codes'])

theorem Alone.nil {st : St σ Stmt} {ds : List Decoded} (h : Alone st ds) : Alone st [] := ⟨h.1, by simp⟩

theorem callTools_alone (W : World σ Stmt) (catches : Bool) (ds : List Decoded) (st : St σ Stmt) (h : Alone st ds) :
    Alone (callTools W catches ds st).1 [] := by
  induction ds generalizing st with
  | nil => exact h
  | cons d ds ih =>
    have hc := callTool_alone W catches st d ds h
    simp only [callTools]
    cases hd : callTool W catches st d with
    | mk st' b =>
      rw [hd] at hc
      cases b with
      | true => exact ih st' hc
      | false => exact hc.nil

theorem rounds_alone (W : World σ Stmt) (hS : Single W) (n : Nat) (catches : Bool) (f : Nat) (st : St σ Stmt) (h : Alone st []) :
    Alone (rounds W n catches f st) [] := by
  induction f generalizing st with
  | zero => exact h
  | succ f ih =>
    have ha := assistant_alone W hS n st h
    simp only [rounds]
    cases hd : assistant W n st with
    | mk st' r =>
      rw [hd] at ha
      cases r with
      | error e => exact ha.1
      | ok ds =>
        simp only
        split
        · exact ha.1
        · have hc := callTools_alone W catches ds st' (ha.2 ds rfl)
          cases hk : callTools W catches ds st' with
          | mk st'' b =>
            rw [hk] at hc
            cases b with
            | true => exact ih st'' hc
            | false => exact hc

/-- **C101.** If the model sends at most one snippet in each reply, every snippet with statements that is run has passed the type check
after all snippets that were run before it. -/
theorem C101_context_partial (W : World σ Stmt) (hL : Lines W) (hS : Single W) (hf : W.anchor = .found) (n : Nat) (catches : Bool)
    (f : Nat) (w : σ) (pre post : List (Event Stmt)) (s : Src) (e : Ending)
    (h : call W n catches f w = pre ++ .ran s e :: post) (hs : stmts W [s] ≠ []) : Passes W (rans pre) s := by
  obtain ⟨b, l, h1, _, _, h2⟩ := C101_checked_partial W hL n catches f w pre post s e h
  have ha : Alone (rounds W n catches f ⟨w, [], []⟩) [] := rounds_alone W hS n catches f _ ⟨by simp, by simp⟩
  obtain ⟨b', l', h3, h4⟩ := ha.1 pre s e post h
  obtain ⟨rfl, rfl⟩ := h1.unique h3
  have : rans pre = rans b := by
    rw [h1.1, rans_append]
    have : rans (Event.asked :: l) = rans l := by simp [rans]
    rw [this, h4, List.append_nil]
  rw [this]
  exact ((h2 hs).2 hf).2

/-- **C101.** Without the definition of the template nothing is type-checked (as documented, for a template whose source is not
available). -/
theorem C101_unchecked (W : World σ Stmt) (prior : List Src) (hf : W.anchor ≠ .found) (a : Option Src) :
    (validate W prior a).1 = [] := by
  cases a with
  | none => rfl
  | some s =>
    have hc : (check W prior s).1 = [] := by
      cases ha : W.anchor with
      | absent => simp [check, ha]
      | found => exact absurd ha hf
      | sourceless =>
        cases hp : W.parse s with
        | none => simp [check, spliceRepl, ha, hp]
        | some cur => by_cases hl : cur = [] <;> simp [check, spliceRepl, ha, hp, hl]
      | drifted =>
        cases hp : W.parse s with
        | none => simp [check, spliceRepl, ha, hp]
        | some cur => by_cases hl : cur = [] <;> simp [check, spliceRepl, ha, hp, hl]
    simp only [validate]
    split
    · rfl
    · split
      · split
        · rename_i h; rw [h] at hc; exact hc
        · rename_i h; rw [h] at hc
          split <;> exact hc
      · rfl

/-- No snippet has ended with `SystemExit`. -/
def NoExit (st : St σ Stmt) : Prop := ∀ s, .ran s .exit ∉ st.log

/-- Nothing comes after `SystemExit`. -/
def AtEnd (st : St σ Stmt) : Prop := ∀ pre s post, st.log = pre ++ .ran s .exit :: post → post = []

theorem NoExit.atEnd {st : St σ Stmt} (h : NoExit st) : AtEnd st := by
  intro pre s post he
  exact absurd (by rw [he]; simp) (h s)

theorem attempt_noExit (W : World σ Stmt) (st : St σ Stmt) (h : NoExit st) : NoExit (attempt W st).1 := by
  have hc := decodeAll_checks W st.prior (W.llm st.log).calls
  simp only [attempt]
  cases hd : decodeAll W st.prior (W.llm st.log).calls with
  | mk l r =>
    rw [hd] at hc
    intro s
    have h := h s
    have hx : Event.ran s .exit ∉ l := hc.not_ran
    cases r with
    | error e => simp [h, hx]
    | ok ds => simp only; split <;> simp [h, hx]

theorem assistant_noExit (W : World σ Stmt) (n : Nat) (st : St σ Stmt) (h : NoExit st) : NoExit (assistant W n st).1 := by
  induction n generalizing st with
  | zero => exact attempt_noExit W st h
  | succ n ih =>
    have ha := attempt_noExit W st h
    simp only [assistant]
    cases hd : attempt W st with
    | mk st' r =>
      rw [hd] at ha
      cases r with
      | error e => exact ih st' ha
      | ok ds => exact ha

theorem callTools_noExit (W : World σ Stmt) (catches : Bool) (ds : List Decoded) (st : St σ Stmt) (h : NoExit st) :
    AtEnd (callTools W catches ds st).1 ∧ ((callTools W catches ds st).2 = true → NoExit (callTools W catches ds st).1) := by
  induction ds generalizing st with
  | nil => exact ⟨h.atEnd, fun _ => h⟩
  | cons d ds ih =>
    have hc : AtEnd (callTool W catches st d).1 ∧ ((callTool W catches st d).2 = true → NoExit (callTool W catches st d).1) := by
      cases d with
      | code s =>
        refine ⟨fun pre t post he => ?_, fun he t => ?_⟩
        · rcases split_append he with ⟨q, h1, h2⟩ | ⟨p, h1, h2⟩
          · exact absurd (by rw [h1]; simp) (h t)
          · cases p with
            | nil => simp at h2; exact h2.2
            | cons y ys => simp at h2
        · simp only [callTool, bne_iff_ne, ne_eq] at he
          simp only [callTool, List.mem_append, List.mem_singleton, Event.ran.injEq, not_or, not_and]
          exact ⟨h t, fun _ hx => he hx.symm⟩
      | tool i =>
        have hn : NoExit (callTool W catches st (.tool i)).1 := by
          intro t
          simp only [callTool, List.mem_append, List.mem_singleton, not_or]
          exact ⟨h t, by simp⟩
        exact ⟨hn.atEnd, fun _ => hn⟩
    simp only [callTools]
    cases hd : callTool W catches st d with
    | mk st' b =>
      rw [hd] at hc
      cases b with
      | true => exact ih st' (hc.2 rfl)
      | false => exact ⟨hc.1, by simp⟩

theorem rounds_atEnd (W : World σ Stmt) (n : Nat) (catches : Bool) (f : Nat) (st : St σ Stmt) (h : NoExit st) :
    AtEnd (rounds W n catches f st) := by
  induction f generalizing st with
  | zero => exact h.atEnd
  | succ f ih =>
    have ha := assistant_noExit W n st h
    simp only [rounds]
    cases hd : assistant W n st with
    | mk st' r =>
      rw [hd] at ha
      cases r with
      | error e => exact ha.atEnd
      | ok ds =>
        simp only
        split
        · exact ha.atEnd
        · have hc := callTools_noExit W catches ds st' ha
          cases hk : callTools W catches ds st' with
          | mk st'' b =>
            rw [hk] at hc
            cases b with
            | true => exact ih st'' (hc.2 rfl)
            | false => exact hc.1

/-- **C101.** Nothing happens after a snippet that ends with `SystemExit`. -/
theorem C101_exit (W : World σ Stmt) (n : Nat) (catches : Bool) (f : Nat) (w : σ) (pre post : List (Event Stmt)) (s : Src)
    (h : call W n catches f w = pre ++ .ran s .exit :: post) : post = [] :=
  rounds_atEnd W n catches f _ (by intro s; simp) pre s post h

/-- A tool call is acceptable after the snippets `prior`. -/
def Acceptable (W : World σ Stmt) (prior : List Src) : Call → Prop
  | .code (some s) => Sound W s ∧ (stmts W [s] ≠ [] → W.anchor ≠ .drifted ∧ (W.anchor = .found → Passes W prior s))
  | .code none => False
  | .tool i => W.decodes i = true

theorem decode_ok_iff (W : World σ Stmt) (hL : Lines W) (prior : List Src) (hp : ∀ t ∈ prior, ∃ cur, W.parse t = some cur)
    (c : Call) : (∃ l d, decode W prior c = (l, .ok d)) ↔ Acceptable W prior c := by
  cases c with
  | tool i => cases hd : W.decodes i <;> simp [decode, hd, Acceptable]
  | code a =>
    cases a with
    | none => simp [decode, validate, Acceptable]
    | some s =>
      rw [Acceptable, ← C101_accepts W hL prior hp s]
      constructor
      · rintro ⟨l, d, h⟩
        simp only [decode] at h
        cases hv : validate W prior (some s) with
        | mk l' r =>
          cases r with
          | error e => simp [hv] at h
          | ok t =>
            have := (validate_ok W prior _ l' t hv).1
            cases this
            exact ⟨l', rfl⟩
      · rintro ⟨l, h⟩
        exact ⟨l, .code s, by simp [decode, h]⟩

/-- **C101.** A reply is accepted if and only if each of its tool calls is acceptable, after the snippets run before the reply; if there
are none, its text has to be one that can be decoded. -/
theorem C101_reply (W : World σ Stmt) (hL : Lines W) (st : St σ Stmt) (hp : ∀ t ∈ st.prior, ∃ cur, W.parse t = some cur) :
    (∃ ds, (attempt W st).2 = .ok ds) ↔
      (∀ c ∈ (W.llm st.log).calls, Acceptable W st.prior c) ∧ ((W.llm st.log).calls = [] → (W.llm st.log).valid = true) := by
  have key : ∀ cs, (∃ l ds, decodeAll W st.prior cs = (l, .ok ds)) ↔ ∀ c ∈ cs, Acceptable W st.prior c := by
    intro cs
    induction cs with
    | nil => simp [decodeAll]
    | cons c cs ih =>
      rw [List.forall_mem_cons, ← ih, ← decode_ok_iff W hL st.prior hp c]
      simp only [decodeAll]
      cases hd : decode W st.prior c with
      | mk l r =>
        cases r with
        | error e => simp
        | ok d =>
          cases hr : decodeAll W st.prior cs with
          | mk l' r' => cases r' <;> simp
  have hdec := C101_decoded W st.prior (W.llm st.log).calls
  rw [← key]
  simp only [attempt]
  cases hd : decodeAll W st.prior (W.llm st.log).calls with
  | mk l r =>
    cases r with
    | error e => simp
    | ok ds =>
      have hdec := hdec l ds hd
      cases hv : (W.llm st.log).valid with
      | true => simp
      | false =>
        cases ds with
        | nil => simp only [List.map_nil] at hdec; simp [← hdec]
        | cons d ds => simp only [List.map_cons] at hdec; simp [← hdec]

/-! ## What does not hold

A small language of one variable, with a checker that finds uses of the variable when it is not bound. -/

/-- Statements: `x = 1`, `print(x)`, `del x`, `1 / 0`. -/
inductive S
  | bind | use | del | boom
  deriving DecidableEq

/-- Each statement is a letter; line ends are no statements. -/
def parseS : Src → Option (List S)
  | [] => some []
  | '\n' :: cs => parseS cs
  | 'b' :: cs => (parseS cs).map (S.bind :: ·)
  | 'u' :: cs => (parseS cs).map (S.use :: ·)
  | 'd' :: cs => (parseS cs).map (S.del :: ·)
  | 'z' :: cs => (parseS cs).map (S.boom :: ·)
  | _ :: _ => none

/-- Running statements, from a state in which the variable is bound or not. -/
def runS : Bool → List S → Bool × Ending
  | w, [] => (w, .ok)
  | _, .bind :: ss => runS true ss
  | true, .use :: ss => runS true ss
  | true, .del :: ss => runS false ss
  | w, _ :: _ => (w, .raised)

/-- The checker: which statements have no error. -/
def goods : Bool → List S → List Bool
  | _, [] => []
  | _, .bind :: ss => true :: goods true ss
  | w, .use :: ss => w :: goods w ss
  | w, .del :: ss => w :: goods false ss
  | w, .boom :: ss => true :: goods w ss

/-- The language, with the replies `rs`, and an answer afterwards. -/
def toy (rs : List Reply) : World Bool S where
  parse := parseS
  nestable _ := true
  compiles _ := true
  passes body n := ((goods false body).drop (body.length - n)).all id
  run w s := match parseS s with | some ss => runS w ss | none => (w, .raised)
  decodes _ := true
  tool w _ := (w, false)
  anchor := .found
  llm l := rs.getD (l.filter fun | .asked => true | _ => false).length ⟨[], true⟩

theorem parseS_append (a b : Src) :
    parseS (a ++ b) = (parseS a).bind fun x => (parseS b).map (x ++ ·) := by
  fun_induction parseS a with
  | case1 => cases h : parseS b <;> simp [h]
  | case2 cs ih => simpa [parseS] using ih
  | case3 cs ih => simp only [List.cons_append, parseS, ih]; cases parseS cs <;> cases parseS b <;> simp
  | case4 cs ih => simp only [List.cons_append, parseS, ih]; cases parseS cs <;> cases parseS b <;> simp
  | case5 cs ih => simp only [List.cons_append, parseS, ih]; cases parseS cs <;> cases parseS b <;> simp
  | case6 cs ih => simp only [List.cons_append, parseS, ih]; cases parseS cs <;> cases parseS b <;> simp
  | case7 c cs h1 h2 h3 h4 h5 =>
    rw [List.cons_append, parseS]
    · rfl
    all_goals simp_all

theorem toy_lines (rs : List Reply) : Lines (toy rs) := by
  intro ss
  show ∀ bs : List (List S), ss.map parseS = bs.map some → parseS (joined ss) = some bs.flatten
  induction ss with
  | nil => intro bs h; cases bs <;> simp_all [joined, parseS]
  | cons s ss ih =>
    intro bs h
    cases bs with
    | nil => simp at h
    | cons b bs =>
      simp only [List.map_cons, List.cons.injEq] at h
      have hj : joined (s :: ss) = (if s.getLast? = some '\n' then s else s ++ ['\n']) ++ joined ss := by simp [joined]
      have hs : parseS (if s.getLast? = some '\n' then s else s ++ ['\n']) = some b := by
        split
        · exact h.1
        · rw [parseS_append, h.1]; simp [parseS]
      rw [hj, parseS_append, hs, ih bs h.2]
      simp

-- reasons for a rejection, and events that end a call
example : validate (toy []) [] (some ['x']) = ([], .error .syntax) ∧
    validate (toy []) [] (some ['u']) = ([.checked [.use] 1 false], .error .illTyped) ∧
    validate { toy [] with nestable := fun _ => false } [] (some ['u']) = ([], .error .nonNestable) ∧
    (callTools { toy [] with tool := fun w _ => (w, true) } false [.tool 0, .tool 1] ⟨true, [], []⟩).1.log = [.tool 0 true] ∧
    (callTools { toy [] with tool := fun w _ => (w, true) } true [.tool 0, .tool 1] ⟨true, [], []⟩).1.log =
      [.tool 0 true, .tool 1 true] := ⟨rfl, rfl, rfl, rfl, rfl⟩

/-- The checker is right about the language: after snippets that run without errors, a snippet that passes, and does not divide by zero,
runs without errors. -/
theorem toy_right (w : Bool) (a b : List S) (w' : Bool) (ha : runS w a = (w', .ok))
    (hb : ((goods w (a ++ b)).drop a.length).all id = true) (hz : S.boom ∉ b) : (runS w' b).2 = .ok := by
  have h1 : (goods w (a ++ b)).drop a.length = goods w' b := by
    clear hb
    induction a generalizing w with
    | nil => simp [runS] at ha; subst ha; simp
    | cons x xs ih =>
      cases x with
      | bind => simpa [goods] using ih true (by simpa [runS] using ha)
      | use => cases w <;> simp [runS] at ha; simpa [goods] using ih true ha
      | del => cases w <;> simp [runS] at ha; simpa [goods] using ih false ha
      | boom => cases w <;> simp [runS] at ha
  rw [h1] at hb
  clear h1 ha
  induction b generalizing w' with
  | nil => simp [runS]
  | cons x xs ih =>
    simp only [List.mem_cons, not_or] at hz
    cases x with
    | bind => simp only [goods, List.all_cons, Bool.and_eq_true] at hb; simpa [runS] using ih true hb.2 hz.2
    | use =>
      simp only [goods, List.all_cons, Bool.and_eq_true, id] at hb
      obtain ⟨rfl, hb⟩ := hb
      simpa [runS] using ih true hb hz.2
    | del =>
      simp only [goods, List.all_cons, Bool.and_eq_true, id] at hb
      obtain ⟨rfl, hb⟩ := hb
      simpa [runS] using ih false hb hz.2
    | boom => exact absurd rfl hz.1

/-- **C101, fails.** Two snippets in one reply: the second one uses what the first one binds, and is rejected, so neither is run. In two
replies both are accepted, and run without errors. -/
theorem C101_parallel_fails : ∃ (s t : Src),
    (let W := toy [⟨[.code (some s), .code (some t)], true⟩]
     .rejected .illTyped ∈ call W 0 true 3 false ∧ rans (call W 0 true 3 false) = []) ∧
    (let W := toy [⟨[.code (some s)], true⟩, ⟨[.code (some t)], true⟩]
     (∀ e, .rejected e ∉ call W 0 true 3 false) ∧ rans (call W 0 true 3 false) = [s, t] ∧
       .ran s .ok ∈ call W 0 true 3 false ∧ .ran t .ok ∈ call W 0 true 3 false) := by
  refine ⟨['b'], ['u'], ?_, ?_⟩
  · have h : call (toy [⟨[.code (some ['b']), .code (some ['u'])], true⟩]) 0 true 3 false =
        [.asked, .checked [.bind] 1 true, .checked [.use] 1 false, .rejected .illTyped] := rfl
    simp [h, rans]
  · have h : call (toy [⟨[.code (some ['b'])], true⟩, ⟨[.code (some ['u'])], true⟩]) 0 true 3 false =
        [.asked, .checked [.bind] 1 true, .ran ['b'] .ok, .asked, .checked [.bind, .use] 1 true, .ran ['u'] .ok, .asked] := rfl
    simp [h, rans]

/-- **C101, fails.** Two snippets in one reply: the second one is accepted and run, although it does not pass the check after the
snippets run before it, and it raises. -/
theorem C101_context_fails : ∃ (rs : List Reply) (pre post : List (Event S)) (s : Src),
    call (toy rs) 0 true 3 false = pre ++ .ran s .raised :: post ∧ stmts (toy rs) [s] ≠ [] ∧ ¬ Passes (toy rs) (rans pre) s := by
  refine ⟨[⟨[.code (some ['b'])], true⟩, ⟨[.code (some ['d']), .code (some ['u'])], true⟩],
    [.asked, .checked [.bind] 1 true, .ran ['b'] .ok, .asked, .checked [.bind, .del] 1 true, .checked [.bind, .use] 1 true,
      .ran ['d'] .ok], [.asked], ['u'], rfl, by simp [stmts, toy, parseS], ?_⟩
  simp [Passes, stmts, rans, toy, parseS, goods]

/-- **C101, fails.** A snippet that passes the check, and does not divide by zero, raises, as its variable is bound only after the error
of an earlier snippet, which is in the list all the same. The model sends one snippet in each reply. -/
theorem C101_raising_fails : ∃ (rs : List Reply) (pre post : List (Event S)) (s : Src),
    Single (toy rs) ∧ call (toy rs) 0 true 3 false = pre ++ .ran s .raised :: post ∧ Passes (toy rs) (rans pre) s ∧
      S.boom ∉ stmts (toy rs) [s] := by
  refine ⟨[⟨[.code (some ['z', 'b'])], true⟩, ⟨[.code (some ['u'])], true⟩],
    [.asked, .checked [.boom, .bind] 2 true, .ran ['z', 'b'] .raised, .asked, .checked [.boom, .bind, .use] 1 true],
    [.asked], ['u'], ?_, rfl, ?_, ?_⟩
  · intro l
    show (codes ([_, _].getD _ _ : Reply).calls).length ≤ 1
    generalize (l.filter _).length = k
    match k with
    | 0 => simp [codes]
    | 1 => simp [codes]
    | k + 2 => simp [codes]
  · simp [Passes, stmts, rans, toy, parseS, goods]
  · simp [stmts, toy, parseS]

/-- **C101, fails.** A template whose source has changed since it was imported: every snippet is rejected, whatever it is, as if it were
the model's mistake, and all attempts are used up. -/
theorem C101_drift_fails (W : World σ Stmt) (hd : W.anchor = .drifted) (n : Nat) (st : St σ Stmt)
    (hw : ∀ l, ∃ s c, (W.llm l).calls = [.code (some s)] ∧ W.parse s = some c ∧ c ≠ [] ∧ W.nestable c = true) :
    (assistant W n st).2 = .error .drift ∧
      (assistant W n st).1.log = st.log ++ (List.replicate (n + 1) [.asked, .rejected .drift]).flatten := by
  have ha : ∀ st : St σ Stmt, attempt W st = ({ st with log := st.log ++ [.asked, .rejected .drift] }, .error .drift) := by
    intro st
    obtain ⟨s, c, h1, h2, h3, h4⟩ := hw st.log
    have hl : c.length ≠ 0 := by simpa using h3
    simp [attempt, h1, decodeAll, decode, validate, h2, h4, check, hd, spliceRepl, hl]
  induction n generalizing st with
  | zero => simp [assistant, ha]
  | succ n ih =>
    simp only [assistant, ha]
    refine ⟨(ih _).1, ?_⟩
    rw [(ih _).2]
    simp [List.replicate_succ]

/-! ## The theorems are about something -/

/-- A snippet that does not pass is rejected, the next reply is accepted: the first one is neither run nor in the list. -/
example : call (toy [⟨[.code (some ['u'])], true⟩, ⟨[.code (some ['b', '\n', 'u'])], true⟩]) 1 true 3 false =
    [.asked, .checked [.use] 1 false, .rejected .illTyped, .asked, .checked [.bind, .use] 2 true, .ran ['b', '\n', 'u'] .ok,
      .asked] := rfl

/-- The hypotheses of `C101_context_partial` are satisfiable. -/
example : Lines (toy []) ∧ Single (toy []) ∧ (toy []).anchor = .found := ⟨toy_lines _, by intro l; simp [toy, codes], rfl⟩

/-- Those of `C101_accepts` as well, with either result. -/
example : (∃ l, validate (toy []) [['b']] (some ['u']) = (l, .ok ['u'])) ∧ ¬ ∃ l, validate (toy []) [] (some ['u']) = (l, .ok ['u']) :=
  ⟨⟨_, rfl⟩, by
    rintro ⟨l, h⟩
    have h : (([.checked [.use] 1 false], .error .illTyped) : List (Event S) × Except Err Src) = (l, .ok ['u']) := h
    cases h⟩

/-- Drift, with three attempts. -/
example : (assistant { toy [⟨[.code (some ['b'])], true⟩, ⟨[.code (some ['b'])], true⟩, ⟨[.code (some ['b'])], true⟩] with
    anchor := .drifted } 2 ⟨false, [], []⟩).1.log =
    [.asked, .rejected .drift, .asked, .rejected .drift, .asked, .rejected .drift] := rfl

end Verif.Llm.Checked
