/-!
# What a language model is told about errors

Model of `handlers/llm/completions.py`: `append_message` 86-92, `_make_message` 95-98, the three kinds of errors with
their texts and feedback messages 101-178, the end of `call_assistant` (messages and errors only) 417-460, `call_tool`
463-488, and `RetryLLMHandler` 553-644.

* Of a reply of the model, what counts here is its text, an id of its own if it has one, and what decoding it gives
  (C93); of a tool, what it returns or raises, and what encoding the value gives.
* `traceback.format_exc()` formats the exception that is being handled at the time: the one of the innermost `except`
  block that is being executed, in this function or its callers, and `"NoneType: None\n"` if there is none.
  The text for an exception is an arbitrary function `fmt`.
* `tenacity.Retrying`: the attempt is made within `try … except BaseException`, which only records the exception; the
  conditions `retry` and `stop` and `before_sleep` are called after that block. `stop` is any function of the number
  of the attempt (from 1). Waiting, and `TryAgain` raised by an attempt, are left out.
* Ids are numbers; `uuid1()` gives the next one.
* Loops have fuel; `none` stands for a run that has not ended.
-/

namespace Verif.Llm.Feedback

inductive Role where
  | user
  | assistant
  | tool
deriving DecidableEq

/-- A message: id, role, `tool_call_id`, content. -/
structure Msg where
  id : Nat
  role : Role
  callId : Option Nat
  content : String
deriving DecidableEq

/-- `_get_history()[message["id"]] = message` (`append_message` 86-92 with `last=True`) on the values of the ordered
dict. -/
def put (h : List Msg) (m : Msg) : List Msg :=
  if h.any (·.id == m.id) then h.map (fun x => if x.id == m.id then m else x) else h ++ [m]

/-- Exceptions. `other`: class, whether it is a subclass of `Exception`, and its text. `callError`:
`ToolCallDecodingError` (112-134) with the message and the id and name of the tool call; `resultError`:
`ResultDecodingError` (137-154); `execError`: `ToolCallExecutionError` (157-178) with the id and name of the tool call. -/
inductive Exn where
  | other (cls : Nat) (isException : Bool) (text : String)
  | callError (original : Exn) (raw : Msg) (id : Nat) (name : String)
  | resultError (original : Exn) (raw : Msg)
  | execError (original : Exn) (id : Nat) (name : String)
deriving DecidableEq

/-- `str(e)`: 120-121, 144-145, 164-165. -/
def Exn.str : Exn → String
  | .other _ _ t => t
  | .callError o _ _ n =>
    "Error decoding tool call '" ++ n ++ "': " ++ o.str ++ ". Please provide a valid response and try again."
  | .resultError o _ => "Error decoding response: " ++ o.str ++ ". Please provide a valid response and try again."
  | .execError o _ n => "Tool execution failed: Error executing tool '" ++ n ++ "': " ++ o.str

/-- `isinstance(e, Exception)`. -/
def Exn.isException : Exn → Bool
  | .other _ b _ => b
  | _ => true

/-- `isinstance(e, (ToolCallDecodingError, ResultDecodingError))`, with `e.raw_message`. -/
def Exn.decoding : Exn → Option Msg
  | .callError _ m _ _ => some m
  | .resultError _ m => some m
  | _ => none

/-- `traceback.format_exc()` when `cur` is the exception being handled. -/
def formatExc (fmt : Exn → String) : Option Exn → String
  | none => "NoneType: None\n"
  | some e => fmt e

/-- The text of `to_feedback_message` (123-127, 147-151, 167-171): the same in the three classes. -/
def feedbackText (fmt : Exn → String) (inc : Bool) (cur : Option Exn) (e : Exn) : String :=
  if inc then e.str ++ "\n\nTraceback:\n```\n" ++ formatExc fmt cur ++ "```" else e.str

/-- `e.to_feedback_message(include_traceback)` with the new id `i` (128-134, 152-154, 172-178). Other exceptions have
no such method. -/
def feedback (fmt : Exn → String) (inc : Bool) (cur : Option Exn) (i : Nat) (e : Exn) : Option Msg :=
  match e with
  | .callError _ _ c _ => some ⟨i, .tool, some c, feedbackText fmt inc cur e⟩
  | .resultError _ _ => some ⟨i, .user, none, feedbackText fmt inc cur e⟩
  | .execError _ c _ => some ⟨i, .tool, some c, feedbackText fmt inc cur e⟩
  | .other _ _ _ => none

/-- What a request gives. `fails`: `completion`, or an assertion on the reply, raises. Otherwise the reply has a text, an
id of its own or not, and decoding it fails for a tool call (`badCall`, with its id and name), fails for the result
(`bad`), or gives a value. -/
inductive Reply (α : Type) where
  | fails (e : Exn)
  | badCall (own : Option Nat) (text : String) (e : Exn) (id : Nat) (name : String)
  | bad (own : Option Nat) (text : String) (e : Exn)
  | good (own : Option Nat) (text : String) (a : α)

/-- The id of the reply's own, if it has one. -/
def Reply.own {α : Type} : Reply α → Option Nat
  | .fails _ => none
  | .badCall o _ _ _ _ => o
  | .bad o _ _ => o
  | .good o _ _ => o

/-- The text of the reply. -/
def Reply.text {α : Type} : Reply α → Option String
  | .fails _ => none
  | .badCall _ t _ _ _ => some t
  | .bad _ t _ => some t
  | .good _ t _ => some t

/-- The handler: `RetryLLMHandler(include_traceback, catch_tool_errors, stop)` (579-602). -/
structure Cfg where
  fmt : Exn → String
  includeTraceback : Bool
  catches : Exn → Bool
  stop : Nat → Bool

/-- The next id, the history in use, and a record of the requests made. -/
structure St where
  next : Nat
  hist : List Msg
  requests : List (List Msg)

variable {α : Type}

/-- `_make_message` (95-98) for a reply: its own id if it has one, else a new one. -/
def rawMessage (own : Option Nat) (next : Nat) (text : String) : Msg × Nat :=
  match own with
  | some i => (⟨i, .assistant, none, text⟩, next)
  | none => (⟨next, .assistant, none, text⟩, next + 1)

/-- `call_assistant` (366-460): the request with the messages of the history, the reply appended, and the errors. -/
def once (ask : Nat → List Msg → Reply α) (n : Nat) (s : St) : St × Except Exn (Msg × α) :=
  let q := { s with requests := s.requests ++ [s.hist] }
  match ask n s.hist with
  | .fails e => (q, .error e)
  | .badCall own t e c nm =>
    let m := rawMessage own s.next t
    ({ q with next := m.2, hist := put s.hist m.1 }, .error (.callError e m.1 c nm))
  | .bad own t e =>
    let m := rawMessage own s.next t
    ({ q with next := m.2, hist := put s.hist m.1 }, .error (.resultError e m.1))
  | .good own t a =>
    let m := rawMessage own s.next t
    ({ q with next := m.2, hist := put s.hist m.1 }, .ok (m.1, a))

/-- `RetryLLMHandler._before_sleep` (604-610) for the exception `e`; `cur` is the exception that callers are
handling. -/
def beforeSleep (c : Cfg) (cur : Option Exn) (e : Exn) (raw : Msg) (s : St) : St :=
  let h := put s.hist raw
  match feedback c.fmt c.includeTraceback cur s.next e with
  | some m => { s with next := s.next + 1, hist := put h m }
  | none => { s with hist := h }

/-- `tenacity.Retrying.__call__` with the settings of 594-602: only decoding errors are retried, `stop` ends with the
last exception raised again. -/
def retrying (c : Cfg) (cur : Option Exn) (ask : Nat → List Msg → Reply α) :
    Nat → Nat → St → Option (St × Except Exn (Msg × α))
  | 0, _, _ => none
  | f + 1, n, s =>
    match once ask n s with
    | (s, .ok r) => some (s, .ok r)
    | (s, .error e) =>
      match e.decoding with
      | none => some (s, .error e)
      | some raw => if c.stop n then some (s, .error e) else retrying c cur ask f (n + 1) (beforeSleep c cur e raw s)

/-- `RetryLLMHandler._call_assistant` (612-626): the attempts are made on a copy of the history; the last message is
appended to the history itself. -/
def callAssistant (c : Cfg) (cur : Option Exn) (ask : Nat → List Msg → Reply α) (f : Nat) (s : St) :
    Option (St × Except Exn (Msg × α)) :=
  match retrying c cur ask f 1 s with
  | none => none
  | some (s', .ok (m, a)) => some ({ s' with hist := put s.hist m }, .ok (m, a))
  | some (s', .error e) => some ({ s' with hist := s.hist }, .error e)

/-- What a tool does: it raises, or returns a value whose encoding raises or gives the content of a message. -/
inductive ToolRun where
  | raises (e : Exn)
  | encodingRaises (e : Exn)
  | returns (content : String)

/-- `call_tool` (463-488) for the call with id `c` of the tool `name`. -/
def callTool (c : Nat) (name : String) (r : ToolRun) (s : St) : St × Except Exn Msg :=
  match r with
  | .raises e => if e.isException then (s, .error (.execError e c name)) else (s, .error e)
  | .encodingRaises e => (s, .error e)
  | .returns t =>
    let m : Msg := ⟨s.next, .tool, some c, t⟩
    ({ s with next := s.next + 1, hist := put s.hist m }, .ok m)

/-- `RetryLLMHandler._call_tool` (628-644): the feedback is made within the `except` block, so the exception being
handled is the `ToolCallExecutionError`. -/
def callToolRetry (k : Cfg) (c : Nat) (name : String) (r : ToolRun) (s : St) : St × Except Exn Msg :=
  match callTool c name r s with
  | (s, .ok m) => (s, .ok m)
  | (s, .error (.execError o c' n')) =>
    if k.catches o then
      match feedback k.fmt k.includeTraceback (some (.execError o c' n')) s.next (.execError o c' n') with
      | some m => ({ s with next := s.next + 1, hist := put s.hist m }, .ok m)
      | none => (s, .error (.execError o c' n'))
    else (s, .error (.execError o c' n'))
  | (s, .error e) => (s, .error e)

/-! ## Specification -/

/-- All ids of the history have been given out before. -/
def St.Fresh (s : St) : Prop := ∀ m ∈ s.hist, m.id < s.next

/-- The replies have no ids of their own, and requests that fail raise other errors than decoding errors. -/
def Plain (ask : Nat → List Msg → Reply α) : Prop :=
  ∀ n q, (ask n q).own = none ∧ ∀ e, ask n q = .fails e →
    match e with
    | .callError _ _ _ _ => False
    | .resultError _ _ => False
    | .execError _ _ _ => True
    | .other _ _ _ => True

/-- `raw` is the message of a reply, and `fb` tells what is wrong with it: decoding it raised an error with the text
`why`, in a tool call (`some (id, name)`: the message answers that call) or else in the result. -/
def Explains (r : Reply α) (raw fb : Msg) : Prop :=
  raw.role = .assistant ∧ r.text = some raw.content ∧
  match r with
  | .badCall _ _ e id name =>
    fb.role = .tool ∧ fb.callId = some id ∧ ∃ more, fb.content = "Error decoding tool call '" ++ name ++ "': " ++ e.str
      ++ ". Please provide a valid response and try again." ++ more
  | .bad _ _ e =>
    fb.role = .user ∧ fb.callId = none ∧ ∃ more, fb.content = "Error decoding response: " ++ e.str
      ++ ". Please provide a valid response and try again." ++ more
  | _ => False

/-- The reply is one that is asked for again. -/
def Reply.Retried : Reply α → Prop
  | .badCall _ _ _ _ _ => True
  | .bad _ _ _ => True
  | _ => False

/-! ## Lemmas -/

theorem put_new {h : List Msg} {m : Msg} (hm : ∀ x ∈ h, x.id ≠ m.id) : put h m = h ++ [m] := by
  unfold put
  rw [if_neg]
  intro hc
  obtain ⟨x, hx, e⟩ := List.any_eq_true.1 hc
  exact hm x hx (by simpa using e)

theorem put_same {h : List Msg} {m : Msg} (hm : ∀ x ∈ h, x.id ≠ m.id) : put (h ++ [m]) m = h ++ [m] := by
  unfold put
  rw [if_pos (by simp)]
  rw [List.map_append]
  congr 1
  · conv => rhs; rw [← List.map_id h]
    apply List.map_congr_left
    intro x hx
    rw [if_neg (by simpa using hm x hx)]; rfl
  · simp

theorem fresh_ne {s : St} (hs : s.Fresh) : ∀ x ∈ s.hist, x.id ≠ s.next := fun x hx => Nat.ne_of_lt (hs x hx)

theorem put_fresh {s : St} (hs : s.Fresh) (m : Msg) (hm : m.id = s.next) : put s.hist m = s.hist ++ [m] :=
  put_new (fun x hx => hm ▸ fresh_ne hs x hx)

/-- One attempt. -/
theorem once_spec (ask : Nat → List Msg → Reply α) (hn : Plain ask) (n : Nat) (s : St) (hs : s.Fresh) :
    match ask n s.hist with
    | .fails e => once ask n s = ({ s with requests := s.requests ++ [s.hist] }, .error e)
    | .badCall _ t e c nm =>
      once ask n s = (⟨s.next + 1, s.hist ++ [⟨s.next, .assistant, none, t⟩], s.requests ++ [s.hist]⟩,
        .error (.callError e ⟨s.next, .assistant, none, t⟩ c nm))
    | .bad _ t e =>
      once ask n s = (⟨s.next + 1, s.hist ++ [⟨s.next, .assistant, none, t⟩], s.requests ++ [s.hist]⟩,
        .error (.resultError e ⟨s.next, .assistant, none, t⟩))
    | .good _ t a =>
      once ask n s = (⟨s.next + 1, s.hist ++ [⟨s.next, .assistant, none, t⟩], s.requests ++ [s.hist]⟩,
        .ok (⟨s.next, .assistant, none, t⟩, a)) := by
  have ho := (hn n s.hist).1
  unfold once
  cases hr : ask n s.hist with
  | fails e => rfl
  | badCall own t e c nm =>
    rw [hr] at ho; simp only [Reply.own] at ho; subst ho
    simp only [rawMessage, put_fresh hs ⟨s.next, .assistant, none, t⟩ rfl]
  | bad own t e =>
    rw [hr] at ho; simp only [Reply.own] at ho; subst ho
    simp only [rawMessage, put_fresh hs ⟨s.next, .assistant, none, t⟩ rfl]
  | good own t a =>
    rw [hr] at ho; simp only [Reply.own] at ho; subst ho
    simp only [rawMessage, put_fresh hs ⟨s.next, .assistant, none, t⟩ rfl]

theorem feedbackText_prefix (fmt : Exn → String) (inc : Bool) (cur : Option Exn) (e : Exn) :
    ∃ more, feedbackText fmt inc cur e = e.str ++ more := by
  unfold feedbackText
  cases inc
  · exact ⟨"", by simp⟩
  · exact ⟨"\n\nTraceback:\n```\n" ++ formatExc fmt cur ++ "```", by simp [String.append_assoc]⟩

theorem feedbackText_eq (fmt : Exn → String) (inc : Bool) (cur : Option Exn) (e : Exn) :
    feedbackText fmt inc cur e =
      e.str ++ (if inc then "\n\nTraceback:\n```\n" ++ formatExc fmt cur ++ "```" else "") := by
  unfold feedbackText
  generalize e.str = x
  cases inc
  · exact (String.append_empty).symm
  · simp only [if_true, String.append_assoc]

theorem exec_str (o : Exn) (i : Nat) (n : String) : (Exn.execError o i n).str =
    "Tool execution failed: Error executing tool '" ++ n ++ "': " ++ o.str := rfl

theorem fresh_snoc2 {s : St} (hs : s.Fresh) (a b : Msg) (ha : a.id = s.next) (hb : b.id = s.next + 1) (q : List (List Msg)) :
    St.Fresh ⟨s.next + 2, s.hist ++ [a] ++ [b], q⟩ := by
  intro m hm
  simp only [List.mem_append, List.mem_singleton] at hm
  show m.id < s.next + 2
  rcases hm with (h | h) | h
  · have := hs m h; omega
  · subst h; omega
  · subst h; omega

/-- An attempt that is retried, together with `_before_sleep`. -/
theorem sleep_spec (c : Cfg) (cur : Option Exn) (s : St) (hs : s.Fresh) (t : String) (e : Exn) (raw : Msg) (fb : Msg)
    (hraw : raw = ⟨s.next, .assistant, none, t⟩) (hf : feedback c.fmt c.includeTraceback cur (s.next + 1) e = some fb)
    (q : List (List Msg)) (hid : fb.id = s.next + 1) :
    beforeSleep c cur e raw ⟨s.next + 1, s.hist ++ [raw], q⟩ = ⟨s.next + 2, s.hist ++ [raw] ++ [fb], q⟩ := by
  have hne : ∀ x ∈ s.hist, x.id ≠ raw.id := by
    intro x hx; rw [hraw]; exact fresh_ne hs x hx
  simp only [beforeSleep, hf, put_same hne]
  congr 1
  apply put_new
  intro x hx
  simp only [List.mem_append, List.mem_singleton] at hx
  rcases hx with h | h
  · have := hs x h; omega
  · subst h; rw [hraw, hid]; show s.next ≠ s.next + 1; omega

/-- All about a run of the retryer. -/
structure Facts (c : Cfg) (cur : Option Exn) (ask : Nat → List Msg → Reply α) (n : Nat) (s s' : St)
    (r : Except Exn (Msg × α)) : Prop where
  /-- The requests. -/
  requests : ∃ qs : List (List Msg), s'.requests = s.requests ++ qs ∧ qs[0]? = some s.hist ∧
    (∀ k q q', qs[k]? = some q → qs[k + 1]? = some q' → c.stop (n + k) = false ∧
      ∃ raw fb, q' = q ++ [raw, fb] ∧ Explains (ask (n + k) q) raw fb ∧
        fb.content = feedbackText c.fmt c.includeTraceback cur
          (match ask (n + k) q with
           | .badCall _ _ e i nm => .callError e raw i nm
           | .bad _ _ e => .resultError e raw
           | _ => .other 0 true "")) ∧
    ∃ q, qs[qs.length - 1]? = some q ∧
      match ask (n + (qs.length - 1)) q with
      | .fails e => r = .error e
      | .badCall _ t e i nm => c.stop (n + (qs.length - 1)) = true ∧ ∃ j, s.next ≤ j ∧
          r = .error (.callError e ⟨j, .assistant, none, t⟩ i nm)
      | .bad _ t e => c.stop (n + (qs.length - 1)) = true ∧ ∃ j, s.next ≤ j ∧
          r = .error (.resultError e ⟨j, .assistant, none, t⟩)
      | .good _ t a => ∃ j, s.next ≤ j ∧ r = .ok (⟨j, .assistant, none, t⟩, a)

theorem facts_end (c : Cfg) (cur : Option Exn) (ask : Nat → List Msg → Reply α) (n : Nat) (s s' : St)
    (r : Except Exn (Msg × α)) (hq : s'.requests = s.requests ++ [s.hist])
    (hr : match ask n s.hist with
      | .fails e => r = .error e
      | .badCall _ t e i nm => c.stop n = true ∧ ∃ j, s.next ≤ j ∧ r = .error (.callError e ⟨j, .assistant, none, t⟩ i nm)
      | .bad _ t e => c.stop n = true ∧ ∃ j, s.next ≤ j ∧ r = .error (.resultError e ⟨j, .assistant, none, t⟩)
      | .good _ t a => ∃ j, s.next ≤ j ∧ r = .ok (⟨j, .assistant, none, t⟩, a)) :
    Facts c cur ask n s s' r :=
  ⟨[s.hist], hq, rfl, fun k q q' _ h => by simp at h, s.hist, rfl, hr⟩

theorem facts_step (c : Cfg) (cur : Option Exn) (ask : Nat → List Msg → Reply α) (n : Nat) (s s1 s' : St)
    (r : Except Exn (Msg × α)) (raw fb : Msg) (h1 : s1.hist = s.hist ++ [raw, fb])
    (h2 : s1.requests = s.requests ++ [s.hist]) (h3 : s.next ≤ s1.next) (hst : c.stop n = false)
    (he : Explains (ask n s.hist) raw fb)
    (ht : fb.content = feedbackText c.fmt c.includeTraceback cur
          (match ask n s.hist with
           | .badCall _ _ e i nm => .callError e raw i nm
           | .bad _ _ e => .resultError e raw
           | _ => .other 0 true ""))
    (hf : Facts c cur ask (n + 1) s1 s' r) : Facts c cur ask n s s' r := by
  obtain ⟨qs, a1, a2, a3, q, a4, a5⟩ := hf.requests
  have hl : qs ≠ [] := by intro e; subst e; simp at a2
  obtain ⟨q0, qs, rfl⟩ := List.exists_cons_of_ne_nil hl
  refine ⟨s.hist :: q0 :: qs, by rw [a1, h2]; simp, rfl, ?_, q, ?_, ?_⟩
  · intro k x x' hx hx'
    cases k with
    | zero =>
      simp only [List.getElem?_cons_zero, Option.some.injEq, Nat.zero_add, List.getElem?_cons_succ] at hx hx' a2
      subst hx; subst hx'; subst a2
      exact ⟨hst, raw, fb, h1, he, ht⟩
    | succ k =>
      have := a3 k x x' (by simpa using hx) (by simpa using hx')
      rw [show n + (k + 1) = n + 1 + k by omega]; exact this
  · simpa using a4
  · have e : n + ((s.hist :: q0 :: qs).length - 1) = n + 1 + ((q0 :: qs).length - 1) := by
      simp only [List.length_cons]; omega
    rw [e]
    revert a5
    cases ask (n + 1 + ((q0 :: qs).length - 1)) q with
    | fails x => exact id
    | badCall _ _ _ _ _ => exact fun ⟨x, j, y, z⟩ => ⟨x, j, Nat.le_trans h3 y, z⟩
    | bad _ _ _ => exact fun ⟨x, j, y, z⟩ => ⟨x, j, Nat.le_trans h3 y, z⟩
    | good _ _ _ => exact fun ⟨j, y, z⟩ => ⟨j, Nat.le_trans h3 y, z⟩

theorem facts (c : Cfg) (cur : Option Exn) (ask : Nat → List Msg → Reply α) (hn : Plain ask) :
    ∀ (f n : Nat) (s s' : St) (r : Except Exn (Msg × α)), s.Fresh → retrying c cur ask f n s = some (s', r) →
      Facts c cur ask n s s' r := by
  intro f
  induction f with
  | zero => intro n s s' r _ h; exact nomatch h
  | succ f ih =>
    intro n s s' r hs h
    have ho := once_spec ask hn n s hs
    unfold retrying at h
    cases hr : ask n s.hist with
    | fails e =>
      simp only [hr] at ho
      rw [ho] at h
      simp only at h
      cases hd : e.decoding with
      | none =>
        simp only [hd, Option.some.injEq, Prod.mk.injEq] at h
        obtain ⟨rfl, rfl⟩ := h
        exact facts_end c cur ask n s _ _ rfl (by rw [hr])
      | some raw =>
        have := (hn n s.hist).2 e hr
        cases e with
        | callError _ _ _ _ => exact this.elim
        | resultError _ _ => exact this.elim
        | execError _ _ _ => exact nomatch hd
        | other _ _ _ => exact nomatch hd
    | good own t a =>
      simp only [hr] at ho
      rw [ho] at h
      simp only [Option.some.injEq, Prod.mk.injEq] at h
      obtain ⟨rfl, rfl⟩ := h
      exact facts_end c cur ask n s _ _ rfl (by rw [hr]; exact ⟨_, Nat.le_refl _, rfl⟩)
    | badCall own t e i nm =>
      simp only [hr] at ho
      rw [ho] at h
      simp only [Exn.decoding] at h
      by_cases hst : c.stop n = true
      · simp only [hst, if_true, Option.some.injEq, Prod.mk.injEq] at h
        obtain ⟨rfl, rfl⟩ := h
        exact facts_end c cur ask n s _ _ rfl (by rw [hr]; exact ⟨hst, _, Nat.le_refl _, rfl⟩)
      · rw [if_neg hst] at h
        rw [sleep_spec c cur s hs t _ _ _ rfl rfl _ rfl] at h
        have := ih (n + 1) _ s' r (fresh_snoc2 hs _ _ rfl rfl _) h
        refine facts_step c cur ask n s _ s' r _ _ (by simp only [List.append_assoc]; rfl) rfl (by simp) (by simpa using hst) ?_ ?_ this
        · rw [hr]
          refine ⟨rfl, rfl, rfl, rfl, ?_⟩
          exact feedbackText_prefix c.fmt c.includeTraceback cur (.callError e _ i nm)
        · rw [hr]
    | bad own t e =>
      simp only [hr] at ho
      rw [ho] at h
      simp only [Exn.decoding] at h
      by_cases hst : c.stop n = true
      · simp only [hst, if_true, Option.some.injEq, Prod.mk.injEq] at h
        obtain ⟨rfl, rfl⟩ := h
        exact facts_end c cur ask n s _ _ rfl (by rw [hr]; exact ⟨hst, _, Nat.le_refl _, rfl⟩)
      · rw [if_neg hst] at h
        rw [sleep_spec c cur s hs t _ _ _ rfl rfl _ rfl] at h
        have := ih (n + 1) _ s' r (fresh_snoc2 hs _ _ rfl rfl _) h
        refine facts_step c cur ask n s _ s' r _ _ (by simp only [List.append_assoc]; rfl) rfl (by simp) (by simpa using hst) ?_ ?_ this
        · rw [hr]
          refine ⟨rfl, rfl, rfl, rfl, ?_⟩
          exact feedbackText_prefix c.fmt c.includeTraceback cur (.resultError e _)
        · rw [hr]

/-- The last attempt of `retrying`, seen from `callAssistant`. -/
theorem callAssistant_facts (c : Cfg) (cur : Option Exn) (ask : Nat → List Msg → Reply α) (hn : Plain ask) (f : Nat)
    (s s' : St) (r : Except Exn (Msg × α)) (hs : s.Fresh) (h : callAssistant c cur ask f s = some (s', r)) :
    Facts c cur ask 1 s s' r ∧
      match r with
      | .ok (m, _) => s'.hist = put s.hist m
      | .error _ => s'.hist = s.hist := by
  unfold callAssistant at h
  cases hr : retrying c cur ask f 1 s with
  | none => rw [hr] at h; exact nomatch h
  | some x =>
    obtain ⟨s1, r1⟩ := x
    have hf := facts c cur ask hn f 1 s s1 r1 hs hr
    rw [hr] at h
    cases r1 with
    | ok x =>
      obtain ⟨m, a⟩ := x
      simp only [Option.some.injEq, Prod.mk.injEq] at h
      obtain ⟨rfl, rfl⟩ := h
      exact ⟨⟨hf.requests⟩, rfl⟩
    | error e =>
      simp only [Option.some.injEq, Prod.mk.injEq] at h
      obtain ⟨rfl, rfl⟩ := h
      exact ⟨⟨hf.requests⟩, rfl⟩

/-! ## Properties -/

/-- The first request has the messages of the history, and each further one those of the request before, the rejected
reply, and a message that tells what is wrong with it: as the answer to the tool call if one cannot be decoded, else from
the user. -/
theorem C95_requests (c : Cfg) (cur : Option Exn) (ask : Nat → List Msg → Reply α) (hn : Plain ask) (f : Nat)
    (s s' : St) (r : Except Exn (Msg × α)) (hs : s.Fresh) (h : callAssistant c cur ask f s = some (s', r)) :
    ∃ qs : List (List Msg), s'.requests = s.requests ++ qs ∧ qs[0]? = some s.hist ∧
      ∀ k q q', qs[k]? = some q → qs[k + 1]? = some q' →
        ∃ raw fb, q' = q ++ [raw, fb] ∧ Explains (ask (k + 1) q) raw fb := by
  obtain ⟨⟨qs, h1, h2, h3, _⟩, _⟩ := callAssistant_facts c cur ask hn f s s' r hs h
  refine ⟨qs, h1, h2, fun k q q' hq hq' => ?_⟩
  obtain ⟨_, raw, fb, a, b, _⟩ := h3 k q q' hq hq'
  exact ⟨raw, fb, a, by rwa [Nat.add_comm] at b⟩

/-- The reply to the last request decides. A value is returned, and the history gets this reply only, not the rejected
ones and their feedback. If it cannot be decoded, `stop` has held; its error, with the reply, is raised. Other errors are
raised as they are. When something is raised the history is as before. -/
theorem C95_result (c : Cfg) (cur : Option Exn) (ask : Nat → List Msg → Reply α) (hn : Plain ask) (f : Nat)
    (s s' : St) (r : Except Exn (Msg × α)) (hs : s.Fresh) (h : callAssistant c cur ask f s = some (s', r)) :
    ∃ qs q, s'.requests = s.requests ++ qs ++ [q] ∧
      match ask (qs.length + 1) q with
      | .good _ t a => ∃ m, m.role = .assistant ∧ m.content = t ∧ r = .ok (m, a) ∧ s'.hist = s.hist ++ [m]
      | .badCall _ t e id name => c.stop (qs.length + 1) = true ∧ s'.hist = s.hist ∧
          ∃ m, m.role = .assistant ∧ m.content = t ∧ r = .error (.callError e m id name)
      | .bad _ t e => c.stop (qs.length + 1) = true ∧ s'.hist = s.hist ∧
          ∃ m, m.role = .assistant ∧ m.content = t ∧ r = .error (.resultError e m)
      | .fails e => r = .error e ∧ s'.hist = s.hist := by
  obtain ⟨⟨qs, h1, h2, _, q, h4, h5⟩, h6⟩ := callAssistant_facts c cur ask hn f s s' r hs h
  have hl : qs ≠ [] := by intro e; subst e; simp at h2
  have hlast : qs = qs.dropLast ++ [q] := by
    have e : qs.getLast hl = q := by
      have := List.getLast?_eq_getElem? (l := qs)
      rw [h4, List.getLast?_eq_some_getLast hl] at this
      exact Option.some.inj this
    rw [← e]; exact (List.dropLast_concat_getLast hl).symm
  refine ⟨qs.dropLast, q, by rw [h1, List.append_assoc, ← hlast], ?_⟩
  have e : qs.dropLast.length + 1 = 1 + (qs.length - 1) := by rw [List.length_dropLast]; omega
  rw [e]
  revert h5
  cases ask (1 + (qs.length - 1)) q with
  | fails e => intro h5; subst h5; exact ⟨rfl, h6⟩
  | badCall o t e i nm =>
    rintro ⟨a, j, _, rfl⟩
    exact ⟨a, h6, _, rfl, rfl, rfl⟩
  | bad o t e =>
    rintro ⟨a, j, _, rfl⟩
    exact ⟨a, h6, _, rfl, rfl, rfl⟩
  | good o t a =>
    rintro ⟨j, hj, rfl⟩
    refine ⟨_, rfl, rfl, rfl, ?_⟩
    simp only at h6
    rw [h6]
    apply put_new
    intro x hx
    have := hs x hx
    show x.id ≠ j
    omega

/-- No request is made after one for which `stop` holds, or whose reply is not rejected. -/
theorem C95_stop (c : Cfg) (cur : Option Exn) (ask : Nat → List Msg → Reply α) (hn : Plain ask) (f : Nat)
    (s s' : St) (r : Except Exn (Msg × α)) (hs : s.Fresh) (h : callAssistant c cur ask f s = some (s', r)) :
    ∃ qs : List (List Msg), s'.requests = s.requests ++ qs ∧ 0 < qs.length ∧
      ∀ k q, qs[k]? = some q → k + 1 < qs.length → c.stop (k + 1) = false ∧ (ask (k + 1) q).Retried := by
  obtain ⟨⟨qs, h1, h2, h3, _⟩, _⟩ := callAssistant_facts c cur ask hn f s s' r hs h
  have hl : qs ≠ [] := by intro e; subst e; simp at h2
  refine ⟨qs, h1, List.length_pos_iff.2 hl, fun k q hq hk => ?_⟩
  obtain ⟨hst, raw, fb, _, b, _⟩ := h3 k q _ hq (List.getElem?_eq_getElem hk)
  rw [Nat.add_comm] at b hst
  refine ⟨hst, ?_⟩
  revert b
  cases ask (k + 1) q with
  | fails e => exact fun b => b.2.2
  | good _ _ _ => exact fun b => b.2.2
  | badCall _ _ _ _ _ => exact fun _ => trivial
  | bad _ _ _ => exact fun _ => trivial

/-- If `stop` holds for some number the retries end. -/
theorem C95_ends (c : Cfg) (cur : Option Exn) (ask : Nat → List Msg → Reply α) (N : Nat) (hN : c.stop (N + 1) = true)
    (s : St) : ∃ x, callAssistant c cur ask (N + 1) s = some x := by
  have key : ∀ f n s, n + f = N + 1 → ∃ x, retrying c cur ask (f + 1) n s = some x := by
    intro f
    induction f with
    | zero =>
      intro n s hn
      unfold retrying
      cases once ask n s with
      | mk s1 r =>
        cases r with
        | ok r => exact ⟨_, rfl⟩
        | error e =>
          simp only
          cases e.decoding with
          | none => exact ⟨_, rfl⟩
          | some raw => simp only [Nat.add_zero] at hn; subst hn; simp only [hN, if_true]; exact ⟨_, rfl⟩
    | succ f ih =>
      intro n s hn
      unfold retrying
      cases once ask n s with
      | mk s1 r =>
        cases r with
        | ok r => exact ⟨_, rfl⟩
        | error e =>
          simp only
          cases e.decoding with
          | none => exact ⟨_, rfl⟩
          | some raw =>
            simp only
            cases c.stop n
            · exact ih (n + 1) _ (by omega)
            · exact ⟨_, rfl⟩
  obtain ⟨x, hx⟩ := key N 1 s (by omega)
  unfold callAssistant
  rw [hx]
  obtain ⟨s1, r⟩ := x
  cases r with
  | ok r => exact ⟨_, rfl⟩
  | error e => exact ⟨_, rfl⟩

/-- A tool that returns: its message goes to the end of the history and answers the call. -/
theorem C95_returns (k : Cfg) (c : Nat) (name content : String) (s : St) (hs : s.Fresh) :
    ∃ m, (callToolRetry k c name (.returns content) s).2 = .ok m ∧
      (callToolRetry k c name (.returns content) s).1.hist = s.hist ++ [m] ∧
      m.role = .tool ∧ m.callId = some c ∧ m.content = content :=
  ⟨⟨s.next, .tool, some c, content⟩, rfl, put_fresh hs _ rfl, rfl, rfl, rfl⟩

/-- A tool that raises one of the exceptions to be caught: the model gets the name of the tool and the text of the error as
the answer to the call, and with `include_traceback` the traceback of the error. -/
theorem C95_caught (k : Cfg) (c : Nat) (name : String) (e : Exn) (s : St) (hs : s.Fresh) (he : e.isException = true)
    (hk : k.catches e = true) :
    ∃ m, (callToolRetry k c name (.raises e) s).2 = .ok m ∧
      (callToolRetry k c name (.raises e) s).1.hist = s.hist ++ [m] ∧
      m.role = .tool ∧ m.callId = some c ∧
      m.content = "Tool execution failed: Error executing tool '" ++ name ++ "': " ++ e.str ++
        (if k.includeTraceback then "\n\nTraceback:\n```\n" ++ k.fmt (.execError e c name) ++ "```" else "") := by
  have h1 : callTool c name (.raises e) s = (s, .error (.execError e c name)) := by simp [callTool, he]
  have h2 : callToolRetry k c name (.raises e) s =
      ({ s with
          next := s.next + 1
          hist := put s.hist ⟨s.next, .tool, some c,
            feedbackText k.fmt k.includeTraceback (some (.execError e c name)) (.execError e c name)⟩ },
        .ok ⟨s.next, .tool, some c,
          feedbackText k.fmt k.includeTraceback (some (.execError e c name)) (.execError e c name)⟩) := by
    simp [callToolRetry, h1, hk, feedback]
  rw [h2]
  have h3 := put_fresh hs ⟨s.next, .tool, some c,
    feedbackText k.fmt k.includeTraceback (some (.execError e c name)) (.execError e c name)⟩ rfl
  refine ⟨⟨s.next, .tool, some c,
    feedbackText k.fmt k.includeTraceback (some (.execError e c name)) (.execError e c name)⟩, rfl, h3, rfl, rfl, ?_⟩
  show feedbackText k.fmt k.includeTraceback (some (.execError e c name)) (.execError e c name) = _
  rw [feedbackText_eq, exec_str]
  rfl

/-- Other exceptions of a tool are raised again, in a `ToolCallExecutionError`, and the history is unchanged. -/
theorem C95_uncaught (k : Cfg) (c : Nat) (name : String) (e : Exn) (s : St) (he : e.isException = true)
    (hk : k.catches e = false) : callToolRetry k c name (.raises e) s = (s, .error (.execError e c name)) := by
  have h1 : callTool c name (.raises e) s = (s, .error (.execError e c name)) := by simp [callTool, he]
  simp [callToolRetry, h1, hk]

/-- Not so for exceptions that are no `Exception`, such as KeyboardInterrupt or SystemExit: they are raised even if
`catch_tool_errors`, which may be any class of exceptions, includes them. -/
theorem C95_base_fails (k : Cfg) (c : Nat) (name : String) (s : St) (cls : Nat) (t : String) :
    callToolRetry k c name (.raises (.other cls false t)) s = (s, .error (.other cls false t)) := by
  simp [callToolRetry, callTool, Exn.isException]

/-- Not so for errors when the value of the tool is encoded: they are raised whatever `catch_tool_errors` is. -/
theorem C95_encoding_fails (k : Cfg) (c : Nat) (name : String) (s : St) (cls : Nat) (b : Bool) (t : String) :
    callToolRetry k c name (.encodingRaises (.other cls b t)) s = (s, .error (.other cls b t)) := by
  simp [callToolRetry, callTool]

/-- With `include_traceback`, the default, the feedback for a rejected reply has no traceback: `_before_sleep` is called
when the exception is not being handled any more. Where the traceback should be there is the one of the exception that
the callers of the template are handling. -/
theorem C95_traceback_fails (c : Cfg) (hc : c.includeTraceback = true) (cur : Option Exn)
    (ask : Nat → List Msg → Reply α) (hn : Plain ask) (f : Nat) (s s' : St) (r : Except Exn (Msg × α)) (hs : s.Fresh)
    (h : callAssistant c cur ask f s = some (s', r)) :
    ∃ qs : List (List Msg), s'.requests = s.requests ++ qs ∧
      ∀ k q q', qs[k]? = some q → qs[k + 1]? = some q' → ∃ raw fb, q' = q ++ [raw, fb] ∧
        ∃ text, fb.content = text ++ "\n\nTraceback:\n```\n" ++
          (match cur with
           | none => "NoneType: None\n"
           | some x => c.fmt x) ++ "```" := by
  obtain ⟨⟨qs, h1, h2, h3, _⟩, _⟩ := callAssistant_facts c cur ask hn f s s' r hs h
  refine ⟨qs, h1, fun k q q' hq hq' => ?_⟩
  obtain ⟨_, raw, fb, a, _, d⟩ := h3 k q q' hq hq'
  refine ⟨raw, fb, a, ?_⟩
  rw [d]
  simp only [feedbackText, hc, if_true]
  cases cur with
  | none => exact ⟨_, rfl⟩
  | some x => exact ⟨_, rfl⟩

/-! ## Examples -/

/-- The default settings; the texts of tracebacks are the texts of the errors in brackets. -/
def exCfg : Cfg := ⟨fun e => "<" ++ e.str ++ ">", true, fun _ => true, fun n => decide (4 ≤ n)⟩

/-- One message from the user. -/
def exSt : St := ⟨1, [⟨0, .user, none, "Count"⟩], []⟩

/-- The first reply is no number, the second has a call of a tool that does not exist, the third is 7. -/
def exAsk : Nat → List Msg → Reply Nat
  | 1, _ => .bad none "seven" (.other 1 true "not a number")
  | 2, _ => .badCall none "" (.other 2 true "no such tool") 9 "count"
  | _, _ => .good none "7" 7

theorem exAsk_plain : Plain exAsk := by
  intro n q
  unfold exAsk
  split
  · exact ⟨rfl, fun e h => nomatch h⟩
  · exact ⟨rfl, fun e h => nomatch h⟩
  · exact ⟨rfl, fun e h => nomatch h⟩

theorem exSt_fresh : exSt.Fresh := by
  intro m hm
  simp only [exSt, List.mem_singleton] at hm
  subst hm; decide

/-- The run of the example. -/
def exRun : Option (List (List Msg) × List Msg × Option (Msg × Nat)) :=
  (callAssistant exCfg none exAsk 4 exSt).map
    (fun x => (x.1.requests, x.1.hist, match x.2 with | .ok y => some y | .error _ => none))

example : Plain exAsk ∧ exSt.Fresh ∧ exRun = some
    ([[⟨0, .user, none, "Count"⟩],
      [⟨0, .user, none, "Count"⟩, ⟨1, .assistant, none, "seven"⟩,
       ⟨2, .user, none, "Error decoding response: not a number. Please provide a valid response and try again.\n\nTraceback:\n```\nNoneType: None\n```"⟩],
      [⟨0, .user, none, "Count"⟩, ⟨1, .assistant, none, "seven"⟩,
       ⟨2, .user, none, "Error decoding response: not a number. Please provide a valid response and try again.\n\nTraceback:\n```\nNoneType: None\n```"⟩,
       ⟨3, .assistant, none, ""⟩,
       ⟨4, .tool, some 9, "Error decoding tool call 'count': no such tool. Please provide a valid response and try again.\n\nTraceback:\n```\nNoneType: None\n```"⟩]],
     [⟨0, .user, none, "Count"⟩, ⟨5, .assistant, none, "7"⟩], some (⟨5, .assistant, none, "7"⟩, 7)) :=
  ⟨exAsk_plain, exSt_fresh, by decide +kernel⟩

/-- With all replies rejected there are four requests and the last error is raised. -/
example : (callAssistant exCfg none (fun _ _ => (.bad none "x" (.other 1 true "y") : Reply Nat)) 4 exSt).map
    (fun x => (x.1.requests.length, x.1.hist, match x.2 with | .ok _ => none | .error e => some e)) =
    some (4, exSt.hist, some (.resultError (.other 1 true "y") ⟨7, .assistant, none, "x"⟩)) := by decide

example : (Exn.other 3 true "no").isException = true ∧ exCfg.catches (.other 3 true "no") = true ∧
    (callToolRetry exCfg 9 "count" (.raises (.other 3 true "no")) exSt).1.hist =
      [⟨0, .user, none, "Count"⟩, ⟨1, .tool, some 9, "Tool execution failed: Error executing tool 'count': no\n\nTraceback:\n```\n<Tool execution failed: Error executing tool 'count': no>```"⟩] :=
  ⟨rfl, rfl, by decide +kernel⟩

/-- The ids of replies: a reply that has the id of a message of the history takes its place, so that the last message
is still the one of the user. -/
theorem C95_own_id_fails : ∃ (ask : Nat → List Msg → Reply Nat) (s s' : St) (m : Msg), s.Fresh ∧
    callAssistant exCfg none ask 4 s = some (s', .ok (m, 7)) ∧ s'.hist.length = s.hist.length ∧
    s'.hist.getLast? = s.hist.getLast? ∧ m ∈ s'.hist := by
  refine ⟨fun _ _ => .good (some 0) "7" 7, ⟨2, [⟨0, .user, none, "Count"⟩, ⟨1, .user, none, "Go on"⟩], []⟩, _, _, ?_, rfl,
    by decide, by decide, by decide⟩
  intro m hm
  simp only [List.mem_cons, List.not_mem_nil, or_false] at hm
  rcases hm with rfl | rfl <;> decide

end Verif.Llm.Feedback
