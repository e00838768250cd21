/-!
# Conversations with a language model

Model of `handlers/llm/completions.py`: `append_message` 86-92, `_make_message` 95-98, the decoding errors 101-178,
`call_assistant` 366-460, `call_tool` 463-488, `call_user` 491-541, `call_system` 544-550, `RetryLLMHandler` 553-644 and
`LiteLLMProvider._call` 658-702; and of `handlers/llm/template.py`: `Agent` 327-378 and the history of bound templates
in `Template.__get__` 233-253.

* The model, the encoding of arguments and results and the decoding of replies are arbitrary functions of a world
  `W`, which they may change; they may fail at any point.
* Tools are programs that read and write the world, raise and call templates. A user program outside all
  templates is a program of the same kind.
* `_get_history` is handled by the innermost running template; code outside sees `_NoActiveHistoryException`.
  `run… active` is `true` inside of a template.
* New ids are numbers counted up (`uuid.uuid1()`); replies have no id of their own.
* `while` loops and nested calls use fuel: `none` stands for a run that has not ended.
-/

namespace Verif.Llm

/-- An `Agent` instance. -/
abbrev Agent := Nat

inductive Role where
  | system
  | user
  | assistant
  | tool
deriving DecidableEq

/-- A message. `calls`: the ids of the tool calls of an assistant message; `callId`: the `tool_call_id` of a tool
message. `owner` is not part of the program: the agent whose template made the message, if any. -/
structure Msg where
  id : Nat
  role : Role
  calls : List Nat
  callId : Option Nat
  body : Nat
  owner : Option Agent
deriving DecidableEq

/-- `OrderedDict[str, Message]`, the values in order; the key of a message is its id. -/
abbrev History := List Msg

/-- `history[message["id"]] = message`: in place if the key is there. -/
def History.set (h : History) (m : Msg) : History :=
  if h.any (·.id == m.id) then h.map (fun x => if x.id == m.id then m else x) else h ++ [m]

/-- `history.move_to_end(id, last=False)`. -/
def History.moveFirst (h : History) (i : Nat) : History :=
  h.filter (·.id == i) ++ h.filter (·.id != i)

/-- `append_message(message, last)` (86-92) with an active history. -/
def append (h : History) (m : Msg) (last : Bool := true) : History :=
  if last then h.set m else (h.set m).moveFirst m.id

/-- Exceptions that are not the ones of this module. `base`: not a subclass of `Exception`, such as
KeyboardInterrupt. -/
inductive Err where
  | exc (n : Nat)
  | base (n : Nat)

/-- Exceptions: `ToolCallDecodingError`, `ResultDecodingError`, `ToolCallExecutionError` and others. -/
inductive Exc where
  | decodeCall (m : Msg) (call : Nat)
  | decodeResult (m : Msg)
  | toolExec (call : Nat) (e : Exc)
  | plain (e : Err)

/-- `isinstance(e, Exception)`. -/
def Exc.isException : Exc → Bool
  | .plain (.base _) => false
  | _ => true

/-- A program: a tool, or user code. `ret enc` returns a value that is encoded as `enc` (or whose encoding raises). -/
inductive Prog (W : Type) where
  | ret (enc : Except Exc Nat)
  | raise (e : Exc)
  | get (k : W → Prog W)
  | put (w : W) (k : Prog W)
  | call (t : Nat) (arg : Nat) (k : Except Exc Nat → Prog W)

/-- The content of a reply without tool calls: a value of the response type, a string that is not, or something
that fails otherwise (no string). -/
inductive Content where
  | value (v : Nat)
  | bad
  | fail (e : Err)

/-- A reply: tool calls with their ids and the decoded calls (`none`: decoding raises), and the content. -/
structure Reply (W : Type) where
  body : Nat
  calls : List (Nat × Option (Prog W))
  content : Content

/-- A template: its agent if it is a method of one, its system prompt, the encoding of the prompt for an argument,
and the request to the model (collecting tools, encoding them, and `completion`). -/
structure Tmpl (W : Type) where
  agent : Option Agent
  system : Nat
  user : Nat → W → W × Except Exc Nat
  model : W → History → W × Except Err (Reply W)

/-- `RetryLLMHandler(stop=stop_after_attempt(attempts), catch_tool_errors=…)`. -/
structure Retry where
  attempts : Nat
  catches : Exc → Bool

/-- The templates of the program and the installed handlers: `LiteLLMProvider`, and `RetryLLMHandler` if given. -/
structure Cfg (W : Type) where
  tmpl : Nat → Tmpl W
  retry : Option Retry

/-- The state: the world, the histories of the agents and the next id. `sent` is a record of the histories for
which the model was asked, with the agent of the template. -/
structure St (W : Type) where
  world : W
  hist : Agent → History
  next : Nat
  sent : List (Option Agent × History)

variable {W : Type}

/-- Decoding the tool calls of a reply in order (427-437): the decoded calls, or the first call that cannot be
decoded. -/
def decodeCalls : List (Nat × Option (Prog W)) → Except Nat (List (Nat × Prog W))
  | [] => .ok []
  | (c, none) :: _ => .error c
  | (c, some p) :: r =>
    match decodeCalls r with
    | .ok ps => .ok ((c, p) :: ps)
    | .error c => .error c

/-- The result of `call_assistant`: message, tool calls, result. -/
abbrev AResult (W : Type) := Msg × List (Nat × Prog W) × Nat

/-- The default rule of `call_assistant` (366-460). -/
def once (T : Tmpl W) (s : St W) (h : History) : St W × History × Except Exc (AResult W) :=
  let r := T.model s.world h
  let s := { s with world := r.1, sent := s.sent ++ [(T.agent, h)] }
  match r.2 with
  | .error e => (s, h, .error (.plain e))
  | .ok rep =>
    let m : Msg := ⟨s.next, .assistant, rep.calls.map Prod.fst, none, rep.body, T.agent⟩
    let s := { s with next := s.next + 1 }
    let h := append h m
    match decodeCalls rep.calls with
    | .error c => (s, h, .error (.decodeCall m c))
    | .ok (c :: cs) => (s, h, .ok (m, c :: cs, 0))
    | .ok [] =>
      match rep.content with
      | .value v => (s, h, .ok (m, [], v))
      | .bad => (s, h, .error (.decodeResult m))
      | .fail e => (s, h, .error (.plain e))

/-- The retryer of `RetryLLMHandler` (590-602, 622-623) on the copied history, with `n` further attempts; `_before_sleep`
(604-610) appends the failed message and the feedback. -/
def retryLoop (T : Tmpl W) : Nat → St W → History → St W × Except Exc (AResult W)
  | n, s, h =>
    match once T s h with
    | (s, h, .error (.decodeCall m c)) =>
      match n with
      | 0 => (s, .error (.decodeCall m c))
      | n + 1 => retryLoop T n { s with next := s.next + 1 }
          (append (append h m) ⟨s.next, .tool, [], some c, 0, T.agent⟩)
    | (s, h, .error (.decodeResult m)) =>
      match n with
      | 0 => (s, .error (.decodeResult m))
      | n + 1 => retryLoop T n { s with next := s.next + 1 }
          (append (append h m) ⟨s.next, .user, [], none, 0, T.agent⟩)
    | (s, _, r) => (s, r)

/-- `call_assistant` under the installed handlers (`RetryLLMHandler._call_assistant` 612-626). -/
def assistant (cfg : Cfg W) (T : Tmpl W) (s : St W) (h : History) : St W × History × Except Exc (AResult W) :=
  match cfg.retry with
  | none => once T s h
  | some r =>
    match retryLoop T (r.attempts - 1) s h with
    | (s, .ok (m, cs, v)) => (s, append h m, .ok (m, cs, v))
    | (s, .error e) => (s, h, .error e)

/-- The history a template starts with (670-673). -/
def startHistory (T : Tmpl W) (s : St W) : History :=
  match T.agent with
  | none => []
  | some a => s.hist a

/-- `not history or next(iter(history.values()))["role"] != "system"` (676-680). -/
def needsSystem : History → Bool
  | [] => true
  | m :: _ => m.role != .system

/-- Writing the history back (697-701). -/
def commit (T : Tmpl W) (active : Bool) (s : St W) (h : History) : St W :=
  match T.agent with
  | none => s
  | some a => if active then s else { s with hist := fun b => if b = a then h else s.hist b }

mutual

/-- Running a program. -/
def runProg (cfg : Cfg W) : Nat → Bool → Prog W → St W → Option (St W × Except Exc (Except Exc Nat))
  | 0, _, _, _ => none
  | _ + 1, _, .ret enc, s => some (s, .ok enc)
  | _ + 1, _, .raise e, s => some (s, .error e)
  | f + 1, active, .get k, s => runProg cfg f active (k s.world) s
  | f + 1, active, .put w k, s => runProg cfg f active k { s with world := w }
  | f + 1, active, .call t a k, s =>
    match callTmpl cfg f active t a s with
    | none => none
    | some (s, r) => runProg cfg f active (k r) s

/-- `LiteLLMProvider._call` (658-702). -/
def callTmpl (cfg : Cfg W) : Nat → Bool → Nat → Nat → St W → Option (St W × Except Exc Nat)
  | 0, _, _, _, _ => none
  | f + 1, active, t, a, s =>
    let T := cfg.tmpl t
    let h := startHistory T s
    let sh := if needsSystem h then
        ({ s with next := s.next + 1 }, append h ⟨s.next, .system, [], none, T.system, T.agent⟩ false)
      else (s, h)
    let u := T.user a sh.1.world
    let s := { sh.1 with world := u.1 }
    match u.2 with
    | .error e => some (s, .error e)
    | .ok b =>
      match rounds cfg f T { s with next := s.next + 1 } (append sh.2 ⟨s.next, .user, [], none, b, T.agent⟩) with
      | none => none
      | some (s, _, .error e) => some (s, .error e)
      | some (s, h, .ok v) => some (commit T active s h, .ok v)

/-- The `while` loop (684-695). -/
def rounds (cfg : Cfg W) : Nat → Tmpl W → St W → History → Option (St W × History × Except Exc Nat)
  | 0, _, _, _ => none
  | f + 1, T, s, h =>
    match assistant cfg T s h with
    | (s, h, .error e) => some (s, h, .error e)
    | (s, h, .ok (_, [], v)) => some (s, h, .ok v)
    | (s, h, .ok (_, c :: cs, _)) =>
      match runCalls cfg f T (c :: cs) s h with
      | none => none
      | some (s, h, .error e) => some (s, h, .error e)
      | some (s, h, .ok ()) => rounds cfg f T s h

/-- The tool calls of a message (694-695): `call_tool` (463-488), under `RetryLLMHandler._call_tool` (628-644) if
installed. -/
def runCalls (cfg : Cfg W) : Nat → Tmpl W → List (Nat × Prog W) → St W → History →
    Option (St W × History × Except Exc Unit)
  | 0, _, _, _, _ => none
  | _ + 1, _, [], s, h => some (s, h, .ok ())
  | f + 1, T, (c, p) :: cs, s, h =>
    match runProg cfg f true p s with
    | none => none
    | some (s, .ok (.ok v)) =>
      runCalls cfg f T cs { s with next := s.next + 1 } (append h ⟨s.next, .tool, [], some c, v, T.agent⟩)
    | some (s, .ok (.error e)) => some (s, h, .error e)
    | some (s, .error e) =>
      if e.isException then
        match cfg.retry with
        | none => some (s, h, .error (.toolExec c e))
        | some r =>
          if r.catches e then
            runCalls cfg f T cs { s with next := s.next + 1 } (append h ⟨s.next, .tool, [], some c, 0, T.agent⟩)
          else some (s, h, .error (.toolExec c e))
      else some (s, h, .error e)

end

end Verif.Llm
