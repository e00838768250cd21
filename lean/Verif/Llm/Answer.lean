import Verif.Llm.Conversation

/-!
# C93: what a reply of the model means

Model of the second half of `call_assistant` (`handlers/llm/completions.py` 410-460): how the tool calls and the text of a reply become
tool calls and a result, and of `_BoxedResponse` (362-363, 397-401). `Conversation.lean` has the rest of the conversation; there the
content of a reply is a parameter, which `content` here computes.

* A reply has a text, a reasoning text and raw tool calls; each may be missing. `message.get("tool_calls") or []` (427) is the list.
* `decode` is the decoding of one tool call (C63), `loads` is `json.loads`; both may fail. A JSON object has each key once.
* The response type is `str` itself (`response_type is str`), or another one with the decoder of its `Encodable`. `Annotated[str, …]`
  and subclasses of `str` are of the second kind.
* Pydantic ignores fields that a model does not have (its default, not changed by `_BoxedResponse`).
-/

namespace Verif.Llm.Answer

/-- JSON values. -/
inductive Json where
  | null
  | bool (b : Bool)
  | num (n : Int)
  | str (s : String)
  | arr (l : List Json)
  | obj (l : List (String × Json))

/-- A reply: `content`, `reasoning_content`, `tool_calls`. -/
structure Reply (R : Type) where
  text : Option String
  reasoning : Option String
  calls : List R

/-- The response type: `str`, or a type with its decoder. -/
inductive Ty (V : Type) where
  | str (inj : String → V)
  | other (decode : Json → Option V)

/-- What `call_assistant` does with a reply: it returns tool calls and no result, or a result; it raises `ToolCallDecodingError` for a
raw call, `ResultDecodingError`, or `AssertionError`. -/
inductive Outcome (R C V : Type) where
  | calls (l : List C)
  | value (v : V)
  | badCall (r : R)
  | badResult
  | assertion

variable {R C V : Type}

/-- The loop over the tool calls (427-437). -/
def decodeCalls (decode : R → Option C) : List R → List C → Except R (List C)
  | [], acc => .ok acc
  | r :: l, acc =>
    match decode r with
    | some c => decodeCalls decode l (acc ++ [c])
    | none => .error r

/-- `message.get("content") or message.get("reasoning_content")` (442). -/
def serialized (r : Reply R) : Option String :=
  match r.text with
  | some s => if s = "" then r.reasoning else some s
  | none => r.reasoning

/-- `response_format.model_validate(…).value` (453-456). -/
def unbox (decode : Json → Option V) : Json → Option V
  | .obj l =>
    match l.lookup "value" with
    | some j => decode j
    | none => none
  | _ => none

/-- Lines 419-460. -/
def answer (decode : R → Option C) (loads : String → Option Json) (ty : Ty V) (r : Reply R) : Outcome R C V :=
  match decodeCalls decode r.calls [] with
  | .error x => .badCall x
  | .ok (c :: cs) => .calls (c :: cs)
  | .ok [] =>
    match serialized r with
    | none => .assertion
    | some s =>
      match ty with
      | .str inj => .value (inj s)
      | .other dec =>
        match loads s with
        | none => .badResult
        | some j =>
          match unbox dec j with
          | some v => .value v
          | none => .badResult

/-! ## Tool calls -/

theorem decodeCalls_ok (decode : R → Option C) (l : List R) (acc cs : List C) :
    decodeCalls decode l acc = .ok cs ↔ ∃ ds, cs = acc ++ ds ∧ l.map decode = ds.map some := by
  induction l generalizing acc with
  | nil =>
    constructor
    · intro h
      cases h
      exact ⟨[], by simp, rfl⟩
    · rintro ⟨ds, rfl, h⟩
      cases ds with
      | nil => simp [decodeCalls]
      | cons d ds => simp at h
  | cons r l ih =>
    simp only [decodeCalls]
    cases hr : decode r with
    | none =>
      refine ⟨fun h => (nomatch h), ?_⟩
      rintro ⟨ds, _, h⟩
      cases ds with
      | nil => simp at h
      | cons d ds => simp [hr] at h
    | some c =>
      simp only
      rw [ih (acc ++ [c])]
      constructor
      · rintro ⟨ds, rfl, h⟩
        exact ⟨c :: ds, by simp, by simp [hr, h]⟩
      · rintro ⟨ds, rfl, h⟩
        cases ds with
        | nil => simp at h
        | cons d ds =>
          simp only [List.map_cons, List.cons.injEq, hr, Option.some.injEq] at h
          exact ⟨ds, by simp [h.1], h.2⟩

theorem decodeCalls_error (decode : R → Option C) (l : List R) (acc : List C) (x : R) :
    decodeCalls decode l acc = .error x ↔ ∃ pre post, l = pre ++ x :: post ∧ (∀ r ∈ pre, decode r ≠ none) ∧ decode x = none := by
  induction l generalizing acc with
  | nil =>
    refine ⟨fun h => (nomatch h), ?_⟩
    rintro ⟨pre, post, h, _⟩
    simp at h
  | cons r l ih =>
    simp only [decodeCalls]
    cases hr : decode r with
    | none =>
      constructor
      · intro h
        cases h
        exact ⟨[], l, rfl, by simp, hr⟩
      · rintro ⟨pre, post, h, hp, _⟩
        cases pre with
        | nil => cases h; rfl
        | cons p pre =>
          cases h
          exact absurd hr (hp r (by simp))
    | some c =>
      simp only
      rw [ih]
      constructor
      · rintro ⟨pre, post, rfl, hp, hx⟩
        exact ⟨r :: pre, post, rfl, by simpa [hr] using hp, hx⟩
      · rintro ⟨pre, post, h, hp, hx⟩
        cases pre with
        | nil =>
          cases h
          rw [hx] at hr
          cases hr
        | cons p pre =>
          cases h
          exact ⟨pre, post, rfl, fun q hq => hp q (by simp [hq]), hx⟩

/-- **C93.** Tool calls are returned if and only if there are any and all can be decoded: those of the reply, in its order. The text is
ignored. -/
theorem C93_calls (decode : R → Option C) (loads : String → Option Json) (ty : Ty V) (r : Reply R) (cs : List C) :
    answer decode loads ty r = .calls cs ↔ r.calls ≠ [] ∧ r.calls.map decode = cs.map some := by
  unfold answer
  split
  · rename_i x hx
    rw [decodeCalls_error] at hx
    obtain ⟨pre, post, h, _, hx⟩ := hx
    refine ⟨fun h => (nomatch h), fun ⟨_, hc⟩ => ?_⟩
    have : none ∈ cs.map some := by
      rw [← hc, h]
      simp [hx]
    simp at this
  · rename_i c ds hd
    rw [decodeCalls_ok] at hd
    obtain ⟨es, rfl, h⟩ := hd
    constructor
    · intro he
      cases he
      refine ⟨fun h0 => ?_, h⟩
      rw [h0] at h
      simp at h
    · rintro ⟨_, hc⟩
      rw [h] at hc
      have : c :: ds = cs := (List.map_inj_right (fun _ _ => Option.some.inj)).1 hc
      rw [this]
  · rename_i hd
    rw [decodeCalls_ok] at hd
    obtain ⟨es, h0, h⟩ := hd
    have he : es = [] := by simpa using h0.symm
    subst he
    have hr : r.calls = [] := by simpa using h
    constructor
    · intro he
      exfalso
      revert he
      split <;> try (intro he; cases he)
      split <;> try (intro he; cases he)
      split <;> try (intro he; cases he)
      split <;> (intro he; cases he)
    · rintro ⟨hn, _⟩
      exact absurd hr hn

/-- **C93.** `ToolCallDecodingError` is raised if and only if some tool call cannot be decoded, for the first such. -/
theorem C93_bad_call (decode : R → Option C) (loads : String → Option Json) (ty : Ty V) (r : Reply R) (x : R) :
    answer decode loads ty r = .badCall x ↔
      ∃ pre post, r.calls = pre ++ x :: post ∧ (∀ y ∈ pre, decode y ≠ none) ∧ decode x = none := by
  rw [← decodeCalls_error decode r.calls []]
  unfold answer
  split
  · rename_i y hy
    constructor
    · intro h; cases h; exact hy
    · intro h; rw [hy] at h; cases h; rfl
  · rename_i hd
    exact ⟨fun h => (nomatch h), fun h => by rw [hd] at h; cases h⟩
  · rename_i hd
    refine ⟨fun he => ?_, fun h => by rw [hd] at h; cases h⟩
    exfalso
    revert he
    split <;> try (intro he; cases he)
    split <;> try (intro he; cases he)
    split <;> try (intro he; cases he)
    split <;> (intro he; cases he)

/-! ## Results -/

theorem answer_none (decode : R → Option C) (loads : String → Option Json) (ty : Ty V) {r : Reply R} (hr : r.calls = []) :
    answer decode loads ty r =
      match serialized r with
      | none => .assertion
      | some s =>
        match ty with
        | .str inj => .value (inj s)
        | .other dec =>
          match loads s with
          | none => .badResult
          | some j =>
            match unbox dec j with
            | some v => .value v
            | none => .badResult := by
  unfold answer
  rw [hr]
  rfl

/-- **C93.** A reply of a text that is not empty, with response type `str`: the text is the result, whatever it is. -/
theorem C93_text (decode : R → Option C) (loads : String → Option Json) (inj : String → V) (s : String) (hs : s ≠ "")
    (reasoning : Option String) : answer decode loads (.str inj) ⟨some s, reasoning, []⟩ = .value (inj s) := by
  rw [answer_none _ _ _ rfl]
  simp [serialized, hs]

/-- **C93.** With another response type: the text is JSON of an object with a field `value`, and the result is the decoded field. -/
theorem C93_typed (decode : R → Option C) (loads : String → Option Json) (dec : Json → Option V) (s : String) (hs : s ≠ "")
    (reasoning : Option String) (v : V) : answer decode loads (.other dec) ⟨some s, reasoning, []⟩ = .value v ↔
      ∃ l j, loads s = some (.obj l) ∧ l.lookup "value" = some j ∧ dec j = some v := by
  rw [answer_none _ _ _ rfl]
  simp only [serialized, hs, if_false]
  cases h : loads s with
  | none => simp
  | some j =>
    simp only
    cases j with
    | obj l =>
      simp only [unbox]
      cases hl : l.lookup "value" with
      | none => simp [hl]
      | some j =>
        cases hd : dec j with
        | none => simp [hl, hd]
        | some w => simp [hl, hd]
    | _ => simp [unbox]

/-- **C93.** Otherwise `ResultDecodingError`: such a reply is never taken for something else, and is retried. -/
theorem C93_bad_result (decode : R → Option C) (loads : String → Option Json) (dec : Json → Option V) (s : String) (hs : s ≠ "")
    (reasoning : Option String) (h : ¬ ∃ l j v, loads s = some (.obj l) ∧ l.lookup "value" = some j ∧ dec j = some v) :
    answer decode loads (.other dec) ⟨some s, reasoning, []⟩ = .badResult := by
  have ht := fun v => C93_typed decode loads dec s hs reasoning v
  cases ha : answer decode loads (.other dec) ⟨some s, reasoning, []⟩ with
  | badResult => rfl
  | value v =>
    obtain ⟨l, j, h1, h2, h3⟩ := (ht v).1 ha
    exact absurd ⟨l, j, v, h1, h2, h3⟩ h
  | calls cs => exact absurd rfl ((C93_calls decode loads _ _ cs).1 ha).1
  | badCall x =>
    obtain ⟨pre, post, h0, _⟩ := (C93_bad_call decode loads _ _ x).1 ha
    simp at h0
  | assertion =>
    rw [answer_none _ _ _ rfl] at ha
    simp only [serialized, hs, if_false] at ha
    revert ha
    split <;> try (intro ha; cases ha)
    split <;> (intro ha; cases ha)

/-- **C93.** What is encoded and boxed is decoded again, with any other fields. -/
theorem C93_round_trip (decode : R → Option C) (loads : String → Option Json) (dumps : Json → String)
    (hl : ∀ j, loads (dumps j) = some j) (hn : ∀ j, dumps j ≠ "") (enc : V → Json) (dec : Json → Option V)
    (hd : ∀ v, dec (enc v) = some v) (v : V) (before after : List (String × Json)) (hb : ∀ p ∈ before, p.1 ≠ "value")
    (reasoning : Option String) :
    answer decode loads (.other dec) ⟨some (dumps (.obj (before ++ ("value", enc v) :: after))), reasoning, []⟩ = .value v := by
  refine (C93_typed decode loads dec _ (hn _) reasoning v).2 ⟨_, enc v, hl _, ?_, hd v⟩
  induction before with
  | nil => simp
  | cons p l ih =>
    have hp : ("value" == p.1) = false := by simpa using Ne.symm (hb p (by simp))
    obtain ⟨k, j⟩ := p
    simp only at hp
    simp [List.lookup, hp, ih (fun q hq => hb q (by simp [hq]))]

/-- **C93.** `AssertionError` is raised if and only if there are no tool calls, the text is missing or empty, and there is no reasoning
text. -/
theorem C93_assertion (decode : R → Option C) (loads : String → Option Json) (ty : Ty V) (r : Reply R) :
    answer decode loads ty r = .assertion ↔ r.calls = [] ∧ (r.text = none ∨ r.text = some "") ∧ r.reasoning = none := by
  constructor
  · intro h
    have hc : r.calls = [] := by
      apply Classical.byContradiction
      intro hc
      unfold answer at h
      split at h
      · cases h
      · cases h
      · rename_i hd
        rw [decodeCalls_ok] at hd
        obtain ⟨es, h0, h1⟩ := hd
        have he : es = [] := by simpa using h0.symm
        subst he
        exact hc (by simpa using h1)
    rw [answer_none _ _ _ hc] at h
    refine ⟨hc, ?_⟩
    split at h
    · rename_i hs
      unfold serialized at hs
      split at hs
      · rename_i s ht
        split at hs
        · rename_i h0
          exact ⟨Or.inr (by rw [ht, h0]), hs⟩
        · cases hs
      · rename_i ht
        exact ⟨Or.inl ht, hs⟩
    · exfalso
      revert h
      split <;> try (intro h; cases h)
      split <;> try (intro h; cases h)
      split <;> (intro h; cases h)
  · rintro ⟨hc, ht, hr⟩
    rw [answer_none _ _ _ hc]
    rcases ht with ht | ht <;> simp [serialized, ht, hr]

/-! ## In a conversation -/

/-- The content of a reply in `Conversation.lean`; `e` stands for `AssertionError`. -/
def content (loads : String → Option Json) (ty : Ty Nat) (e : Err) (r : Reply R) : Content :=
  match answer (R := R) (C := R) (V := Nat) (fun _ => none) loads ty ⟨r.text, r.reasoning, []⟩ with
  | .value v => .value v
  | .assertion => .fail e
  | _ => .bad

variable {W : Type}

/-- A reply without tool calls that was given for some history, with that value, and the message made of it. -/
def Said (T : Tmpl W) (m : Msg) (v : Nat) : Prop :=
  ∃ w h w' rep, T.model w h = (w', .ok rep) ∧ rep.calls = [] ∧ rep.content = .value v ∧ m.role = .assistant ∧ m.calls = [] ∧
    m.body = rep.body

theorem once_said (T : Tmpl W) (s s' : St W) (h h' : History) (m : Msg) (v : Nat)
    (hc : once T s h = (s', h', .ok (m, [], v))) : Said T m v := by
  unfold once at hc
  simp only at hc
  split at hc
  · cases hc
  · rename_i rep hrep
    split at hc
    · cases hc
    · cases hc
    · rename_i hd
      have hcalls : rep.calls = [] := by
        cases hl : rep.calls with
        | nil => rfl
        | cons p l =>
          rw [hl] at hd
          obtain ⟨c, o⟩ := p
          cases o with
          | none => cases hd
          | some p =>
            simp only [Llm.decodeCalls] at hd
            split at hd <;> cases hd
      split at hc
      · rename_i v' hv
        cases hc
        exact ⟨s.world, h, (T.model s.world h).1, rep, by rw [← hrep], hcalls, hv, rfl, by simp [hcalls], rfl⟩
      · cases hc
      · cases hc

theorem retry_said (T : Tmpl W) : ∀ (n : Nat) (s s' : St W) (h : History) (m : Msg) (v : Nat),
    retryLoop T n s h = (s', .ok (m, [], v)) → Said T m v := by
  intro n
  induction n with
  | zero =>
    intro s s' h m v hr
    unfold retryLoop at hr
    split at hr
    · cases hr
    · cases hr
    · rename_i s1 h1 r _ _ ho
      cases hr
      exact once_said T s s' h h1 m v ho
  | succ n ih =>
    intro s s' h m v hr
    unfold retryLoop at hr
    split at hr
    · exact ih _ _ _ _ _ hr
    · exact ih _ _ _ _ _ hr
    · rename_i s1 h1 r _ _ ho
      cases hr
      exact once_said T s s' h h1 m v ho

/-- **C93.** The result of a template is the value of the last reply of the model, one without tool calls; its message is the last one of
the conversation of that round. -/
theorem C93_result (cfg : Cfg W) : ∀ (f : Nat) (T : Tmpl W) (s s' : St W) (h h' : History) (v : Nat),
    rounds cfg f T s h = some (s', h', .ok v) → ∃ m h₀, Said T m v ∧ h' = append h₀ m := by
  intro f
  induction f with
  | zero => intro T s s' h h' v hr; simp [rounds] at hr
  | succ f ih =>
    intro T s s' h h' v hr
    unfold rounds at hr
    split at hr
    · cases hr
    · rename_i s1 h1 m v1 ha
      cases hr
      unfold assistant at ha
      split at ha
      · refine ⟨m, h, once_said T s s' h h' m v ha, ?_⟩
        unfold once at ha
        simp only at ha
        split at ha
        · cases ha
        · split at ha
          · cases ha
          · cases ha
          · split at ha
            · cases ha; rfl
            · cases ha
            · cases ha
      · split at ha
        · rename_i hl
          cases ha
          exact ⟨m, h, retry_said T _ _ _ _ _ _ hl, rfl⟩
        · cases ha
    · split at hr
      · cases hr
      · cases hr
      · exact ih T _ _ _ _ _ hr

/-- **C93.** If the replies that the template gets are made of raw ones, its result is that of the last of them: of its text, for the
response type. -/
theorem C93_decoded (cfg : Cfg W) (f : Nat) (T : Tmpl W) (s s' : St W) (h h' : History) (v : Nat)
    (decode : R → Option C) (loads : String → Option Json) (ty : Ty Nat) (e : Err)
    (hT : ∀ w h w' rep, T.model w h = (w', .ok rep) →
      ∃ r : Reply R, rep.content = content loads ty e r ∧ (rep.calls = [] → r.calls = []))
    (hr : rounds cfg f T s h = some (s', h', .ok v)) :
    ∃ w h₀ w' rep, ∃ r : Reply R, T.model w h₀ = (w', .ok rep) ∧ rep.content = content loads ty e r ∧
      answer decode loads ty r = .value v := by
  obtain ⟨m, h₁, ⟨w, h₀, w', rep, h1, h2, h3, _⟩, _⟩ := C93_result cfg f T s s' h h' v hr
  obtain ⟨r, hc, hn⟩ := hT w h₀ w' rep h1
  refine ⟨w, h₀, w', rep, r, h1, hc, ?_⟩
  rw [h3] at hc
  rw [answer_none decode loads ty (hn h2)]
  unfold content at hc
  rw [answer_none _ _ _ rfl] at hc
  have hs : serialized (R := R) ⟨r.text, r.reasoning, []⟩ = serialized r := rfl
  rw [hs] at hc
  revert hc
  cases serialized r with
  | none => intro hc; cases hc
  | some t =>
    cases ty with
    | str inj => intro hc; cases hc; rfl
    | other dec =>
      simp only
      cases loads t with
      | none => intro hc; cases hc
      | some j =>
        simp only
        cases unbox dec j with
        | none => intro hc; cases hc
        | some u => intro hc; cases hc; rfl

/-! ## What fails -/

/-- **C93, fails.** An empty answer is no answer, for response type `str`: `AssertionError`, which is not retried. -/
theorem C93_empty_fails (decode : R → Option C) (loads : String → Option Json) (inj : String → V) :
    answer decode loads (.str inj) ⟨some "", none, []⟩ = .assertion := by
  rw [answer_none _ _ _ rfl]
  rfl

/-- **C93, fails.** With the retry handler as well: one request, and the exception is raised. -/
theorem C93_empty_retry_fails (cfg : Cfg W) (rt : Retry) (hr : cfg.retry = some rt) (T : Tmpl W) (s : St W) (h : History) (w : W)
    (b : Nat) (loads : String → Option Json) (inj : String → Nat) (e : Err)
    (hm : T.model s.world h = (w, .ok ⟨b, [], content (R := R) loads (.str inj) e ⟨some "", none, []⟩⟩)) :
    ∃ s', assistant cfg T s h = (s', h, .error (.plain e)) ∧ s'.sent = s.sent ++ [(T.agent, h)] := by
  have hc : content (R := R) loads (.str inj) e ⟨some "", none, []⟩ = .fail e := by
    unfold content
    rw [C93_empty_fails]
  rw [hc] at hm
  have ho : once T s h = ({ s with world := w, sent := s.sent ++ [(T.agent, h)], next := s.next + 1 },
      append h ⟨s.next, .assistant, [], none, b, T.agent⟩, .error (.plain e)) := by
    unfold once
    rw [hm]
    rfl
  refine ⟨{ s with world := w, sent := s.sent ++ [(T.agent, h)], next := s.next + 1 }, ?_, rfl⟩
  unfold assistant
  rw [hr]
  simp only
  unfold retryLoop
  rw [ho]

/-- **C93, fails.** If the answer is empty, the reasoning of the model is taken for the answer. -/
theorem C93_reasoning_fails (decode : R → Option C) (loads : String → Option Json) (inj : String → V) (s : String) :
    answer decode loads (.str inj) ⟨some "", some s, []⟩ = .value (inj s) := by
  rw [answer_none _ _ _ rfl]
  rfl

/-- **C93, fails.** The value itself is no answer, if it is not in a box; also for types of strings other than `str`. -/
theorem C93_unboxed_fails (decode : R → Option C) (loads : String → Option Json) (dec : Json → Option V) (s t : String) (hs : s ≠ "")
    (hl : loads s = some (.str t)) : answer decode loads (.other dec) ⟨some s, none, []⟩ = .badResult := by
  refine C93_bad_result decode loads dec s hs none ?_
  rintro ⟨l, j, v, h, _⟩
  rw [hl] at h
  cases h

/-! ## Examples -/

/-- A decoder of numbers. -/
def decNum : Json → Option Int
  | .num n => some n
  | _ => none

/-- Two texts. -/
def loads : String → Option Json
  | "{\"value\": 3}" => some (.obj [("value", .num 3)])
  | "{\"why\": null, \"value\": 3}" => some (.obj [("why", .null), ("value", .num 3)])
  | "3" => some (.num 3)
  | _ => none

/-- A number in a box. -/
example : answer (R := Nat) (C := Nat) (fun _ => none) loads (.other decNum) ⟨some "{\"value\": 3}", none, []⟩ = .value 3 := by
  refine (C93_typed _ _ _ _ (by decide) _ _).2 ⟨[("value", .num 3)], .num 3, rfl, by simp, rfl⟩

/-- With another field. -/
example : answer (R := Nat) (C := Nat) (fun _ => none) loads (.other decNum) ⟨some "{\"why\": null, \"value\": 3}", none, []⟩ =
    .value 3 := by
  refine (C93_typed _ _ _ _ (by decide) _ _).2 ⟨[("why", .null), ("value", .num 3)], .num 3, rfl, by simp [List.lookup], rfl⟩

/-- Two calls and a text. -/
example : answer (R := Nat) (C := Nat) some loads (.other decNum) ⟨some "{\"value\": 3}", none, [5, 6]⟩ = .calls [5, 6] := rfl

/-- The second call cannot be decoded. -/
example : answer (R := Nat) (C := Nat) (fun n => if n = 6 then none else some n) loads (.other decNum) ⟨none, none, [5, 6, 7]⟩ =
    .badCall 6 := rfl

/-- The content of replies. -/
example : content (R := Nat) loads (.other fun j => (decNum j).map Int.toNat) (.exc 0) ⟨none, some "{\"value\": 3}", []⟩ = .value 3 := by
  simp [content, answer, Answer.decodeCalls, serialized, loads, unbox, decNum]

/-- A template whose model says 3. -/
def three : Tmpl Unit where
  agent := none
  system := 0
  user := fun _ w => (w, .ok 0)
  model := fun w _ => (w, .ok ⟨0, [], content (R := Nat) loads (.other fun j => (decNum j).map Int.toNat) (.exc 0)
    ⟨some "{\"value\": 3}", none, []⟩⟩)

/-- It meets the condition of `C93_decoded` and gives 3. -/
example : (∀ w h w' rep, three.model w h = (w', .ok rep) → ∃ r : Reply Nat,
    rep.content = content loads (.other fun j => (decNum j).map Int.toNat) (.exc 0) r ∧ (rep.calls = [] → r.calls = [])) ∧
    (rounds ⟨fun _ => three, none⟩ 1 three ⟨(), fun _ => [], 0, []⟩ []).map (fun r => r.2.2) = some (.ok 3) := by
  refine ⟨fun w h w' rep hm => ?_, ?_⟩
  · cases hm
    exact ⟨⟨some "{\"value\": 3}", none, []⟩, rfl, fun _ => rfl⟩
  · simp [rounds, assistant, once, three, Llm.decodeCalls, content, answer, Answer.decodeCalls, serialized, loads, unbox, decNum]

end Verif.Llm.Answer
