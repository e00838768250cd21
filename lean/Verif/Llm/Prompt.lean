import Verif.Llm.Blocks

/-!
# C47, C55: prompts

Model of `call_user` (`handlers/llm/completions.py` 491-541), `Template._validate_prompt` and the place where it is called
(`handlers/llm/template.py` 175-209, 313-322).

* A format string is given by its parts as `string.Formatter.parse` yields them: literal texts, each followed by a field or
  not.
* Values are numbers; attribute and index access, encoding (to content blocks), conversion and formatting are arbitrary
  functions that may fail.
-/

namespace Verif.Llm

/-- What may go wrong when a prompt is formatted: a name that is not defined (`KeyError`, or `IndexError` for numbered
fields), or something else. -/
inductive PromptErr where
  | undefined
  | other (n : Nat)
deriving DecidableEq

/-- A replacement field: its name (with attribute and index access) and the conversion and format of texts. -/
structure Field where
  name : Text
  fmt : Text → Except PromptErr Text

/-- A literal text and the field after it. -/
structure Seg where
  literal : Text
  field : Option Field

/-- The values for which a prompt is formatted. -/
structure PromptEnv where
  get : Text → Option Nat
  path : Nat → Text → Except PromptErr Nat
  encode : Nat → Except PromptErr (List Block)

/-- `.` and `[`, which end the first part of a field name. -/
def nameEnd (c : Nat) : Bool := c == 46 || c == 91

/-- Whether a text is a number. -/
def isNumber (t : Text) : Bool := !t.isEmpty && t.all (fun c => decide (48 ≤ c) && decide (c ≤ 57))

/-- `formatter.get_field(field_name, (), env)`: the first part is looked up in `env` (numbers in the empty tuple), the rest
is attribute and index access. -/
def getField (E : PromptEnv) (name : Text) : Except PromptErr Nat :=
  let first := name.takeWhile (fun c => !nameEnd c)
  if isNumber first then .error .undefined
  else
    match E.get first with
    | none => .error .undefined
    | some v => E.path v (name.dropWhile (fun c => !nameEnd c))

/-- `buf` and `parts` of `call_user`. -/
structure Prompt where
  buf : List Text
  parts : List Block

/-- `flush_text()` (504-507). -/
def Prompt.flush (s : Prompt) : Prompt :=
  if s.buf.isEmpty then s else ⟨[], s.parts ++ [.text s.buf.flatten]⟩

/-- The loop over the blocks of a value (521-531). -/
def addBlocks (fmt : Text → Except PromptErr Text) : List Block → Prompt → Except PromptErr Prompt
  | [], s => .ok s
  | .text t :: bs, s =>
    match fmt t with
    | .error e => .error e
    | .ok u => addBlocks fmt bs ⟨s.buf ++ [u], s.parts⟩
  | .other v :: bs, s => addBlocks fmt bs ⟨s.flush.buf, s.flush.parts ++ [.other v]⟩

/-- The loop over the format string (509-531). -/
def addSegs (E : PromptEnv) : List Seg → Prompt → Except PromptErr Prompt
  | [], s => .ok s
  | g :: gs, s =>
    let s := if g.literal.isEmpty then s else ⟨s.buf ++ [g.literal], s.parts⟩
    match g.field with
    | none => addSegs E gs s
    | some f =>
      match getField E f.name with
      | .error e => .error e
      | .ok v =>
        match E.encode v with
        | .error e => .error e
        | .ok bs =>
          match addBlocks f.fmt bs s with
          | .error e => .error e
          | .ok s => addSegs E gs s

/-- The content of the message made by `call_user`. -/
def callUser (E : PromptEnv) (gs : List Seg) : Except PromptErr (List Block) :=
  match addSegs E gs ⟨[], []⟩ with
  | .error e => .error e
  | .ok s => .ok s.flush.parts

/-- `re.match(r"^(\w+)", field_name)`, or the whole name (199-200). -/
def rootName (word : Nat → Bool) (name : Text) : Text :=
  if (name.takeWhile word).isEmpty then name else name.takeWhile word

/-- `_validate_prompt`: whether all fields pass (194-202). -/
def validatePrompt (word : Nat → Bool) (allowed : List Text) (gs : List Seg) : Bool :=
  gs.all (fun g =>
    match g.field with
    | none => true
    | some f => allowed.contains (rootName word f.name))

/-- What is given to `Template.define`: a function, a bound method, or a static or class method. -/
inductive DefKind where
  | function
  | bound
  | static
  | class

/-- Whether `Template.define` accepts a prompt: functions are validated (316-322). For a static method `define` calls itself with the
function in it, from `Operation._define_staticmethod` (`ops/types.py` 322-325); `inner` are the parameters and the names in the
context that is captured there. -/
def definePrompt (word : Nat → Bool) (kind : DefKind) (allowed inner : List Text) (gs : List Seg) : Bool :=
  match kind with
  | .function => validatePrompt word allowed gs
  | .static => validatePrompt word inner gs
  | _ => true

/-! ## What is stated -/

/-- The content of blocks as a sequence of characters and objects. -/
def stream (bs : List Block) : List (Nat ⊕ Json) :=
  bs.flatMap (fun b => match b with | .text t => t.map .inl | .other v => [.inr v])

/-- The parts of a value with the texts formatted. -/
inductive Rendered (fmt : Text → Except PromptErr Text) : List Block → List (Nat ⊕ Json) → Prop where
  | nil : Rendered fmt [] []
  | text (t u : Text) (bs : List Block) (r) : fmt t = .ok u → Rendered fmt bs r →
      Rendered fmt (.text t :: bs) (u.map .inl ++ r)
  | other (v : Json) (bs : List Block) (r) : Rendered fmt bs r → Rendered fmt (.other v :: bs) (.inr v :: r)

/-- The prompt: literals and rendered values in the order of the format string. -/
inductive Filled (E : PromptEnv) : List Seg → List (Nat ⊕ Json) → Prop where
  | nil : Filled E [] []
  | literal (t : Text) (gs : List Seg) (r) : Filled E gs r → Filled E (⟨t, none⟩ :: gs) (t.map .inl ++ r)
  | field (t : Text) (f : Field) (gs : List Seg) (v : Nat) (bs : List Block) (x r) : getField E f.name = .ok v →
      E.encode v = .ok bs → Rendered f.fmt bs x → Filled E gs r →
      Filled E (⟨t, some f⟩ :: gs) (t.map .inl ++ x ++ r)

/-- No two texts in a row. -/
def NoAdjacentTexts (bs : List Block) : Prop :=
  ∀ (i : Nat) (t u : Text), bs[i]? = some (.text t) → bs[i + 1]? ≠ some (.text u)

/-- The name a field mentions: the part before the first `.` or `[`. -/
def mentioned (name : Text) : Text := name.takeWhile (fun c => !nameEnd c)

/-- A field name that starts with a word, as documented: `name`, `name.attribute` or `name[index]`. -/
def Simple (word : Nat → Bool) (name : Text) : Prop := mentioned name ≠ [] ∧ ∀ c ∈ mentioned name, word c = true

/-- The field names of a format string. -/
def fields (gs : List Seg) : List Text := gs.filterMap (fun g => g.field.map (·.name))

/-! ## C47 -/

/-- The content so far. -/
def Prompt.stream (s : Prompt) : List (Nat ⊕ Json) := Verif.Llm.stream s.parts ++ s.buf.flatten.map .inl

theorem stream_append (a b : List Block) : stream (a ++ b) = stream a ++ stream b := by simp [stream]

theorem Prompt.stream_flush (s : Prompt) : s.flush.stream = s.stream := by
  unfold Prompt.flush
  split
  · rfl
  · simp [Prompt.stream, Verif.Llm.stream]

theorem Prompt.flush_buf (s : Prompt) : s.flush.buf = [] := by
  unfold Prompt.flush
  split
  · rename_i h; simpa using h
  · rfl

/-- No two texts in a row, and the last part is no text. -/
def Tidy (bs : List Block) : Prop := NoAdjacentTexts bs ∧ ∀ t, bs.getLast? ≠ some (.text t)

theorem tidy_nil : Tidy [] := ⟨by intro i t u h; simp at h, by simp⟩

theorem noAdj_snoc {bs : List Block} (h : NoAdjacentTexts bs) (b : Block)
    (hb : ∀ t u, bs.getLast? = some (.text t) → b ≠ .text u) : NoAdjacentTexts (bs ++ [b]) := by
  intro i t u h1 h2
  by_cases hi : i + 1 < bs.length
  · rw [List.getElem?_append_left (by omega)] at h1 h2
    exact h i t u h1 h2
  · by_cases hi' : i + 1 = bs.length
    · rw [List.getElem?_append_left (by omega)] at h1
      rw [List.getElem?_append_right (by omega)] at h2
      have e : i + 1 - bs.length = 0 := by omega
      rw [e] at h2
      simp only [List.getElem?_cons_zero, Option.some.injEq] at h2
      refine hb t u ?_ h2
      rw [List.getLast?_eq_getElem?]
      have : bs.length - 1 = i := by omega
      rw [this]; exact h1
    · rw [List.getElem?_eq_none (by simp; omega)] at h2
      cases h2

theorem Tidy.push {bs : List Block} (h : Tidy bs) (v : Json) : Tidy (bs ++ [.other v]) := by
  refine ⟨noAdj_snoc h.1 _ (by intro t u _; simp), ?_⟩
  intro t; simp

theorem Tidy.flush {s : Prompt} (h : Tidy s.parts) : NoAdjacentTexts s.flush.parts := by
  unfold Prompt.flush
  split
  · exact h.1
  · exact noAdj_snoc h.1 _ (by intro t u ht; exact absurd ht (h.2 t))

theorem Tidy.flush_push {s : Prompt} (h : Tidy s.parts) (v : Json) : Tidy (s.flush.parts ++ [.other v]) := by
  refine ⟨noAdj_snoc h.flush _ (by intro t u _; simp), ?_⟩
  intro t; simp

theorem addBlocks_spec (fmt : Text → Except PromptErr Text) (bs : List Block) (s s' : Prompt)
    (h : addBlocks fmt bs s = .ok s') :
    (∃ x, Rendered fmt bs x ∧ s'.stream = s.stream ++ x) ∧ (Tidy s.parts → Tidy s'.parts) := by
  induction bs generalizing s with
  | nil => rw [addBlocks] at h; cases h; exact ⟨⟨[], .nil, by simp⟩, fun t => t⟩
  | cons b bs ih =>
    cases b with
    | text t =>
      rw [addBlocks] at h
      cases hf : fmt t with
      | error e => rw [hf] at h; cases h
      | ok u =>
        rw [hf] at h
        obtain ⟨⟨x, h1, h2⟩, h3⟩ := ih _ h
        refine ⟨⟨_, .text t u bs x hf h1, ?_⟩, h3⟩
        rw [h2]; simp [Prompt.stream]
    | other v =>
      rw [addBlocks] at h
      obtain ⟨⟨x, h1, h2⟩, h3⟩ := ih _ h
      refine ⟨⟨_, .other v bs x h1, ?_⟩, fun ht => h3 (ht.flush_push v)⟩
      rw [h2]
      have := s.stream_flush
      unfold Prompt.stream at this ⊢
      simp only
      rw [Prompt.flush_buf] at this ⊢
      rw [stream_append, ← this]
      simp [stream]

theorem addSegs_spec (E : PromptEnv) (gs : List Seg) (s s' : Prompt) (h : addSegs E gs s = .ok s') :
    (∃ x, Filled E gs x ∧ s'.stream = s.stream ++ x) ∧ (Tidy s.parts → Tidy s'.parts) := by
  induction gs generalizing s with
  | nil => rw [addSegs] at h; cases h; exact ⟨⟨[], .nil, by simp⟩, fun t => t⟩
  | cons g gs ih =>
    obtain ⟨t, fd⟩ := g
    rw [addSegs] at h
    simp only at h
    have hl : ∃ s₁, (if t.isEmpty then s else (⟨s.buf ++ [t], s.parts⟩ : Prompt)) = s₁ ∧
        s₁.stream = s.stream ++ t.map .inl ∧ s₁.parts = s.parts := by
      cases t with
      | nil => exact ⟨s, rfl, by simp, rfl⟩
      | cons c t => exact ⟨_, rfl, by simp [Prompt.stream], rfl⟩
    obtain ⟨s₁, e1, e2, e3⟩ := hl
    rw [e1] at h
    cases fd with
    | none =>
      obtain ⟨⟨x, h1, h2⟩, h3⟩ := ih _ h
      exact ⟨⟨_, .literal t gs x h1, by rw [h2, e2, List.append_assoc]⟩, fun ht => h3 (by rw [e3]; exact ht)⟩
    | some f =>
      simp only at h
      cases hg : getField E f.name with
      | error e => rw [hg] at h; cases h
      | ok v =>
        rw [hg] at h
        simp only at h
        cases he : E.encode v with
        | error e => rw [he] at h; cases h
        | ok bs =>
          rw [he] at h
          simp only at h
          cases hb : addBlocks f.fmt bs s₁ with
          | error e => rw [hb] at h; cases h
          | ok s₂ =>
            rw [hb] at h
            obtain ⟨⟨x, h1, h2⟩, h3⟩ := addBlocks_spec _ _ _ _ hb
            obtain ⟨⟨y, h4, h5⟩, h6⟩ := ih _ h
            refine ⟨⟨_, .field t f gs v bs x y hg he h1 h4, ?_⟩, fun ht => h6 (h3 (by rw [e3]; exact ht))⟩
            rw [h5, h2, e2]; simp

/-- The message has the literal texts and the rendered fields in the order of the format string; objects stay in place. -/
theorem C47_content (E : PromptEnv) (gs : List Seg) (bs : List Block) (h : callUser E gs = .ok bs) :
    Filled E gs (stream bs) := by
  unfold callUser at h
  cases hs : addSegs E gs ⟨[], []⟩ with
  | error e => rw [hs] at h; cases h
  | ok s =>
    rw [hs] at h; cases h
    obtain ⟨⟨x, h1, h2⟩, -⟩ := addSegs_spec E gs _ _ hs
    have := s.stream_flush
    unfold Prompt.stream at this
    rw [Prompt.flush_buf] at this
    simp only [List.flatten_nil, List.map_nil, List.append_nil] at this
    rw [this]
    have h3 : s.stream = x := by rw [h2]; simp [Prompt.stream, stream]
    show Filled E gs s.stream
    rw [h3]; exact h1

/-- Texts next to each other are merged. -/
theorem C47_merged (E : PromptEnv) (gs : List Seg) (bs : List Block) (h : callUser E gs = .ok bs) :
    NoAdjacentTexts bs := by
  unfold callUser at h
  cases hs : addSegs E gs ⟨[], []⟩ with
  | error e => rw [hs] at h; cases h
  | ok s =>
    rw [hs] at h; cases h
    exact ((addSegs_spec E gs _ _ hs).2 tidy_nil).flush

theorem addBlocks_ok {fmt : Text → Except PromptErr Text} {bs : List Block} {x} (h : Rendered fmt bs x) (s : Prompt) :
    ∃ s', addBlocks fmt bs s = .ok s' := by
  induction h generalizing s with
  | nil => exact ⟨s, by rw [addBlocks]⟩
  | text t u bs r hf _ ih =>
    obtain ⟨s', h⟩ := ih ⟨s.buf ++ [u], s.parts⟩
    exact ⟨s', by rw [addBlocks, hf]; exact h⟩
  | other v bs r _ ih =>
    obtain ⟨s', h⟩ := ih ⟨s.flush.buf, s.flush.parts ++ [.other v]⟩
    exact ⟨s', by rw [addBlocks]; exact h⟩

/-- A prompt whose fields can all be looked up, encoded and formatted gives a message. -/
theorem C47_defined (E : PromptEnv) (gs : List Seg) (x) (h : Filled E gs x) : ∃ bs, callUser E gs = .ok bs := by
  have : ∀ s, ∃ s', addSegs E gs s = .ok s' := by
    induction h with
    | nil => intro s; exact ⟨s, by rw [addSegs]⟩
    | literal t gs r _ ih =>
      intro s
      obtain ⟨s', h⟩ := ih (if t.isEmpty then s else ⟨s.buf ++ [t], s.parts⟩)
      exact ⟨s', by rw [addSegs]; exact h⟩
    | field t f gs v bs x r h1 h2 h3 _ ih =>
      intro s
      obtain ⟨s₁, k1⟩ := addBlocks_ok h3 (if t.isEmpty then s else ⟨s.buf ++ [t], s.parts⟩)
      obtain ⟨s', k2⟩ := ih s₁
      exact ⟨s', by rw [addSegs]; simp only [h1, h2, k1]; exact k2⟩
  obtain ⟨s, hs⟩ := this ⟨[], []⟩
  exact ⟨_, by rw [callUser, hs]⟩

/-! ## C55 -/

theorem takeWhile_simple {word : Nat → Bool} (hw : word 46 = false ∧ word 91 = false) {name : Text}
    (h : ∀ c ∈ mentioned name, word c = true) : name.takeWhile word = mentioned name := by
  induction name with
  | nil => rfl
  | cons c name ih =>
    unfold mentioned at *
    by_cases hc : nameEnd c = true
    · have hw' : word c = false := by
        simp only [nameEnd, Bool.or_eq_true, beq_iff_eq] at hc
        rcases hc with rfl | rfl
        · exact hw.1
        · exact hw.2
      simp [hc, hw']
    · have hc' : nameEnd c = false := by simpa using hc
      have hcw : word c = true := h c (by simp [hc'])
      have := ih (fun d hd => h d (by simp [hc', hd]))
      simp [hc', hcw, this]

theorem rootName_simple {word : Nat → Bool} (hw : word 46 = false ∧ word 91 = false) {name : Text}
    (h : Simple word name) : rootName word name = mentioned name := by
  unfold rootName
  rw [takeWhile_simple hw h.2, if_neg]
  simpa using h.1

theorem mem_fields {gs : List Seg} {n : Text} : n ∈ fields gs ↔ ∃ g ∈ gs, ∃ f, g.field = some f ∧ f.name = n := by
  unfold fields
  rw [List.mem_filterMap]
  constructor
  · rintro ⟨g, hg, h⟩
    rw [Option.map_eq_some_iff] at h
    obtain ⟨f, h1, h2⟩ := h
    exact ⟨g, hg, f, h1, h2⟩
  · rintro ⟨g, hg, f, h1, h2⟩
    exact ⟨g, hg, by rw [h1]; simp [h2]⟩

/-- For documented field names and functions: a prompt is accepted iff every name it mentions is a parameter or a name
of the context. -/
theorem C55_accepts_partial (word : Nat → Bool) (hw : word 46 = false ∧ word 91 = false) (params context inner : List Text)
    (gs : List Seg) (hs : ∀ n ∈ fields gs, Simple word n) :
    definePrompt word .function (params ++ context) inner gs = true ↔
      ∀ n ∈ fields gs, mentioned n ∈ params ∨ mentioned n ∈ context := by
  unfold definePrompt validatePrompt
  rw [List.all_eq_true]
  constructor
  · intro h n hn
    have hsn := hs n hn
    obtain ⟨g, hg, f, h1, h2⟩ := mem_fields.1 hn
    have := h g hg
    rw [h1] at this
    simp only at this
    rw [h2, rootName_simple hw hsn] at this
    simpa using this
  · intro h g hg
    cases hf : g.field with
    | none => rfl
    | some f =>
      have hn : f.name ∈ fields gs := mem_fields.2 ⟨g, hg, f, hf, rfl⟩
      simp only
      rw [rootName_simple hw (hs _ hn)]
      simpa using h _ hn

theorem addBlocks_undefined {fmt : Text → Except PromptErr Text} (hf : ∀ t, fmt t ≠ .error .undefined) (bs : List Block)
    (s : Prompt) : addBlocks fmt bs s ≠ .error .undefined := by
  induction bs generalizing s with
  | nil => rw [addBlocks]; simp
  | cons b bs ih =>
    cases b with
    | text t =>
      rw [addBlocks]
      cases h : fmt t with
      | error e => simp only; intro he; cases he; exact hf t h
      | ok u => exact ih _
    | other v => rw [addBlocks]; exact ih _

/-- After acceptance, if the parameters and the names of the context (which are not numbers) have values when the template
is called, formatting does not fail for a name that is not defined. -/
theorem C55_formats_partial (word : Nat → Bool) (hw : word 46 = false ∧ word 91 = false) (params context inner : List Text)
    (gs : List Seg) (hs : ∀ n ∈ fields gs, Simple word n)
    (ha : definePrompt word .function (params ++ context) inner gs = true) (E : PromptEnv)
    (hE : ∀ n, n ∈ params ∨ n ∈ context → isNumber n = false ∧ ∃ v, E.get n = some v)
    (hp : ∀ v r, E.path v r ≠ .error .undefined) (he : ∀ v, E.encode v ≠ .error .undefined)
    (hf : ∀ g ∈ gs, ∀ f, g.field = some f → ∀ t, f.fmt t ≠ .error .undefined) :
    callUser E gs ≠ .error .undefined := by
  have hm := (C55_accepts_partial word hw params context inner gs hs).1 ha
  clear ha hs
  have key : ∀ s, addSegs E gs s ≠ .error .undefined := by
    induction gs with
    | nil => intro s; rw [addSegs]; simp
    | cons g gs ih =>
      have ih := ih (fun g' hg' => hf g' (List.mem_cons_of_mem _ hg')) (fun n hn => by
        obtain ⟨g', hg', f, h1, h2⟩ := mem_fields.1 hn
        exact hm n (mem_fields.2 ⟨g', List.mem_cons_of_mem _ hg', f, h1, h2⟩))
      intro s
      rw [addSegs]
      cases hgf : g.field with
      | none => exact ih _
      | some f =>
        have hn : f.name ∈ fields (g :: gs) := mem_fields.2 ⟨g, by simp, f, hgf, rfl⟩
        obtain ⟨e1, v, e2⟩ := hE _ (hm _ hn)
        simp only
        have hget : getField E f.name = E.path v (f.name.dropWhile (fun c => !nameEnd c)) := by
          unfold getField
          unfold mentioned at e1 e2
          simp only [e1, e2, Bool.false_eq_true, if_false]
        cases hg : getField E f.name with
        | error e =>
          simp only; intro h; cases h
          rw [hget] at hg
          exact hp _ _ hg
        | ok w =>
          simp only
          cases hen : E.encode w with
          | error e => simp only; intro h; cases h; exact he w hen
          | ok bs =>
            simp only
            cases hb : addBlocks f.fmt bs (if g.literal.isEmpty then s else ⟨s.buf ++ [g.literal], s.parts⟩) with
            | error e =>
              simp only; intro h; cases h
              exact addBlocks_undefined (hf g (by simp) f hgf) _ _ hb
            | ok s₂ => exact ih _
  unfold callUser
  cases h : addSegs E gs ⟨[], []⟩ with
  | error e => simp only; intro he; cases he; exact key _ h
  | ok s => simp

namespace PromptExample

/-- `\w`, for ASCII. -/
def word (c : Nat) : Bool :=
  (decide (48 ≤ c) && decide (c ≤ 57)) || (decide (65 ≤ c) && decide (c ≤ 90)) || c == 95 ||
    (decide (97 ≤ c) && decide (c ≤ 122))

def plain (n : Text) : Field := ⟨n, fun t => .ok t⟩

/-- `x` is an image between two texts, everything else is not defined. -/
def E : PromptEnv where
  get n := if n = [120] then some 0 else none
  path v _ := .ok v
  encode _ := .ok [.text [91], .other (.atom 1), .text [93]]

/-- `a{x.y}b` -/
example : (callUser E [⟨[97], some (plain [120, 46, 121])⟩, ⟨[98], none⟩]).toOption.map stream =
    some [.inl 97, .inl 91, .inr (.atom 1), .inl 93, .inl 98] := by rfl
example : (callUser E [⟨[97], some (plain [120, 46, 121])⟩, ⟨[98], none⟩]).toOption.map List.length = some 3 := by decide
example : definePrompt word .function [[120]] [] [⟨[97], some (plain [120, 46, 121])⟩, ⟨[98], none⟩] = true := by decide
example : definePrompt word .function [[120]] [] [⟨[97], some (plain [121])⟩] = false := by decide
/-- `{}` and `{0}` are rejected. -/
example : definePrompt word .function [[120]] [] [⟨[], some (plain [])⟩] = false := by decide
example : definePrompt word .function [[120]] [] [⟨[], some (plain [48])⟩] = false := by decide
example : Simple word [120, 46, 121] := by simp [Simple, mentioned, nameEnd, word]

end PromptExample

open PromptExample

/-- `{x + 1}` is accepted when `x` is a parameter; formatting then looks for a name `x + 1`. -/
theorem C55_expression_fails : ∃ (word : Nat → Bool) (params inner : List Text) (gs : List Seg) (E : PromptEnv),
    definePrompt word .function params inner gs = true ∧ (∀ n ∈ params, ∃ v, E.get n = some v) ∧
    callUser E gs = .error .undefined :=
  ⟨word, [[120]], [], [⟨[], some (plain [120, 32, 43, 32, 49])⟩], E, by decide, by simp [E], rfl⟩

/-- Static methods are validated against another context: a prompt with a name of the module may be rejected. -/
theorem C55_static_fails : ∃ (word : Nat → Bool) (params context inner : List Text) (gs : List Seg),
    (∀ n ∈ fields gs, Simple word n ∧ mentioned n ∈ params ++ context) ∧ definePrompt word .static (params ++ context) (params ++ inner) gs = false :=
  ⟨word, [[120]], [[121]], [[122]], [⟨[], some (plain [121])⟩],
    by simp [fields, plain, Simple, mentioned, nameEnd, word], by decide⟩

/-- Class methods are not validated. -/
theorem C55_class_fails : ∃ (word : Nat → Bool) (params inner : List Text) (gs : List Seg) (n : Text), n ∈ fields gs ∧
    Simple word n ∧ mentioned n ∉ params ∧ definePrompt word .class params inner gs = true :=
  ⟨word, [[120]], [], [⟨[], some (plain [121])⟩], [121], by decide, by simp [Simple, mentioned, nameEnd, word], by decide, rfl⟩

end Verif.Llm
