import Verif.Llm.ToolCalls

/-!
# C119: tools as values

Model of `_validate_tool` and `_serialize_tool` (`handlers/llm/encoding.py` 682-727), for tools that are arguments or results of templates
and other tools.

* Tools, names and contexts are those of C63. Descriptions and schemas are numbers; the schema of the parameters is arbitrary, and `none` if
  pydantic cannot make one.
* What is decoded is a description as pydantic reads it (`ChatCompletionToolParam`), or `none` if it is none.
-/

namespace Verif.ToolCalls

/-- `ChatCompletionToolParam`. -/
structure ToolParam where
  name : Nat
  description : Nat
  parameters : Nat
deriving DecidableEq

/-- What pydantic makes of tools. -/
structure Texts where
  description : Nat → Nat
  parameters : Nat → Option Nat

/-- `_serialize_tool` (693-727). The context is `none` if it is no mapping (711). -/
def serializeTool (W : World) (T : Texts) (ctx : Option Ctx) (t : Nat) : Option ToolParam :=
  match T.parameters t with
  | none => none
  | some p =>
    match ctx with
    | some c => some ⟨advertised W c t, T.description t, p⟩
    | none => some ⟨(W.tools t).name, T.description t, p⟩

inductive ToolErr where
  | context
  | invalid
  | unknown
deriving DecidableEq

/-- `_validate_tool` (682-690). -/
def validateTool (ctx : Option Ctx) (x : Option ToolParam) : Except ToolErr CtxObj :=
  match ctx with
  | none => .error .context
  | some c =>
    match x with
    | none => .error .invalid
    | some p =>
      match c.lookup p.name with
      | some o => .ok o
      | none => .error .unknown

/-! ## Proofs -/

theorem advertised_mem (W : World) (ctx : Ctx) (t : Nat) (n : Nat) (ht : (n, .tool t) ∈ ctx) :
    (advertised W ctx t, .tool t) ∈ ctx := by
  unfold advertised
  split
  · rename_i x hx
    have h1 := List.mem_of_find?_eq_some hx
    have h2 := List.find?_some hx
    simp only [beq_iff_eq] at h2
    rw [← h2]
    exact h1
  · rename_i hx
    rw [List.find?_eq_none] at hx
    exact absurd (by simp) (hx _ ht)

/-- A tool of the context that is encoded is decoded as the same tool, whatever its own name is. -/
theorem C119_round (W : World) (T : Texts) (ctx : Ctx) (hc : IsDict ctx) (t n : Nat) (ht : (n, .tool t) ∈ ctx) (x : ToolParam)
    (hx : serializeTool W T (some ctx) t = some x) : validateTool (some ctx) (some x) = .ok (.tool t) := by
  unfold serializeTool at hx
  split at hx
  · cases hx
  · cases hx
    simp only [validateTool]
    rw [(lookup_iff hc _ _).2 (advertised_mem W ctx t n ht)]

/-- What is encoded in one context is decoded in another as the same tool exactly if the other has the tool under the same name. -/
theorem C119_contexts (W : World) (T : Texts) (c d : Ctx) (hd : IsDict d) (t : Nat) (x : ToolParam)
    (hx : serializeTool W T (some c) t = some x) :
    validateTool (some d) (some x) = .ok (.tool t) ↔ (advertised W c t, .tool t) ∈ d := by
  unfold serializeTool at hx
  split at hx
  · cases hx
  · cases hx
    rw [← lookup_iff hd]
    simp only [validateTool]
    split
    · rename_i o ho
      rw [ho]
      constructor
      · intro h; cases h; rfl
      · intro h; cases h; rfl
    · rename_i ho
      rw [ho]
      simp

/-- Decoding depends on the name only, and gives the object of the context that has it; `unknown` if there is none. -/
theorem C119_name (ctx : Ctx) (hc : IsDict ctx) (x : ToolParam) :
    (∀ o, validateTool (some ctx) (some x) = .ok o ↔ (x.name, o) ∈ ctx) ∧
    (validateTool (some ctx) (some x) = .error .unknown ↔ ∀ o, (x.name, o) ∉ ctx) := by
  simp only [validateTool]
  split
  · rename_i o ho
    have hm := (lookup_iff hc _ _).1 ho
    refine ⟨fun p => ?_, ?_⟩
    · rw [← lookup_iff hc, ho]
      constructor
      · intro h; cases h; rfl
      · intro h; cases h; rfl
    · constructor
      · intro h; cases h
      · intro h; exact absurd hm (h o)
  · rename_i ho
    refine ⟨fun p => ?_, ?_⟩
    · rw [← lookup_iff hc, ho]
      simp
    · refine ⟨fun _ o hm => ?_, fun _ => rfl⟩
      rw [← lookup_iff hc, ho] at hm
      cases hm

/-- Without a context nothing is decoded, and what is no description is an error. -/
theorem C119_errors (ctx : Option Ctx) (x : Option ToolParam) :
    (validateTool ctx x = .error .context ↔ ctx = none) ∧ (validateTool ctx x = .error .invalid ↔ ctx ≠ none ∧ x = none) := by
  cases ctx with
  | none => simp [validateTool]
  | some c =>
    cases x with
    | none => simp [validateTool]
    | some p =>
      simp only [validateTool]
      split <;> simp

/-- What is said about a tool: its description and its parameters, for each context. -/
theorem C119_texts (W : World) (T : Texts) (ctx : Option Ctx) (t : Nat) :
    (serializeTool W T ctx t).map (fun x => (x.description, x.parameters)) = (T.parameters t).map fun p => (T.description t, p) := by
  unfold serializeTool
  split
  · rename_i h; rw [h]; rfl
  · rename_i p h
    rw [h]
    cases ctx <;> rfl

/-- Without a context, or if the context does not have it, a tool is shown under its own name. -/
theorem C119_alone (W : World) (T : Texts) (ctx : Option Ctx) (t : Nat) (h : ∀ c, ctx = some c → ∀ n, (n, .tool t) ∉ c) :
    (serializeTool W T ctx t).map (·.name) = (T.parameters t).map fun _ => (W.tools t).name := by
  unfold serializeTool
  split
  · rename_i hp; rw [hp]; rfl
  · rename_i p hp
    rw [hp]
    cases ctx with
    | none => rfl
    | some c =>
      have hf : advertised W c t = (W.tools t).name := by
        unfold advertised
        rw [List.find?_eq_none.2 fun x hx => ?_]
        obtain ⟨n, o⟩ := x
        simp only [beq_iff_eq]
        intro ho
        rw [ho] at hx
        exact h c rfl n hx
      simp [hf]

/-- Different tools of one context are encoded differently. -/
theorem C119_different (W : World) (T : Texts) (ctx : Ctx) (hc : IsDict ctx) (t u n k : Nat) (ht : (n, .tool t) ∈ ctx)
    (hu : (k, .tool u) ∈ ctx) (x : ToolParam) (hx : serializeTool W T (some ctx) t = some x)
    (hy : serializeTool W T (some ctx) u = some x) : t = u := by
  have h1 := C119_round W T ctx hc t n ht x hx
  have h2 := C119_round W T ctx hc u k hu x hy
  rw [h1] at h2
  cases h2
  rfl

/-! ## Where it fails -/

/-- A tool that is not in the context is encoded under its own name, which may be that of another tool or of an object that is no tool:
this is what is decoded, without an error. -/
theorem C119_outside_fails (W : World) (T : Texts) (t p : Nat) (hp : T.parameters t = some p) (o : CtxObj) (ho : o ≠ .tool t) :
    ∃ x, serializeTool W T (some [((W.tools t).name, o)]) t = some x ∧
      validateTool (some [((W.tools t).name, o)]) (some x) = .ok o ∧ (Except.ok o : Except ToolErr CtxObj) ≠ .ok (.tool t) := by
  have hf : advertised W [((W.tools t).name, o)] t = (W.tools t).name := by
    unfold advertised
    rw [List.find?_cons_of_neg (by simpa using ho)]
    rfl
  refine ⟨⟨(W.tools t).name, T.description t, p⟩, ?_, ?_, fun h => ho (by cases h; rfl)⟩
  · unfold serializeTool
    rw [hp]
    show some _ = _
    rw [hf]
  · simp [validateTool]

/-- An object of the context that is no tool is decoded as a tool, although a call of it is an error. -/
theorem C119_object_fails (W : World) (n k d p : Nat) (c : Call) (hc : c.name = n) :
    validateTool (some [(n, .other k)]) (some ⟨n, d, p⟩) = .ok (.other k) ∧ decode W [(n, .other k)] c = .error .notTool := by
  refine ⟨by simp [validateTool], ?_⟩
  unfold decode
  rw [hc]
  simp

/-! ## Examples -/

/-- Two tools with the same name of their own. -/
def exTools : World := ⟨fun _ => ⟨7, []⟩, fun _ _ => none, fun _ => none⟩
def exTexts : Texts := ⟨fun t => t + 100, fun t => if t = 9 then none else some (t + 200)⟩

example : serializeTool exTools exTexts (some [(3, .other 0), (4, .tool 1), (5, .tool 2)]) 2 = some ⟨5, 102, 202⟩ := by decide +kernel
example : serializeTool exTools exTexts none 2 = some ⟨7, 102, 202⟩ := by decide +kernel
example : serializeTool exTools exTexts (some []) 9 = none := by decide +kernel
example : validateTool (some [(3, .other 0), (4, .tool 1)]) (some ⟨4, 0, 0⟩) = .ok (.tool 1) := rfl
example : validateTool (some [(3, .other 0), (4, .tool 1)]) (some ⟨5, 0, 0⟩) = .error .unknown := rfl
example : IsDict ([(3, .other 0), (4, .tool 1)] : Ctx) := by simp [IsDict]

end Verif.ToolCalls
