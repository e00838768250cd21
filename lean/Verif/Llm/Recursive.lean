/-!
# C54: `IsRecursive` annotations

Model of `_IsRecursiveAnnotation.infer_annotations`, `_is_recursive_signature` and `Tool.__signature__`
(`handlers/llm/template.py` 43-62, 98-100). Annotations are resolved (`Operation._signature`, `ops/types.py` 94-108).
-/

namespace Verif.Llm

/-- Metadata in `Annotated[ty, …]`. -/
inductive Mark where
  | isRecursive
  | other (n : Nat)
deriving DecidableEq

/-- A resolved annotation. -/
inductive Anno where
  | plain (n : Nat)
  | annotated (n : Nat) (marks : List Mark)
deriving DecidableEq

/-- `inspect.Signature`: the parameters with their annotations, and the return annotation. -/
structure Sig where
  params : List (Nat × Anno)
  ret : Anno

/-- The values of `sig.parameters` are `inspect.Parameter` objects, not annotations. -/
inductive SigObj where
  | parameter (name : Nat) (a : Anno)
  | anno (a : Anno)

/-- `typing.get_origin(x) is Annotated`: `get_origin` gives `None` for anything but generic aliases. -/
def originAnnotated : SigObj → Bool
  | .anno (.annotated _ _) => true
  | _ => false

/-- `any(isinstance(arg, cls) for arg in typing.get_args(x))`. -/
def argsRecursive : SigObj → Bool
  | .anno (.annotated _ ms) => ms.contains .isRecursive
  | _ => false

/-- `infer_annotations(sig)` (43-52): whether it returns (`TypeError` otherwise). -/
def inferAnnotations (sig : Sig) : Bool :=
  sig.params.all (fun p =>
    let ty := SigObj.parameter p.1 p.2
    if originAnnotated ty then !argsRecursive ty else true)

/-- `_is_recursive_signature(sig)` (58-62). -/
def isRecursiveSig (sig : Sig) : Bool :=
  originAnnotated (.anno sig.ret) && argsRecursive (.anno sig.ret)

/-! ## What is stated -/

/-- An annotation with the mark. -/
def Marked (a : Anno) : Prop := ∃ n ms, a = .annotated n ms ∧ Mark.isRecursive ∈ ms

/-- A signature without the mark on parameters is accepted, and is recursive iff its return annotation has the mark. -/
theorem C54_return_partial (sig : Sig) (_h : ∀ p ∈ sig.params, ¬ Marked p.2) :
    inferAnnotations sig = true ∧ (isRecursiveSig sig = true ↔ Marked sig.ret) := by
  refine ⟨List.all_eq_true.2 (fun p _ => rfl), ?_⟩
  unfold isRecursiveSig Marked
  cases sig.ret with
  | plain n => simp [originAnnotated]
  | annotated n ms =>
    simp only [originAnnotated, argsRecursive, Bool.true_and, List.contains_iff_mem, Anno.annotated.injEq]
    exact ⟨fun h => ⟨n, ms, ⟨rfl, rfl⟩, h⟩, fun ⟨_, _, ⟨_, e⟩, h⟩ => e ▸ h⟩

/-- The check never fires: whatever the annotations of parameters are. -/
theorem C54_never (sig : Sig) : inferAnnotations sig = true := List.all_eq_true.2 (fun _ _ => rfl)

/-- A parameter with the mark is accepted. -/
theorem C54_param_fails : ∃ (sig : Sig) (p : Nat × Anno), p ∈ sig.params ∧ Marked p.2 ∧ inferAnnotations sig = true :=
  ⟨⟨[(0, .annotated 1 [.isRecursive])], .plain 0⟩, (0, .annotated 1 [.isRecursive]), by simp,
    ⟨1, [.isRecursive], rfl, by simp⟩, rfl⟩

example : isRecursiveSig ⟨[], .annotated 0 [.other 3, .isRecursive]⟩ = true := by decide
example : isRecursiveSig ⟨[], .annotated 0 [.other 3]⟩ = false := by decide

end Verif.Llm
