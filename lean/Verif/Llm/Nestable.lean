/-!
# C62: constructs that cannot be nested

Model of `scan_non_nestable` (`handlers/llm/evaluation.py` 117-139). Statements are told apart by what matters here:
`from __future__ import …`, `from … import *`, other simple statements, and compound statements, which are a scope of their
own (functions and classes) or not (`if`, `try`, `with`, loops, `match`).
-/

namespace Verif.Llm

inductive GStmt where
  | future
  | star
  | simple
  | block (scope : Bool) (body : List GStmt)

/-- `scan_non_nestable(generated)`: whether it returns. -/
def scanNonNestable : List GStmt → Bool
  | [] => true
  | .future :: _ => false
  | .star :: _ => false
  | .simple :: ss => scanNonNestable ss
  | .block _ _ :: ss => scanNonNestable ss

/-! ## What is stated -/

/-- `s` is in a list of statements, in some block; `out` if it is in no function or class. -/
inductive In (s : GStmt) : Bool → List GStmt → Prop where
  | here {ss} : s ∈ ss → In s true ss
  | inside {out scope body ss} : GStmt.block scope body ∈ ss → In s out body → In s (out && !scope) ss

/-- Code that compiles as a module: `import *` only outside of functions and classes, `__future__` imports in no block. -/
structure Compiles (g : List GStmt) : Prop where
  star : ∀ out, In .star out g → out = true
  future : ∀ out, In .future out g → GStmt.future ∈ g

/-- Code that compiles in a function. -/
def Nestable (g : List GStmt) : Prop := ∀ out, ¬ In .star out g ∧ ¬ In .future out g

/-! ## Proofs -/

theorem scan_iff (g : List GStmt) : scanNonNestable g = true ↔ GStmt.star ∉ g ∧ GStmt.future ∉ g := by
  induction g with
  | nil => simp [scanNonNestable]
  | cons s g ih => cases s <;> simp [scanNonNestable, ih]

/-- What is rejected could not be nested. -/
theorem C62_rejected (g : List GStmt) (h : scanNonNestable g = false) : ¬ Nestable g := by
  intro hn
  have : scanNonNestable g = true := (scan_iff g).2 ⟨fun hs => (hn true).1 (.here hs), fun hs => (hn true).2 (.here hs)⟩
  rw [h] at this; cases this

/-- Code that compiles, with `import *` in no block, is accepted only if it can be nested. -/
theorem C62_accepted_partial (g : List GStmt) (hc : Compiles g) (hb : ∀ out, In .star out g → GStmt.star ∈ g)
    (h : scanNonNestable g = true) : Nestable g := by
  obtain ⟨h1, h2⟩ := (scan_iff g).1 h
  exact fun out => ⟨fun hi => h1 (hb out hi), fun hi => h2 (hc.future out hi)⟩

/-- `if True: from m import *` is accepted. -/
theorem C62_block_fails : ∃ g, Compiles g ∧ scanNonNestable g = true ∧ ¬ Nestable g := by
  have hblock : ∀ s out, In s out [GStmt.star] → s = .star ∧ out = true := by
    intro s out h
    cases h with
    | here h => simp at h; exact ⟨h, rfl⟩
    | inside h _ => simp at h
  refine ⟨[.block false [.star]], ⟨?_, ?_⟩, rfl, ?_⟩
  · intro out h
    cases h with
    | here => rfl
    | inside hm hi =>
      simp at hm
      obtain ⟨rfl, rfl⟩ := hm
      simp [(hblock _ _ hi).2]
  · intro out h
    cases h with
    | here h => exact h
    | inside hm hi =>
      simp at hm
      obtain ⟨rfl, rfl⟩ := hm
      cases (hblock _ _ hi).1
  · intro h
    exact (h (true && !false)).1 (.inside (scope := false) (by simp) (.here (List.mem_singleton.2 rfl)))

example : scanNonNestable [.simple, .future] = false := rfl
example : scanNonNestable [.simple, .block true [.simple]] = true := rfl

end Verif.Llm
