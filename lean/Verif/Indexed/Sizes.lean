import Verif.Indexed.Named
import Verif.Indexed.Desugar

/-!
# C71: the sizes of named dimensions

Model of the loops in `sizesof` for one indexing: `handlers/torch.py` `_torch_getitem_sizeof` 53-72 and
`handlers/jax/_handlers.py` `_getitem_sizeof` 66-71, with `update_sizes` 58-64. What is indexed is a tensor with or without
named dimensions, given by its (visible) shape. The desugaring of keys is that of C36, the updates of the sizes are those of
C37 (`sizesLoop`).

An array without named dimensions is indexed in jax by `_EagerArrayTerm` (`handlers/jax/_terms.py` 408-411), which desugars
the key before `sizesof` sees it; an array with named dimensions by a term with the key as given.
-/

namespace Verif.Indexed.Sizes

open Verif.Indexed.Named (Name Err sizesLoop sizesLoop_spec sizesLoop_functional)
open Verif.Indexed.Desugar

/-- An entry of a key other than `None` and `...`: a name `n()`, or one of those that are not terms. -/
inductive Entry where
  | name (n : Name)
  | other

def nameOf : NK Entry → Option Name
  | .sel (.name n) => some n
  | _ => none

/-- The loop of `_torch_getitem_sizeof` (57-72). Keys with several `...` may raise `AssertionError` (`tensor_utils.py` 17-19)
where this has `index`. -/
def torchSizes (shape : List Nat) (key : List (K Entry)) : Except Err (List (Name × Nat)) :=
  match desugar shape key with
  | none => .error .index
  | some (ns, nk) =>
    match sizesLoop [] (ns.zip (nk.map nameOf)) with
    | none => .error .value
    | some s => .ok s

/-- The loop of `_getitem_sizeof` (68-70), from position `i` of the key. -/
def jaxLoop (shape : List Nat) : Nat → List (K Entry) → List (Name × Nat) → Except Err (List (Name × Nat))
  | _, [], s => .ok s
  | i, .sel (.name n) :: ks, s =>
    match shape[i]? with
    | none => .error .index
    | some d =>
      match s.lookup n with
      | none => jaxLoop shape (i + 1) ks (s ++ [(n, d)])
      | some e => if d ≠ e then .error .value else jaxLoop shape (i + 1) ks s
  | i, _ :: ks, s => jaxLoop shape (i + 1) ks s

/-- For an array with named dimensions. -/
def jaxSizes (shape : List Nat) (key : List (K Entry)) : Except Err (List (Name × Nat)) := jaxLoop shape 0 key []

def plainKey : NK Entry → K Entry
  | .full => .sel .other
  | .sel e => .sel e

/-- For an array without named dimensions; errors for several `...` as above. -/
def jaxPlainSizes (shape : List Nat) (key : List (K Entry)) : Except Err (List (Name × Nat)) :=
  match desugar shape key with
  | none => .error .index
  | some (ns, nk) => jaxLoop ns 0 (nk.map plainKey) []

/-! ## What is stated -/

/-- The key reads the dimensions of the shape, and these are the names with the sizes of the dimensions they index. -/
inductive Takes : List Nat → List (K Entry) → List (Name × Nat) → Prop
  | nil : Takes [] [] []
  | newaxis {sh ks l} : Takes sh ks l → Takes sh (.none_ :: ks) l
  | name {d sh n ks l} : Takes sh ks l → Takes (d :: sh) (.sel (.name n) :: ks) ((n, d) :: l)
  | other {d sh ks l} : Takes sh ks l → Takes (d :: sh) (.sel .other :: ks) l
  | ell {full mid sh ks l} : full = mid ++ sh → ks.any K.isEll = false → Takes sh ks l → Takes full (.ell :: ks) l

/-- No name with two sizes. -/
def Functional (l : List (Name × Nat)) : Prop := ∀ n d e, (n, d) ∈ l → (n, e) ∈ l → d = e

/-- The result is `l`, or `ValueError` if a name has two sizes. -/
def Right (l : List (Name × Nat)) (r : Except Err (List (Name × Nat))) : Prop :=
  (Functional l → ∃ s, r = .ok s ∧ ∀ n d, (n, d) ∈ s ↔ (n, d) ∈ l) ∧ (¬ Functional l → r = .error .value)

/-! ## Proofs -/

theorem takes_length {sh : List Nat} {ks : List (K Entry)} {l : List (Name × Nat)} (h : Takes sh ks l) :
    sels ks ≤ sh.length ∧ (ks.any K.isEll = false → sels ks = sh.length) ∧ ells ks ≤ 1 := by
  induction h with
  | nil => simp [sels, ells]
  | newaxis _ ih => simpa [sels, ells, K.isSel, K.isEll] using ih
  | name _ ih => simpa [sels, ells, K.isSel, K.isEll, List.countP_cons] using ih
  | other _ ih => simpa [sels, ells, K.isSel, K.isEll, List.countP_cons] using ih
  | ell hE h _ ih =>
    have h0 := ells_zero.2 h
    subst hE
    have h1 := ih.1
    refine ⟨?_, by simp [K.isEll], ?_⟩
    · simp only [sels, List.countP_cons, K.isSel, List.length_append] at h1 ⊢
      simp
      omega
    · simp only [ells, List.countP_cons, K.isEll] at h0 ⊢
      rw [h0]
      simp

theorem takes_unique {sh : List Nat} {ks : List (K Entry)} {l : List (Name × Nat)} (h : Takes sh ks l) :
    ∀ l', Takes sh ks l' → l = l' := by
  induction h with
  | nil => intro l' h'; cases h'; rfl
  | newaxis _ ih => intro l' h'; cases h' with | newaxis h' => exact ih _ h'
  | name _ ih => intro l' h'; cases h' with | name h' => rw [ih _ h']
  | other _ ih => intro l' h'; cases h' with | other h' => exact ih _ h'
  | @ell full mid sh ks l hE he h ih =>
    intro l' h'
    cases h' with
    | @ell _ mid' sh' _ _ hE' he' h' =>
      rw [hE] at hE'
      have e1 := (takes_length h).2.1 he
      have e2 := (takes_length h').2.1 he
      have hlen := congrArg List.length hE'
      simp only [List.length_append] at hlen
      obtain ⟨rfl, rfl⟩ := List.append_inj hE' (by omega)
      exact ih _ h'

/-- The names of a desugared key with their sizes. -/
def named : List (Nat × Option Name) → List (Name × Nat)
  | [] => []
  | (d, some n) :: zs => (n, d) :: named zs
  | (_, none) :: zs => named zs

theorem mem_named (n : Name) (d : Nat) : ∀ zs, (n, d) ∈ named zs ↔ (d, some n) ∈ zs
  | [] => by simp [named]
  | (e, some m) :: zs => by
    simp only [named, List.mem_cons, mem_named n d zs, Prod.mk.injEq, Option.some.injEq]
    constructor
    · rintro (⟨rfl, rfl⟩ | h)
      · exact Or.inl ⟨rfl, rfl⟩
      · exact Or.inr h
    · rintro (⟨rfl, rfl⟩ | h)
      · exact Or.inl ⟨rfl, rfl⟩
      · exact Or.inr h
  | (e, none) :: zs => by simp [named, mem_named n d zs]

theorem named_full : ∀ (mid ns : List Nat) (nk : List (NK Entry)),
    named ((mid ++ ns).zip ((List.replicate mid.length NK.full ++ nk).map nameOf)) = named (ns.zip (nk.map nameOf))
  | [], _, _ => rfl
  | d :: mid, ns, nk => by
    simp only [List.cons_append, List.length_cons, List.replicate_succ, List.map_cons, List.zip_cons_cons, nameOf, named]
    exact named_full mid ns nk

theorem takes_of_rewr {sh ns : List Nat} {ks : List (K Entry)} {nk : List (NK Entry)} (h : Rewr sh ks ns nk) :
    Takes sh ks (named (ns.zip (nk.map nameOf))) := by
  induction h with
  | nil => exact .nil
  | newaxis _ ih => exact .newaxis ih
  | @sel e d sh ks ns nk _ ih =>
    cases e with
    | name n => exact .name ih
    | other => exact .other ih
  | ell he _ ih =>
    rw [named_full]
    exact .ell rfl he ih

theorem desugar_takes {shape : List Nat} {key : List (K Entry)} {l : List (Name × Nat)}
    (h : Takes shape (explicit key) l) : ∃ ns nk, desugar shape key = some (ns, nk) ∧ ns.length = nk.length ∧
      named (ns.zip (nk.map nameOf)) = l := by
  obtain ⟨pre, post, e, hp, hq, hs⟩ := withEll_split key
  have ht := takes_length h
  rw [← withEll_eq, e] at ht
  have hpost : post.any K.isEll = false := by
    rw [← ells_zero]
    have h3 := ht.2.2
    have h0 := ells_zero.2 hp
    simp only [ells, List.countP_append, List.countP_cons, K.isEll] at h3 h0 ⊢
    simp at h3
    omega
  have hd := desugar_split shape pre post hp hpost
  have hle : sels pre + sels post ≤ shape.length := by
    have := ht.1
    simpa [sels, List.countP_append, List.countP_cons, K.isSel] using this
  rw [if_pos hle, ← e] at hd
  obtain ⟨ns, nk, h1, h2⟩ := hd
  refine ⟨ns, nk, h1, ?_, ?_⟩
  · clear h1 h
    generalize withEll key = ks at h2
    clear e ht hp hq hs hpost hle
    induction h2 with
    | nil => rfl
    | newaxis _ ih => simp [ih]
    | sel _ ih => simp [ih]
    | ell _ _ ih => simp [ih]
  · have := takes_of_rewr h2
    rw [withEll_eq] at this
    exact (takes_unique h _ this).symm

theorem sizesLoop_right (zs : List (Nat × Option Name)) : Right (named zs) (match sizesLoop [] zs with
    | none => .error .value
    | some s => .ok s) := by
  constructor
  · intro hf
    obtain ⟨s, h1, _, h3⟩ := sizesLoop_spec zs [] (by simp) (fun n d e hd he => hf n d e
      ((mem_named n d zs).2 (by simpa using hd)) ((mem_named n e zs).2 (by simpa using he)))
    exact ⟨s, by rw [h1], fun n d => by rw [h3, mem_named]; simp⟩
  · intro hf
    cases hs : sizesLoop [] zs with
    | none => rfl
    | some s =>
      exfalso
      exact hf fun n d e hd he => sizesLoop_functional zs [] s (by simp) hs n d e (Or.inr ((mem_named n d zs).1 hd))
        (Or.inr ((mem_named n e zs).1 he))

/-- **C71.** `sizesof` for torch: each name has the size of the dimension it indexes, whatever `None` and `...` the key has. -/
theorem C71_torch (shape : List Nat) (key : List (K Entry)) (l : List (Name × Nat)) (h : Takes shape (explicit key) l) :
    Right l (torchSizes shape key) := by
  obtain ⟨ns, nk, h1, _, h2⟩ := desugar_takes h
  simp only [torchSizes, h1]
  rw [← h2]
  exact sizesLoop_right _

/-- **C71.** Keys with at most one `...` that do not read the shape, having more entries than there are dimensions, raise
`IndexError`, for torch and for jax without named dimensions. -/
theorem C71_invalid (shape : List Nat) (key : List (K Entry)) (_ : (key.filter K.isEll).length ≤ 1) (h : ∀ l, ¬ Takes shape (explicit key) l) :
    torchSizes shape key = .error .index ∧ jaxPlainSizes shape key = .error .index := by
  have hd := desugar_rewr shape key
  cases hx : desugar shape key with
  | none => simp [torchSizes, jaxPlainSizes, hx]
  | some p =>
    exfalso
    split at hd
    · obtain ⟨ns, nk, -, hr⟩ := hd
      have := takes_of_rewr hr
      rw [withEll_eq] at this
      exact h _ this
    · rw [hx] at hd; cases hd

example : ∀ l, ¬ Takes [2] (explicit [.sel (.name "i"), .sel (.name "j")]) l := by
  intro l h
  cases h with | name h => cases h

example : ((([.sel (.name "i"), .sel (.name "j")] : List (K Entry))).filter K.isEll).length ≤ 1 := by decide

/-- Keys with one entry for each dimension. -/
theorem jaxLoop_eq : ∀ (ks : List (K Entry)) (shape : List Nat) (i : Nat) (s : List (Name × Nat)),
    (∀ k ∈ ks, k.isSel = true) → ks.length + i ≤ shape.length →
    jaxLoop shape i ks s = match sizesLoop s ((shape.drop i).zip (ks.map fun k => match k with
        | .sel (.name n) => some n
        | _ => none)) with
      | none => .error .value
      | some s => .ok s
  | [], shape, i, s, _, _ => by simp [jaxLoop, sizesLoop]
  | k :: ks, shape, i, s, hk, hl => by
    have hi : i < shape.length := by simp only [List.length_cons] at hl; omega
    have hdrop : shape.drop i = shape[i] :: shape.drop (i + 1) := List.drop_eq_getElem_cons hi
    have ih := fun s => jaxLoop_eq ks shape (i + 1) s (fun k h => hk k (List.mem_cons_of_mem _ h))
      (by simp only [List.length_cons] at hl; omega)
    cases k with
    | none_ => exact absurd (hk _ List.mem_cons_self) (by simp [K.isSel])
    | ell => exact absurd (hk _ List.mem_cons_self) (by simp [K.isSel])
    | sel e =>
      cases e with
      | other => simp only [jaxLoop, hdrop, List.map_cons, List.zip_cons_cons, sizesLoop, ih]
      | name n =>
        have hg : shape[i]? = some shape[i] := List.getElem?_eq_getElem hi
        simp only [jaxLoop, hg, hdrop, List.map_cons, List.zip_cons_cons, sizesLoop]
        cases hlk : s.lookup n with
        | none => simp only [ih]
        | some e =>
          by_cases he : e = shape[i]
          · simp only [he, ne_eq, not_true_eq_false, if_false, if_true, ih]
          · have : ¬ shape[i] = e := fun h => he h.symm
            simp only [ne_eq, this, not_false_eq_true, if_true, he, if_false]

/-- **C71.** `sizesof` for jax, indexing an array without named dimensions. -/
theorem C71_jax_plain (shape : List Nat) (key : List (K Entry)) (l : List (Name × Nat))
    (h : Takes shape (explicit key) l) : Right l (jaxPlainSizes shape key) := by
  obtain ⟨ns, nk, h1, hlen, h2⟩ := desugar_takes h
  simp only [jaxPlainSizes, h1]
  have hsel : ∀ k ∈ nk.map plainKey, K.isSel k = true := by
    intro k hk
    obtain ⟨x, _, rfl⟩ := List.mem_map.1 hk
    cases x <;> rfl
  rw [jaxLoop_eq _ ns 0 [] hsel (by simp [hlen]), ← h2]
  have hm : ((nk.map plainKey).map fun k => match k with
      | .sel (.name n) => some n
      | _ => none) = nk.map nameOf := by
    rw [List.map_map]
    apply List.map_congr_left
    intro x _
    cases x with
    | full => rfl
    | sel e => cases e <;> rfl
  rw [hm, List.drop_zero]
  exact sizesLoop_right _

/-- **C71.** `sizesof` for jax, indexing an array with named dimensions by a key without `None` and `...`. -/
theorem C71_jax_named_partial (shape : List Nat) (key : List (K Entry)) (hk : ∀ k ∈ key, k.isSel = true)
    (l : List (Name × Nat)) (h : Takes shape (explicit key) l) : Right l (jaxSizes shape key) := by
  have hs : ∀ (ks : List (K Entry)), (∀ k ∈ ks, k.isSel = true) → sels ks = ks.length ∧ ells ks = 0 := by
    intro ks
    induction ks with
    | nil => intro _; exact ⟨rfl, rfl⟩
    | cons k ks ih =>
      intro h
      have := ih fun k hk => h k (List.mem_cons_of_mem _ hk)
      have h1 := h k List.mem_cons_self
      cases k with
      | none_ => simp [K.isSel] at h1
      | ell => simp [K.isSel] at h1
      | sel e => simpa [sels, ells, K.isSel, K.isEll, List.countP_cons] using this
  obtain ⟨h1, h2⟩ := hs key hk
  have hl : key.length ≤ shape.length := by
    have := (takes_length h).1
    rw [explicit, if_pos h2] at this
    simp only [sels, List.countP_append] at this h1
    omega
  unfold jaxSizes
  rw [jaxLoop_eq key shape 0 [] hk (by omega)]
  have hn : ∀ (ks : List (K Entry)) (sh : List Nat) (l : List (Name × Nat)), (∀ k ∈ ks, k.isSel = true) →
      Takes sh (ks ++ [.ell]) l → l = named (sh.zip (ks.map fun k => match k with
        | .sel (.name n) => some n
        | _ => none)) := by
    intro ks
    induction ks with
    | nil =>
      intro sh l _ ht
      cases ht with
      | ell _ _ ht => cases ht; simp [named]
    | cons k ks ih =>
      intro sh l h ht
      have h' := fun k hk => h k (List.mem_cons_of_mem _ hk)
      cases ht with
      | newaxis _ => exact absurd (h _ List.mem_cons_self) (by simp [K.isSel])
      | name ht => simp only [List.map_cons, List.zip_cons_cons, named, ← ih _ _ h' ht]
      | other ht => simp only [List.map_cons, List.zip_cons_cons, named, ← ih _ _ h' ht]
      | ell _ _ _ => exact absurd (h _ List.mem_cons_self) (by simp [K.isSel])
  rw [explicit, if_pos h2] at h
  rw [hn key shape l hk h, List.drop_zero]
  exact sizesLoop_right _

example : Takes [2, 3] (explicit [.none_, .sel (.name "j")]) [("j", 2)] := by
  exact .newaxis (.name (.ell (mid := [3]) rfl rfl .nil))

example : torchSizes [2, 3] [.none_, .sel (.name "j")] = .ok [("j", 2)] := rfl

example : Takes [2, 3] (explicit [.ell, .sel (.name "j")]) [("j", 3)] :=
  .ell (mid := [2]) rfl rfl (.name .nil)

/-- **C71, negation.** In jax, `None` before a name shifts the dimension whose size is taken: `x[None, j()]` for `x` of
shape (2, 3) with another named dimension gives `j` the size 3 instead of 2. -/
theorem C71_jax_none_fails : ∃ l, Takes [2, 3] (explicit [.none_, .sel (.name "j")]) l ∧
    ¬ Right l (jaxSizes [2, 3] [.none_, .sel (.name "j")]) ∧
    l = [("j", 2)] ∧ jaxSizes [2, 3] [.none_, .sel (.name "j")] = .ok [("j", 3)] := by
  refine ⟨[("j", 2)], .newaxis (.name (.ell (mid := [3]) rfl rfl .nil)), ?_, rfl, rfl⟩
  intro h
  obtain ⟨s, h1, h2⟩ := h.1 (by intro n d e h1 h2; simp at h1 h2; omega)
  have : s = [("j", 3)] := by
    have h3 : jaxSizes [2, 3] [.none_, .sel (.name "j")] = .ok [("j", 3)] := rfl
    rw [h3] at h1
    injection h1 with h1
    exact h1.symm
  subst this
  have := (h2 "j" 3).1 (by simp)
  simp at this

/-- **C71, negation.** In jax, `x[..., j()]` for such `x` with three dimensions takes the size of the second one. -/
theorem C71_jax_ellipsis_fails : Takes [2, 3, 4] (explicit [.ell, .sel (.name "j")]) [("j", 4)] ∧
    jaxSizes [2, 3, 4] [.ell, .sel (.name "j")] = .ok [("j", 3)] :=
  ⟨.ell (mid := [2, 3]) rfl rfl (.name .nil), rfl⟩

/-- **C71, negation.** In jax, `x[None, j()]` for such `x` with one dimension raises `IndexError`. -/
theorem C71_jax_raises_fails : Takes [2] (explicit [.none_, .sel (.name "j")]) [("j", 2)] ∧
    jaxSizes [2] [.none_, .sel (.name "j")] = .error .index :=
  ⟨.newaxis (.name (.ell (mid := []) rfl rfl .nil)), rfl⟩

end Verif.Indexed.Sizes
