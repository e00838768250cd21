/-!
# C36: `None` and `...` in tensor indices

Model of `internals/tensor_utils.py` `_desugar_tensor_index` 1-32 and of `handlers/torch.py`
`_getitem_ellipsis_and_none` 24-34 (`torch.reshape(x, new_shape), new_key`).

Entries of an index other than `None` and `...` are abstract selectors: each reads one dimension. This covers
ints, slices, lists and named indices; boolean masks, which read several dimensions, and the joint broadcasting
of several index tensors are left out.
-/

namespace Verif.Indexed.Desugar

/-- An entry of an index. -/
inductive K (E : Type) where
  | none_
  | ell
  | sel (e : E)

/-- An entry of a desugared index. -/
inductive NK (E : Type) where
  | full
  | sel (e : E)

def K.isNone {E : Type} : K E → Bool
  | .none_ => true
  | _ => false

def K.isEll {E : Type} : K E → Bool
  | .ell => true
  | _ => false

def K.isSel {E : Type} : K E → Bool
  | .sel _ => true
  | _ => false

/-- `extra_dims(key)` (5-6). -/
def extraDims {E : Type} (key : List (K E)) : Nat := key.countP K.isNone

/-- `l[i]` in Python; `none` for IndexError. -/
def pyIndex (l : List Nat) (i : Int) : Option Nat :=
  if i < 0 then (if l.length + i < 0 then none else l[(l.length + i).toNat]?) else l[i.toNat]?

/-- A bound of a slice in Python. -/
def pyBound (n : Nat) (i : Int) : Nat :=
  if i < 0 then (n + i).toNat else min n i.toNat

/-- `l[a:b]` in Python. -/
def pySlice (l : List Nat) (a b : Int) : List Nat :=
  (l.take (pyBound l.length b)).drop (pyBound l.length a)

/-- The loop (12-30); `none` if it raises. -/
def loop {E : Type} (shape : List Nat) (key : List (K E)) : Nat → List (K E) → List Nat → List (NK E) →
    Option (List Nat × List (NK E))
  | _, [], ns, nk => some (ns, nk)
  | i, .none_ :: rest, ns, nk => loop shape key (i + 1) rest (ns ++ [1]) (nk ++ [.full])
  | i, .ell :: rest, ns, nk =>
    if (key.drop (i + 1)).any K.isEll then none
    else
      let pre : Int := i - extraDims (key.take i)
      let elided : Int := shape.length - pre - (key.length - i - 1 - extraDims (key.drop (i + 1)))
      loop shape key (i + 1) rest (ns ++ pySlice shape pre (pre + elided))
        (nk ++ List.replicate elided.toNat .full)
  | i, .sel e :: rest, ns, nk =>
    match pyIndex shape (ns.length - extraDims (key.take i)) with
    | none => none
    | some d => loop shape key (i + 1) rest (ns ++ [d]) (nk ++ [.sel e])

/-- The index with a trailing `...` (9-10). -/
def withEll {E : Type} (key : List (K E)) : List (K E) :=
  if key.any K.isEll then key else key ++ [.ell]

/-- `_desugar_tensor_index(shape, key)`. -/
def desugar {E : Type} (shape : List Nat) (key : List (K E)) : Option (List Nat × List (NK E)) :=
  loop shape (withEll key) 0 (withEll key) [] []

/-! ## Specification -/

/-- What selectors do with a dimension of a given size: the dimensions they leave (`none` if out of range), and
the coordinate for an index into these. -/
structure Selectors (E : Type) where
  out : E → Nat → Option (List Nat)
  coord : E → Nat → List Nat → Nat

variable {E : Type} (S : Selectors E)

/-- `x[key]` for an array of shape `shape` has shape `out`, and its entry at `ix` is the entry of `x` at `f ix`.
The dimensions that `...` stands for are those not read by other entries. -/
inductive Reads : (shape : List Nat) → List (K E) → (out : List Nat) → (List Nat → List Nat) → Prop
  | nil : Reads [] [] [] (fun _ => [])
  | newaxis {sh ks out f} : Reads sh ks out f → Reads sh (.none_ :: ks) (1 :: out) (fun ix => f ix.tail)
  | sel {e d os sh ks out f} : S.out e d = some os → Reads sh ks out f →
      Reads (d :: sh) (.sel e :: ks) (os ++ out)
        (fun ix => S.coord e d (ix.take os.length) :: f (ix.drop os.length))
  | ell {mid sh ks out f} : ks.any K.isEll = false → Reads sh ks out f →
      Reads (mid ++ sh) (.ell :: ks) (mid ++ out)
        (fun ix => ix.take mid.length ++ f (ix.drop mid.length))

/-- The same for a desugared index: `:` reads a dimension as it is. -/
inductive PlainReads : (shape : List Nat) → List (NK E) → (out : List Nat) → (List Nat → List Nat) → Prop
  | nil : PlainReads [] [] [] (fun _ => [])
  | full {d sh ks out f} : PlainReads sh ks out f →
      PlainReads (d :: sh) (.full :: ks) (d :: out) (fun ix => ix.headD 0 :: f ix.tail)
  | sel {e d os sh ks out f} : S.out e d = some os → PlainReads sh ks out f →
      PlainReads (d :: sh) (.sel e :: ks) (os ++ out)
        (fun ix => S.coord e d (ix.take os.length) :: f (ix.drop os.length))

/-- The number of `...`. -/
def ells (ks : List (K E)) : Nat := ks.countP K.isEll

/-- Dimensions after the last entry of an index are read in full: an index without `...` has one at its end. -/
def explicit (key : List (K E)) : List (K E) := if ells key = 0 then key ++ [.ell] else key

/-- The number of entries of an array. -/
def size : List Nat → Nat
  | [] => 1
  | d :: sh => d * size sh

/-- The position of an index in row-major order; `reshape` keeps these positions. -/
def flat : List Nat → List Nat → Nat
  | _ :: sh, i :: ix => i * size sh + flat sh ix
  | _, _ => 0

/-- An index within a shape. -/
inductive InRange : List Nat → List Nat → Prop
  | nil : InRange [] []
  | cons {d i sh ix} : i < d → InRange sh ix → InRange (d :: sh) (i :: ix)

/-! ## The result of the loop -/

/-- How shape and index are rewritten. -/
inductive Rewr : List Nat → List (K E) → List Nat → List (NK E) → Prop
  | nil : Rewr [] [] [] []
  | newaxis {sh ks ns nk} : Rewr sh ks ns nk → Rewr sh (.none_ :: ks) (1 :: ns) (.full :: nk)
  | sel {e d sh ks ns nk} : Rewr sh ks ns nk → Rewr (d :: sh) (.sel e :: ks) (d :: ns) (.sel e :: nk)
  | ell {mid sh ks ns nk} : ks.any K.isEll = false → Rewr sh ks ns nk →
      Rewr (mid ++ sh) (.ell :: ks) (mid ++ ns) (List.replicate mid.length .full ++ nk)

/-- The number of selectors. -/
def sels (ks : List (K E)) : Nat := ks.countP K.isSel

omit S in
theorem length_split (ks : List (K E)) (h : ks.any K.isEll = false) : ks.length = extraDims ks + sels ks := by
  induction ks with
  | nil => rfl
  | cons k ks ih =>
    simp only [List.any_cons, Bool.or_eq_false_iff] at h
    have := ih h.2
    unfold extraDims sels at this ⊢
    cases k with
    | none_ => simp [K.isNone, K.isSel, List.countP_cons]; omega
    | ell => simp [K.isEll] at h
    | sel e => simp [K.isNone, K.isSel, List.countP_cons]; omega

/-- The entries of a segment without `...`, given the dimensions it starts at. -/
def fill : List (K E) → List Nat → Option (List Nat × List (NK E))
  | [], _ => some ([], [])
  | .none_ :: ks, sh => (fill ks sh).map (fun p => (1 :: p.1, .full :: p.2))
  | .sel _ :: _, [] => none
  | .sel e :: ks, d :: sh => (fill ks sh).map (fun p => (d :: p.1, .sel e :: p.2))
  | .ell :: _, _ => none

omit S in
theorem pyIndex_nat (l : List Nat) (n : Nat) : pyIndex l (n : Int) = l[n]? := by
  unfold pyIndex
  rw [if_neg (by omega)]
  simp

omit S in
/-- A segment of the loop. -/
theorem loop_segment (shape : List Nat) (key : List (K E)) : ∀ (ks tl done : List (K E)) (ns : List Nat)
    (nk : List (NK E)) (c : Nat), ks.any K.isEll = false → key = done ++ ks ++ tl →
    ns.length = c + extraDims done →
    loop shape key done.length (ks ++ tl) ns nk =
      match fill ks (shape.drop c) with
      | none => none
      | some (a, b) => loop shape key (done.length + ks.length) tl (ns ++ a) (nk ++ b) := by
  intro ks
  induction ks with
  | nil => intro tl done ns nk c _ _ _; simp [fill]
  | cons k ks ih =>
    intro tl done ns nk c hk hkey hlen
    simp only [List.any_cons, Bool.or_eq_false_iff] at hk
    have htake : key.take done.length = done := by rw [hkey]; simp
    cases k with
    | ell => simp [K.isEll] at hk
    | none_ =>
      simp only [List.cons_append, loop, fill]
      have := ih tl (done ++ [.none_]) (ns ++ [1]) (nk ++ [.full]) c hk.2 (by simp [hkey])
        (by simp [extraDims, K.isNone, List.countP_cons] at hlen ⊢; omega)
      simp only [List.length_append, List.length_cons, List.length_nil, Nat.zero_add] at this
      rw [this]
      cases fill ks (shape.drop c) with
      | none => rfl
      | some p =>
        simp only [Option.map_some, List.append_assoc, List.singleton_append, List.length_cons]
        congr 1
        omega
    | sel e =>
      simp only [List.cons_append, loop]
      have hi : ((ns.length : Int) - (extraDims (key.take done.length) : Int)) = (c : Int) := by
        rw [htake]; omega
      rw [hi, pyIndex_nat]
      cases hd : shape.drop c with
      | nil =>
        have : shape[c]? = none := by
          rw [List.getElem?_eq_none]
          have := congrArg List.length hd
          simp at this
          omega
        rw [this]
        rfl
      | cons d sh =>
        have hc : shape[c]? = some d := by
          have := congrArg (fun l => l[0]?) hd
          simpa using this
        have hsh : shape.drop (c + 1) = sh := by
          have := congrArg (List.drop 1) hd
          simpa [List.drop_drop] using this
        rw [hc]
        simp only [fill]
        have := ih tl (done ++ [.sel e]) (ns ++ [d]) (nk ++ [.sel e]) (c + 1) hk.2 (by simp [hkey])
          (by simp [extraDims, K.isNone] at hlen ⊢; omega)
        simp only [List.length_append, List.length_cons, List.length_nil, Nat.zero_add] at this
        rw [this, hsh]
        cases fill ks sh with
        | none => rfl
        | some p =>
        simp only [Option.map_some, List.append_assoc, List.singleton_append, List.length_cons]
        congr 1
        omega

omit S in
theorem fill_some (ks : List (K E)) : ∀ sh, ks.any K.isEll = false → sels ks ≤ sh.length →
    ∃ a b, fill ks sh = some (a, b) ∧ Rewr (sh.take (sels ks)) ks a b ∧ a.length = sels ks + extraDims ks := by
  induction ks with
  | nil => intro sh _ _; exact ⟨[], [], rfl, by simpa [sels] using Rewr.nil, rfl⟩
  | cons k ks ih =>
    intro sh h hl
    simp only [List.any_cons, Bool.or_eq_false_iff] at h
    cases k with
    | ell => simp [K.isEll] at h
    | none_ =>
      have e : sels (.none_ :: ks) = sels ks := by simp [sels, K.isSel]
      have e2 : extraDims (.none_ :: ks) = extraDims ks + 1 := by simp [extraDims, K.isNone, List.countP_cons]
      rw [e] at hl ⊢
      obtain ⟨a, b, h1, h2, h3⟩ := ih sh h.2 hl
      exact ⟨1 :: a, .full :: b, by simp [fill, h1], .newaxis h2, by simp [h3, e2]; omega⟩
    | sel x =>
      have e : sels (.sel x :: ks) = sels ks + 1 := by simp [sels, K.isSel, List.countP_cons]
      have e2 : extraDims (.sel x :: ks) = extraDims ks := by simp [extraDims, K.isNone]
      rw [e] at hl ⊢
      cases sh with
      | nil => simp at hl
      | cons d sh =>
        obtain ⟨a, b, h1, h2, h3⟩ := ih sh h.2 (by simpa using hl)
        exact ⟨d :: a, .sel x :: b, by simp [fill, h1], by simpa using Rewr.sel h2, by simp [h3, e2]; omega⟩

omit S in
theorem fill_none (ks : List (K E)) : ∀ sh, sh.length < sels ks → fill ks sh = none := by
  induction ks with
  | nil => intro sh h; simp [sels] at h
  | cons k ks ih =>
    intro sh h
    cases k with
    | ell => rfl
    | none_ =>
      have e : sels (.none_ :: ks) = sels ks := by simp [sels, K.isSel]
      rw [e] at h
      simp [fill, ih sh h]
    | sel x =>
      have e : sels (.sel x :: ks) = sels ks + 1 := by simp [sels, K.isSel, List.countP_cons]
      rw [e] at h
      cases sh with
      | nil => rfl
      | cons d sh => simp [fill, ih sh (by simpa using h)]

omit S in
theorem Rewr.append {sh1 sh2 ns1 ns2 : List Nat} {ks1 ks2 : List (K E)} {nk1 nk2 : List (NK E)}
    (h1 : Rewr sh1 ks1 ns1 nk1) (h : ks1.any K.isEll = false) (h2 : Rewr sh2 ks2 ns2 nk2) :
    Rewr (sh1 ++ sh2) (ks1 ++ ks2) (ns1 ++ ns2) (nk1 ++ nk2) := by
  induction h1 with
  | nil => exact h2
  | newaxis _ ih => exact .newaxis (ih (by simpa [K.isEll] using h))
  | sel _ ih => exact .sel (ih (by simpa [K.isEll] using h))
  | ell => simp [K.isEll] at h

omit S in
/-- `_desugar_tensor_index` on an index with one `...`. -/
theorem desugar_split (shape : List Nat) (pre post : List (K E)) (h1 : pre.any K.isEll = false)
    (h2 : post.any K.isEll = false) :
    if sels pre + sels post ≤ shape.length then
      ∃ ns nk, loop shape (pre ++ .ell :: post) 0 (pre ++ .ell :: post) [] [] = some (ns, nk) ∧
        Rewr shape (pre ++ .ell :: post) ns nk
    else loop shape (pre ++ .ell :: post) 0 (pre ++ .ell :: post) [] [] = none := by
  have hseg := loop_segment shape (pre ++ .ell :: post) pre (.ell :: post) [] [] [] 0 h1 (by simp) rfl
  simp only [List.length_nil, List.drop_zero, List.nil_append, Nat.zero_add] at hseg
  rw [hseg]
  have hsp := length_split pre h1
  have hsq := length_split post h2
  have hdrop : (pre ++ .ell :: post).drop (pre.length + 1) = post := by
    rw [List.drop_append]
    simp
  have htake : (pre ++ .ell :: post).take pre.length = pre := by simp
  by_cases hp : sels pre ≤ shape.length
  · obtain ⟨a, b, f1, f2, f3⟩ := fill_some pre shape h1 hp
    rw [f1]
    simp only [loop, hdrop, htake, h2, Bool.false_eq_true, if_false]
    generalize hpre : ((pre.length : Int) - (extraDims pre : Int)) = p
    have hp' : p = (sels pre : Int) := by omega
    generalize hel : ((shape.length : Int) - p - (((pre ++ K.ell :: post).length : Int) - (pre.length : Int) - 1 -
      (extraDims post : Int))) = el
    have hel' : el = (shape.length : Int) - sels pre - sels post := by
      simp only [List.length_append, List.length_cons] at hel
      omega
    have hkey : pre ++ K.ell :: post = (pre ++ [K.ell]) ++ post ++ [] := by simp
    have hlen2 : ∀ c2 : Nat, (a ++ pySlice shape p (p + el)).length = c2 + extraDims (pre ++ [K.ell]) →
        loop shape (pre ++ .ell :: post) (pre.length + 1) post (a ++ pySlice shape p (p + el))
          (b ++ List.replicate el.toNat .full) =
        match fill post (shape.drop c2) with
        | none => none
        | some (a', b') => some (a ++ pySlice shape p (p + el) ++ a', b ++ List.replicate el.toNat .full ++ b') := by
      intro c2 hc2
      have := loop_segment shape (pre ++ .ell :: post) post [] (pre ++ [K.ell]) (a ++ pySlice shape p (p + el))
        (b ++ List.replicate el.toNat .full) c2 h2 hkey hc2
      simp only [List.length_append, List.length_cons, List.length_nil, Nat.zero_add, List.append_nil] at this
      rw [this]
      cases fill post (shape.drop c2) with
      | none => rfl
      | some p => simp [loop]
    have hextra : extraDims (pre ++ [K.ell]) = extraDims pre := by simp [extraDims, K.isNone]
    have hc2 := hlen2 (sels pre + (pySlice shape p (p + el)).length)
      (by rw [hextra, List.length_append, f3]; omega)
    rw [hc2]
    by_cases hq : sels pre + sels post ≤ shape.length
    · rw [if_pos hq]
      have hslice : pySlice shape p (p + el) = (shape.drop (sels pre)).take (shape.length - sels pre - sels post) := by
        unfold pySlice pyBound
        have e1 : (p + el) = ((shape.length - sels post : Nat) : Int) := by omega
        rw [e1, hp']
        rw [if_neg (by omega), if_neg (by omega)]
        simp only [Int.toNat_natCast]
        rw [Nat.min_eq_right (by omega), Nat.min_eq_right (by omega), List.drop_take]
        congr 1
        omega
      have hmid : ((shape.drop (sels pre)).take (shape.length - sels pre - sels post)).length =
          shape.length - sels pre - sels post := by simp
      rw [hslice, hmid]
      have hrest : sels post ≤ (shape.drop (sels pre + (shape.length - sels pre - sels post))).length := by
        simp; omega
      obtain ⟨a', b', g1, g2, g3⟩ := fill_some post _ h2 hrest
      rw [g1]
      refine ⟨_, _, rfl, ?_⟩
      have hel2 : el.toNat = ((shape.drop (sels pre)).take (shape.length - sels pre - sels post)).length := by
        rw [hmid]; omega
      rw [hel2]
      have htk : (shape.drop (sels pre + (shape.length - sels pre - sels post))).take (sels post) =
          shape.drop (sels pre + (shape.length - sels pre - sels post)) := by
        apply List.take_of_length_le
        simp; omega
      rw [htk] at g2
      have := Rewr.append f2 h1 (Rewr.ell (mid := (shape.drop (sels pre)).take
        (shape.length - sels pre - sels post)) h2 g2)
      have hshape : shape.take (sels pre) ++ ((shape.drop (sels pre)).take (shape.length - sels pre - sels post) ++
          shape.drop (sels pre + (shape.length - sels pre - sels post))) = shape := by
        rw [← List.drop_drop, List.take_append_drop, List.take_append_drop]
      rw [hshape] at this
      simpa using this
    · rw [if_neg hq]
      rw [fill_none]
      simp only [List.length_drop]
      omega
  · rw [if_neg (by omega)]
    rw [fill_none pre shape (by omega)]

omit S in
theorem exists_first_ell (ks : List (K E)) (h : ks.any K.isEll = true) :
    ∃ pre post, ks = pre ++ .ell :: post ∧ pre.any K.isEll = false := by
  induction ks with
  | nil => simp at h
  | cons k ks ih =>
    cases k with
    | ell => exact ⟨[], ks, rfl, rfl⟩
    | none_ =>
      obtain ⟨pre, post, e, hp⟩ := ih (by simpa [K.isEll] using h)
      exact ⟨.none_ :: pre, post, by rw [e]; rfl, by simpa [K.isEll] using hp⟩
    | sel x =>
      obtain ⟨pre, post, e, hp⟩ := ih (by simpa [K.isEll] using h)
      exact ⟨.sel x :: pre, post, by rw [e]; rfl, by simpa [K.isEll] using hp⟩

omit S in
theorem ells_zero {ks : List (K E)} : ells ks = 0 ↔ ks.any K.isEll = false := by
  unfold ells
  rw [List.countP_eq_zero, List.any_eq_false]

omit S in
theorem withEll_eq (key : List (K E)) : withEll key = explicit key := by
  unfold withEll explicit
  by_cases h : ells key = 0
  · rw [if_pos h, if_neg (by rw [ells_zero.1 h]; simp)]
  · rw [if_neg h, if_pos]
    rw [ells_zero] at h
    simpa using h

omit S in
theorem withEll_split (key : List (K E)) : ∃ pre post, withEll key = pre ++ .ell :: post ∧
    pre.any K.isEll = false ∧ (post.any K.isEll = false ↔ ells key ≤ 1) ∧ sels pre + sels post = sels key := by
  unfold withEll
  by_cases h : key.any K.isEll = true
  · rw [if_pos h]
    obtain ⟨pre, post, e, hp⟩ := exists_first_ell key h
    refine ⟨pre, post, e, hp, ?_, ?_⟩
    · rw [← ells_zero, e]
      have : ells pre = 0 := ells_zero.2 hp
      unfold ells at this ⊢
      rw [List.countP_append, this, List.countP_cons]
      simp [K.isEll]
    · rw [e]; simp [sels, K.isSel]
  · rw [if_neg h]
    have h' : key.any K.isEll = false := by simpa using h
    refine ⟨key, [], rfl, h', ?_, by simp [sels]⟩
    simp [ells_zero.2 h']

omit S in
theorem desugar_rewr (shape : List Nat) (key : List (K E)) :
    if ells key ≤ 1 ∧ sels key ≤ shape.length then
      ∃ ns nk, desugar shape key = some (ns, nk) ∧ Rewr shape (withEll key) ns nk
    else desugar shape key = none := by
  obtain ⟨pre, post, e, h1, h2, h3⟩ := withEll_split key
  unfold desugar
  rw [e]
  by_cases hp : post.any K.isEll = false
  · have := desugar_split shape pre post h1 hp
    rw [h3] at this
    have h4 := h2.1 hp
    by_cases hs : sels key ≤ shape.length
    · rw [if_pos hs] at this
      rw [if_pos ⟨h4, hs⟩]
      exact this
    · rw [if_neg hs] at this
      rw [if_neg (fun h => hs h.2)]
      exact this
  · rw [if_neg (fun h => hp (h2.2 h.1))]
    have hseg := loop_segment shape (pre ++ .ell :: post) pre (.ell :: post) [] [] [] 0 h1 (by simp) rfl
    simp only [List.length_nil, List.drop_zero, List.nil_append, Nat.zero_add] at hseg
    rw [hseg]
    have hdrop : (pre ++ .ell :: post).drop (pre.length + 1) = post := by
      rw [List.drop_append]
      simp
    cases fill pre shape with
    | none => rfl
    | some p =>
      simp only [loop, hdrop]
      rw [if_pos (by simpa using hp)]

/-! ## Meaning -/

theorem reads_length {sh : List Nat} {ks : List (K E)} {out : List Nat} {f : List Nat → List Nat}
    (h : Reads S sh ks out f) : ks.any K.isEll = false → sh.length = sels ks := by
  induction h with
  | nil => intro _; rfl
  | newaxis _ ih => intro h; rw [ih (by simpa [K.isEll] using h)]; simp [sels, K.isSel]
  | sel _ _ ih =>
    intro h
    rw [List.length_cons, ih (by simpa [K.isEll] using h)]; simp [sels, K.isSel, List.countP_cons]
  | ell => intro h; simp [K.isEll] at h

omit S in
theorem rewr_length {sh : List Nat} {ks : List (K E)} {ns : List Nat} {nk : List (NK E)}
    (h : Rewr sh ks ns nk) : ks.any K.isEll = false → sh.length = sels ks := by
  induction h with
  | nil => intro _; rfl
  | newaxis _ ih => intro h; rw [ih (by simpa [K.isEll] using h)]; simp [sels, K.isSel]
  | sel _ ih =>
    intro h
    rw [List.length_cons, ih (by simpa [K.isEll] using h)]; simp [sels, K.isSel, List.countP_cons]
  | ell => intro h; simp [K.isEll] at h

omit S in
theorem size_append (a b : List Nat) : size (a ++ b) = size a * size b := by
  induction a with
  | nil => simp [size]
  | cons d a ih => simp [size, ih, Nat.mul_assoc]

omit S in
theorem rewr_size {sh : List Nat} {ks : List (K E)} {ns : List Nat} {nk : List (NK E)}
    (h : Rewr sh ks ns nk) : size ns = size sh := by
  induction h with
  | nil => rfl
  | newaxis _ ih => simp [size, ih]
  | sel _ ih => simp [size, ih]
  | ell _ _ ih => simp [size_append, ih]

omit S in
theorem rewr_new_length {sh : List Nat} {ks : List (K E)} {ns : List Nat} {nk : List (NK E)}
    (h : Rewr sh ks ns nk) : nk.length = ns.length := by
  induction h with
  | nil => rfl
  | newaxis _ ih => simp [ih]
  | sel _ ih => simp [ih]
  | ell _ _ ih => simp [ih]

omit S in
theorem InRange.length {sh ix : List Nat} (h : InRange sh ix) : ix.length = sh.length := by
  induction h with
  | nil => rfl
  | cons _ _ ih => simp [ih]

omit S in
theorem InRange.drop {a b ix : List Nat} (h : InRange (a ++ b) ix) : InRange b (ix.drop a.length) := by
  induction a generalizing ix with
  | nil => simpa using h
  | cons d a ih =>
    cases h with
    | cons _ h => simpa using ih h

omit S in
theorem InRange.take {a b ix : List Nat} (h : InRange (a ++ b) ix) : InRange a (ix.take a.length) := by
  induction a generalizing ix with
  | nil => simp; exact .nil
  | cons d a ih =>
    cases h with
    | cons hi h => exact .cons hi (ih h)

omit S in
theorem flat_append : ∀ (a b x y : List Nat), x.length = a.length →
    flat (a ++ b) (x ++ y) = flat a x * size b + flat b y := by
  intro a b
  induction a with
  | nil =>
    intro x y h
    have : x = [] := List.length_eq_zero_iff.1 h
    subst this
    simp [flat]
  | cons d a ih =>
    intro x y h
    cases x with
    | nil => simp at h
    | cons i x =>
      simp only [List.cons_append, flat, ih x y (by simpa using h), size_append, Nat.add_mul, Nat.mul_assoc,
        Nat.add_assoc]

/-- Full slices read a block of dimensions as it is. -/
theorem plain_full {sh : List Nat} {ks : List (NK E)} {out : List Nat} {f : List Nat → List Nat}
    (h : PlainReads S sh ks out f) : ∀ mid : List Nat, ∃ f', PlainReads S (mid ++ sh)
      (List.replicate mid.length .full ++ ks) (mid ++ out) f' ∧
      ∀ ix, mid.length ≤ ix.length → f' ix = ix.take mid.length ++ f (ix.drop mid.length) := by
  intro mid
  induction mid with
  | nil => exact ⟨f, h, fun ix _ => by simp⟩
  | cons d mid ih =>
    obtain ⟨f', h1, h2⟩ := ih
    refine ⟨_, .full h1, ?_⟩
    intro ix hx
    cases ix with
    | nil => simp at hx
    | cons i ix => simp [h2 ix (by simpa using hx)]

theorem plain_full_inv {ks : List (NK E)} : ∀ (mid : List Nat) {sh out : List Nat} {f : List Nat → List Nat},
    PlainReads S (mid ++ sh) (List.replicate mid.length .full ++ ks) out f →
    ∃ out' f', out = mid ++ out' ∧ PlainReads S sh ks out' f' ∧
      ∀ ix, mid.length ≤ ix.length → f ix = ix.take mid.length ++ f' (ix.drop mid.length) := by
  intro mid
  induction mid with
  | nil => intro sh out f h; exact ⟨out, f, rfl, h, fun ix _ => by simp⟩
  | cons d mid ih =>
    intro sh out f h
    simp only [List.length_cons, List.replicate_succ, List.cons_append] at h
    cases h with
    | full h =>
      obtain ⟨out', f', e, h1, h2⟩ := ih h
      subst e
      refine ⟨out', f', rfl, h1, ?_⟩
      intro ix hx
      cases ix with
      | nil => simp at hx
      | cons i ix => simp [h2 ix (by simpa using hx)]

theorem reads_nil {sh out : List Nat} {f : List Nat → List Nat} (h : Reads S sh [] out f) :
    out = [] ∧ f = fun _ => [] := by
  cases h
  exact ⟨rfl, rfl⟩

theorem reads_sel {d : Nat} {sh out : List Nat} {e : E} {ks : List (K E)} {f : List Nat → List Nat}
    (h : Reads S (d :: sh) (.sel e :: ks) out f) :
    ∃ os out' f', S.out e d = some os ∧ Reads S sh ks out' f' ∧ out = os ++ out' ∧
      f = fun ix => S.coord e d (ix.take os.length) :: f' (ix.drop os.length) := by
  generalize hsh : d :: sh = sh' at h
  cases h with
  | sel hs hr =>
    cases hsh
    exact ⟨_, _, _, hs, hr, rfl, rfl⟩

theorem rewr_reads {sh : List Nat} {ks : List (K E)} {ns : List Nat} {nk : List (NK E)}
    (h : Rewr sh ks ns nk) : ∀ {out f}, Reads S sh ks out f →
    ∃ f', PlainReads S ns nk out f' ∧ ∀ ix, InRange out ix → flat ns (f' ix) = flat sh (f ix) := by
  induction h with
  | nil =>
    intro out f hr
    obtain ⟨rfl, rfl⟩ := reads_nil S hr
    exact ⟨_, .nil, fun _ _ => rfl⟩
  | newaxis hw ih =>
    intro out f hr
    cases hr with
    | newaxis hr =>
      obtain ⟨f', h1, h2⟩ := ih hr
      refine ⟨_, .full h1, ?_⟩
      intro ix hx
      cases hx with
      | cons hi hx =>
        simp only [flat, List.headD_cons, List.tail_cons, h2 _ hx]
        have : ∀ i : Nat, i < 1 → i = 0 := by omega
        rw [this _ hi]
        simp
  | sel hw ih =>
    intro out f hr
    obtain ⟨os, out', f0, hs, hr', rfl, rfl⟩ := reads_sel S hr
    obtain ⟨f', h1, h2⟩ := ih hr'
    refine ⟨_, .sel hs h1, ?_⟩
    intro ix hx
    simp only [flat, h2 _ hx.drop, rewr_size hw]
  | @ell mid sh0 ks ns nk he hw ih =>
    intro out f hr
    generalize hsh : mid ++ sh0 = sh at hr
    cases hr with
    | @ell mid' sh' _ out' f0 he' hr =>
      have hl : sh0.length = sh'.length := (rewr_length hw he).trans (reads_length S hr he).symm
      obtain ⟨e1, e2⟩ := List.append_inj' hsh hl
      subst e1
      subst e2
      obtain ⟨f', h1, h2⟩ := ih hr
      obtain ⟨f'', g1, g2⟩ := plain_full S h1 mid
      refine ⟨f'', g1, ?_⟩
      intro ix hx
      have hlen := hx.length
      simp only [List.length_append] at hlen
      have htk : (ix.take mid.length).length = mid.length := by simp; omega
      rw [g2 ix (by omega), flat_append _ _ _ _ htk, flat_append _ _ _ _ htk, h2 _ hx.drop, rewr_size hw]

theorem rewr_reads' {sh : List Nat} {ks : List (K E)} {ns : List Nat} {nk : List (NK E)}
    (h : Rewr sh ks ns nk) : ∀ {out f'}, PlainReads S ns nk out f' →
    ∃ f, Reads S sh ks out f ∧ ∀ ix, InRange out ix → flat ns (f' ix) = flat sh (f ix) := by
  induction h with
  | nil =>
    intro out f hr
    cases hr
    exact ⟨_, .nil, fun _ _ => rfl⟩
  | newaxis hw ih =>
    intro out f' hr
    cases hr with
    | full hr =>
      obtain ⟨f, h1, h2⟩ := ih hr
      refine ⟨_, .newaxis h1, ?_⟩
      intro ix hx
      cases hx with
      | cons hi hx =>
        simp only [flat, List.headD_cons, List.tail_cons, h2 _ hx]
        have : ∀ i : Nat, i < 1 → i = 0 := by omega
        rw [this _ hi]
        simp
  | sel hw ih =>
    intro out f' hr
    cases hr with
    | sel hs hr =>
      obtain ⟨f, h1, h2⟩ := ih hr
      refine ⟨_, .sel hs h1, ?_⟩
      intro ix hx
      simp only [flat, h2 _ hx.drop, rewr_size hw]
  | @ell mid sh0 ks ns nk he hw ih =>
    intro out f' hr
    obtain ⟨out', g, e, h1, h2⟩ := plain_full_inv S mid hr
    subst e
    obtain ⟨f, h3, h4⟩ := ih h1
    refine ⟨_, .ell he h3, ?_⟩
    intro ix hx
    have hlen := hx.length
    simp only [List.length_append] at hlen
    have htk : (ix.take mid.length).length = mid.length := by simp; omega
    rw [h2 ix (by omega), flat_append _ _ _ _ htk, flat_append _ _ _ _ htk, h4 _ hx.drop, rewr_size hw]

/-! ## Theorems -/

omit S in
/-- Exactly the indices with at most one `...` and no more selectors than dimensions are accepted. -/
theorem C36_accepts (shape : List Nat) (key : List (K E)) :
    (∃ r, desugar shape key = some r) ↔ ells key ≤ 1 ∧ sels key ≤ shape.length := by
  have h := desugar_rewr shape key
  by_cases hc : ells key ≤ 1 ∧ sels key ≤ shape.length
  · rw [if_pos hc] at h
    obtain ⟨ns, nk, h, _⟩ := h
    exact ⟨fun _ => hc, fun _ => ⟨_, h⟩⟩
  · rw [if_neg hc] at h
    rw [h]
    exact ⟨fun he => (by obtain ⟨_, e⟩ := he; cases e), fun h => absurd h hc⟩

omit S in
/-- The new shape has the same number of entries, so the reshape succeeds. -/
theorem C36_reshape {shape : List Nat} {key : List (K E)} {ns : List Nat} {nk : List (NK E)}
    (h : desugar shape key = some (ns, nk)) : size ns = size shape ∧ nk.length = ns.length := by
  have hd := desugar_rewr shape key
  split at hd
  · obtain ⟨ns', nk', h', hr⟩ := hd
    rw [h] at h'
    cases h'
    exact ⟨rewr_size hr, rewr_new_length hr⟩
  · rw [h] at hd; cases hd

/-- Indexing the reshaped array with the new index gives the same shape and, at each position, the same entry
of the array (in row-major order) as the original index; missing trailing dimensions are read in full. -/
theorem C36_meaning {shape : List Nat} {key : List (K E)} {ns : List Nat} {nk : List (NK E)}
    (h : desugar shape key = some (ns, nk)) :
    (∀ out f, Reads S shape (explicit key) out f → ∃ f', PlainReads S ns nk out f' ∧
      ∀ ix, InRange out ix → flat ns (f' ix) = flat shape (f ix)) ∧
    (∀ out f', PlainReads S ns nk out f' → ∃ f, Reads S shape (explicit key) out f ∧
      ∀ ix, InRange out ix → flat ns (f' ix) = flat shape (f ix)) := by
  have hd := desugar_rewr shape key
  split at hd
  · obtain ⟨ns', nk', h', hr⟩ := hd
    rw [h] at h'
    cases h'
    rw [withEll_eq] at hr
    exact ⟨fun _ _ => rewr_reads S hr, fun _ _ => rewr_reads' S hr⟩
  · rw [h] at hd; cases hd

/-! ## Examples -/

/-- Ints and slices `a:b`. -/
inductive Ex where
  | int (i : Nat)
  | slice (a b : Nat)

def exS : Selectors Ex where
  out
    | .int i, d => if i < d then some [] else none
    | .slice a b, d => some [min b d - a]
  coord
    | .int i, _, _ => i
    | .slice a _, _, ix => a + ix.headD 0

/-- `x[None, 1, ..., 0:2]` for `x` of shape `(2, 3, 4, 5)`. -/
example : desugar [2, 3, 4, 5] [.none_, .sel (.int 1), .ell, .sel (.slice 0 2)]
    = some ([1, 2, 3, 4, 5], [.full, .sel (.int 1), .full, .full, .sel (Ex.slice 0 2)]) := rfl

/-- Its meaning: shape `(1, 3, 4, 2)`. -/
example : ∃ f, Reads exS [2, 3, 4, 5] [.none_, .sel (.int 1), .ell, .sel (.slice 0 2)] [1, 3, 4, 2] f ∧
    f [0, 2, 3, 1] = [1, 2, 3, 1] :=
  ⟨_, .newaxis (.sel (os := []) rfl (.ell (mid := [3, 4]) (sh := [5]) rfl (.sel (os := [2]) rfl .nil))), rfl⟩

example : flat [2, 3, 4, 5] [1, 2, 3, 1] = flat [1, 2, 3, 4, 5] [0, 1, 2, 3, 1] := rfl

/-- Too many entries, and two `...`. -/
example : desugar [2] [.ell, .sel (Ex.int 0), .sel (.int 0)] = none ∧
    desugar [2, 3] [.ell, .sel (Ex.int 0), .ell] = none := ⟨rfl, rfl⟩

end Verif.Indexed.Desugar
