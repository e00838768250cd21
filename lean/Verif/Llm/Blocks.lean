/-!
# C45: content blocks

Model of `to_content_blocks` (`handlers/llm/encoding.py` 64-111).

* Text is a list of code points. `json.dumps` of strings and of numbers, booleans and `null` is arbitrary.
* The validation of the returned list (`validate_return=True`) is an arbitrary function of the extracted objects: it
  rejects an object, or makes it a block.
-/

namespace Verif.Llm

/-- Text. -/
abbrev Text := List Nat

/-- Encoded values. Numbers, booleans and `null` are atoms. -/
inductive Json where
  | str (t : Text)
  | atom (n : Nat)
  | arr (l : List Json)
  | obj (l : List (Text × Json))

/-- A content block: text, or another kind given by its object. -/
inductive Block where
  | text (t : Text)
  | other (v : Json)

/-- `json.dumps` of the parts, the content block types, and the validation of an extracted object. -/
structure Dump where
  str : Text → Text
  atom : Nat → Text
  isType : Text → Bool
  check : List (Text × Json) → Option Block

/-- `"type"`. -/
def typeKey : Text := [116, 121, 112, 101]

/-- Errors: the value of `"type"` cannot be hashed, or a block is not valid. -/
inductive BlockErr where
  | unhashable
  | invalid
deriving DecidableEq

/-- `v.get("type") in CONTENT_BLOCK_TYPES` (88). -/
def blockShaped (D : Dump) (l : List (Text × Json)) : Except BlockErr Bool :=
  match l.lookup typeKey with
  | none => .ok false
  | some (.str t) => .ok (D.isType t)
  | some (.atom _) => .ok false
  | some (.arr _) => .error .unhashable
  | some (.obj _) => .error .unhashable

/-- `buf` and `blocks` (79-80). -/
structure Walk where
  buf : List Text
  blocks : List Block

/-- `flush()` (82-85). -/
def Walk.flush (s : Walk) : Walk :=
  if s.buf.isEmpty then s else ⟨[], s.blocks ++ [.text s.buf.flatten]⟩

/-- `buf.append(t)`. -/
def Walk.add (s : Walk) (t : Text) : Walk := ⟨s.buf ++ [t], s.blocks⟩

mutual

/-- `walk(v)` (87-107). -/
def walk (D : Dump) : Json → Walk → Except BlockErr Walk
  | .obj l, s =>
    match blockShaped D l with
    | .error e => .error e
    | .ok true =>
      match D.check l with
      | none => .error .invalid
      | some b => .ok ⟨s.flush.buf, s.flush.blocks ++ [b]⟩
    | .ok false =>
      match walkItems D true l (s.add [123]) with
      | .error e => .error e
      | .ok s => .ok (s.add [125])
  | .arr l, s =>
    match walkList D true l (s.add [91]) with
    | .error e => .error e
    | .ok s => .ok (s.add [93])
  | .str t, s => .ok (s.add (D.str t))
  | .atom n, s => .ok (s.add (D.atom n))
termination_by structural v => v

/-- The loop over the items of a list (101-104). -/
def walkList (D : Dump) : Bool → List Json → Walk → Except BlockErr Walk
  | _, [], s => .ok s
  | first, v :: l, s =>
    match walk D v (if first then s else s.add [44, 32]) with
    | .error e => .error e
    | .ok s => walkList D false l s
termination_by structural _ l => l

/-- The loop over the items of an object (93-97). -/
def walkItems (D : Dump) : Bool → List (Text × Json) → Walk → Except BlockErr Walk
  | _, [], s => .ok s
  | first, x :: l, s =>
    match walkItem D x (if first then s else s.add [44, 32]) with
    | .error e => .error e
    | .ok s => walkItems D false l s
termination_by structural _ l => l

/-- The body of that loop. -/
def walkItem (D : Dump) : Text × Json → Walk → Except BlockErr Walk
  | (k, v), s => walk D v (s.add (D.str k ++ [58, 32]))
termination_by structural x => x

end

/-- `to_content_blocks(value)`. -/
def toContentBlocks (D : Dump) : Json → Except BlockErr (List Block)
  | .str t => .ok [.text t]
  | v =>
    match walk D v ⟨[], []⟩ with
    | .error e => .error e
    | .ok s => .ok s.flush.blocks

/-! ## What is stated -/

mutual

/-- `json.dumps(v)`. -/
def dumps (D : Dump) : Json → Text
  | .str t => D.str t
  | .atom n => D.atom n
  | .arr l => [91] ++ [44, 32].intercalate (dumpsList D l) ++ [93]
  | .obj l => [123] ++ [44, 32].intercalate (dumpsItems D l) ++ [125]
termination_by structural v => v

def dumpsList (D : Dump) : List Json → List Text
  | [] => []
  | v :: l => dumps D v :: dumpsList D l
termination_by structural l => l

def dumpsItems (D : Dump) : List (Text × Json) → List Text
  | [] => []
  | x :: l => dumpsItem D x :: dumpsItems D l
termination_by structural l => l

def dumpsItem (D : Dump) : Text × Json → Text
  | (k, v) => D.str k ++ [58, 32] ++ dumps D v
termination_by structural x => x

end

/-- Whether an object is one of the content blocks. -/
def IsBlock (D : Dump) (l : List (Text × Json)) : Prop := ∃ t, l.lookup typeKey = some (.str t) ∧ D.isType t = true

mutual

/-- The outermost objects that are content blocks, in order (`Outer v bs`). -/
inductive Outer (D : Dump) : Json → List Json → Prop where
  | str (t : Text) : Outer D (.str t) []
  | atom (n : Nat) : Outer D (.atom n) []
  | block (l : List (Text × Json)) : IsBlock D l → Outer D (.obj l) [.obj l]
  | obj (l : List (Text × Json)) (bs : List Json) : ¬ IsBlock D l → OuterList D (l.map Prod.snd) bs → Outer D (.obj l) bs
  | arr (l : List Json) (bs : List Json) : OuterList D l bs → Outer D (.arr l) bs

/-- The same for several values. -/
inductive OuterList (D : Dump) : List Json → List Json → Prop where
  | nil : OuterList D [] []
  | cons (v : Json) (l b bs : List Json) : Outer D v b → OuterList D l bs → OuterList D (v :: l) (b ++ bs)

end

/-- The concatenation of blocks. -/
def linear (D : Dump) (bs : List Block) : Text :=
  (bs.map (fun b => match b with | .text t => t | .other v => dumps D v)).flatten

mutual

/-- No object has a list or an object as its `"type"`; and all objects that are content blocks, where extracted, are
taken over as they are, and are not text. -/
def Faithful (D : Dump) : Json → Prop
  | .str _ => True
  | .atom _ => True
  | .arr l => FaithfulList D l
  | .obj l => (IsBlock D l → D.check l = some (.other (.obj l))) ∧ (¬ IsBlock D l → FaithfulItems D l) ∧
      (∀ x, l.lookup typeKey ≠ some (.arr x)) ∧ ∀ x, l.lookup typeKey ≠ some (.obj x)
termination_by structural v => v

def FaithfulList (D : Dump) : List Json → Prop
  | [] => True
  | v :: l => Faithful D v ∧ FaithfulList D l
termination_by structural l => l

def FaithfulItems (D : Dump) : List (Text × Json) → Prop
  | [] => True
  | x :: l => FaithfulItem D x ∧ FaithfulItems D l
termination_by structural l => l

def FaithfulItem (D : Dump) : Text × Json → Prop
  | (_, v) => Faithful D v
termination_by structural x => x

end

/-! ## Proofs -/

/-- The text written so far. -/
def Walk.content (D : Dump) (s : Walk) : Text := linear D s.blocks ++ s.buf.flatten

theorem linear_append (D : Dump) (a b : List Block) : linear D (a ++ b) = linear D a ++ linear D b := by
  simp [linear]

theorem Walk.content_add (D : Dump) (s : Walk) (t : Text) : (s.add t).content D = s.content D ++ t := by
  simp [Walk.content, Walk.add]

theorem Walk.content_flush (D : Dump) (s : Walk) : s.flush.content D = s.content D := by
  unfold Walk.flush
  split
  · rfl
  · simp [Walk.content, linear]

theorem blockShaped_true {D : Dump} {l : List (Text × Json)} (h : blockShaped D l = .ok true) : IsBlock D l := by
  unfold blockShaped at h
  split at h
  · cases h
  · rename_i t ht
    exact ⟨t, ht, by injection h⟩
  · cases h
  · cases h
  · cases h

theorem blockShaped_false {D : Dump} {l : List (Text × Json)} (h : blockShaped D l = .ok false) : ¬ IsBlock D l := by
  rintro ⟨t, h1, h2⟩
  unfold blockShaped at h
  rw [h1] at h
  injection h with h
  rw [h2] at h
  cases h

theorem Walk.flush_buf (s : Walk) : s.flush.buf = [] := by
  unfold Walk.flush
  split
  · rename_i h; simpa using h
  · rfl

/-- The separator in front of an item. -/
def sep (first : Bool) : Text := if first then [] else [44, 32]

theorem content_sep (D : Dump) (s : Walk) (first : Bool) :
    (if first then s else s.add [44, 32]).content D = s.content D ++ sep first := by
  cases first
  · simp [sep, Walk.content_add]
  · simp [sep]

/-- Items with separators between them. -/
def joined (first : Bool) : List Text → Text
  | [] => []
  | t :: l => sep first ++ t ++ joined false l

theorem joined_false (l : List Text) (t : Text) :
    t ++ joined false l = [44, 32].intercalate (t :: l) := by
  induction l generalizing t with
  | nil => simp [joined, List.intercalate]
  | cons u l ih =>
    rw [joined]
    have := ih u
    simp only [sep, Bool.false_eq_true, if_false] at *
    rw [List.append_assoc, this]
    simp [List.intercalate]

theorem joined_true (l : List Text) : joined true l = [44, 32].intercalate l := by
  cases l with
  | nil => simp [joined, List.intercalate]
  | cons t l =>
    rw [joined]
    simp only [sep, if_true, List.nil_append]
    exact joined_false l t

mutual

theorem walk_content (D : Dump) : ∀ (v : Json) (s s' : Walk), Faithful D v → walk D v s = .ok s' →
    s'.content D = s.content D ++ dumps D v
  | .str t, s, s', _, h => by
    rw [walk] at h; cases h; rw [Walk.content_add, dumps]
  | .atom n, s, s', _, h => by
    rw [walk] at h; cases h; rw [Walk.content_add, dumps]
  | .arr l, s, s', hf, h => by
    rw [walk] at h
    cases hw : walkList D true l (s.add [91]) with
    | error e => rw [hw] at h; cases h
    | ok s₁ =>
      rw [hw] at h; cases h
      rw [Faithful] at hf
      rw [Walk.content_add, walkList_content D l true _ _ hf hw, Walk.content_add, joined_true, dumps]
      simp
  | .obj l, s, s', hf, h => by
    rw [walk] at h
    rw [Faithful] at hf
    cases hb : blockShaped D l with
    | error e => rw [hb] at h; cases h
    | ok b =>
      rw [hb] at h
      cases b with
      | true =>
        simp only at h
        rw [hf.1 (blockShaped_true hb)] at h
        cases h
        have := Walk.content_flush D s
        unfold Walk.content at this ⊢
        simp only
        rw [Walk.flush_buf] at this ⊢
        rw [linear_append, ← this]
        simp [linear]
      | false =>
        simp only at h
        cases hw : walkItems D true l (s.add [123]) with
        | error e => rw [hw] at h; cases h
        | ok s₁ =>
          rw [hw] at h; cases h
          rw [Walk.content_add, walkItems_content D l true _ _ (hf.2.1 (blockShaped_false hb)) hw, Walk.content_add,
            joined_true, dumps]
          simp
termination_by structural v => v

theorem walkList_content (D : Dump) : ∀ (l : List Json) (first : Bool) (s s' : Walk), FaithfulList D l →
    walkList D first l s = .ok s' → s'.content D = s.content D ++ joined first (dumpsList D l)
  | [], first, s, s', _, h => by
    rw [walkList] at h; cases h; simp [dumpsList, joined]
  | v :: l, first, s, s', hf, h => by
    rw [walkList] at h
    rw [FaithfulList] at hf
    cases hw : walk D v (if first then s else s.add [44, 32]) with
    | error e => rw [hw] at h; cases h
    | ok s₁ =>
      rw [hw] at h
      rw [walkList_content D l false _ _ hf.2 h, walk_content D v _ _ hf.1 hw, content_sep, dumpsList, joined]
      simp
termination_by structural l => l

theorem walkItems_content (D : Dump) : ∀ (l : List (Text × Json)) (first : Bool) (s s' : Walk), FaithfulItems D l →
    walkItems D first l s = .ok s' → s'.content D = s.content D ++ joined first (dumpsItems D l)
  | [], first, s, s', _, h => by
    rw [walkItems] at h; cases h; simp [dumpsItems, joined]
  | x :: l, first, s, s', hf, h => by
    rw [walkItems] at h
    rw [FaithfulItems] at hf
    cases hw : walkItem D x (if first then s else s.add [44, 32]) with
    | error e => rw [hw] at h; cases h
    | ok s₁ =>
      rw [hw] at h
      rw [walkItems_content D l false _ _ hf.2 h, walkItem_content D x _ _ hf.1 hw, content_sep, dumpsItems, joined]
      simp
termination_by structural l => l

theorem walkItem_content (D : Dump) : ∀ (x : Text × Json) (s s' : Walk), FaithfulItem D x →
    walkItem D x s = .ok s' → s'.content D = s.content D ++ dumpsItem D x
  | (k, v), s, s', hf, h => by
    rw [walkItem] at h
    rw [FaithfulItem] at hf
    rw [walk_content D v _ _ hf h, Walk.content_add, dumpsItem]
    simp
termination_by structural x => x

end

theorem blockShaped_ok {D : Dump} {l : List (Text × Json)}
    (h : (∀ x, l.lookup typeKey ≠ some (.arr x)) ∧ ∀ x, l.lookup typeKey ≠ some (.obj x)) :
    ∃ b, blockShaped D l = .ok b := by
  unfold blockShaped
  split
  · exact ⟨_, rfl⟩
  · exact ⟨_, rfl⟩
  · exact ⟨_, rfl⟩
  · rename_i x hx; exact absurd hx (h.1 x)
  · rename_i x hx; exact absurd hx (h.2 x)

mutual

theorem walk_ok (D : Dump) : ∀ (v : Json) (s : Walk), Faithful D v → ∃ s', walk D v s = .ok s'
  | .str t, s, _ => ⟨_, by rw [walk]⟩
  | .atom n, s, _ => ⟨_, by rw [walk]⟩
  | .arr l, s, hf => by
    rw [Faithful] at hf
    obtain ⟨s₁, h⟩ := walkList_ok D l true (s.add [91]) hf
    exact ⟨_, by rw [walk, h]⟩
  | .obj l, s, hf => by
    rw [Faithful] at hf
    obtain ⟨b, hb⟩ := blockShaped_ok (D := D) hf.2.2
    cases b with
    | true => exact ⟨_, by rw [walk, hb]; simp only; rw [hf.1 (blockShaped_true hb)]⟩
    | false =>
      obtain ⟨s₁, h⟩ := walkItems_ok D l true (s.add [123]) (hf.2.1 (blockShaped_false hb))
      exact ⟨_, by rw [walk, hb]; simp only; rw [h]⟩
termination_by structural v => v

theorem walkList_ok (D : Dump) : ∀ (l : List Json) (first : Bool) (s : Walk), FaithfulList D l →
    ∃ s', walkList D first l s = .ok s'
  | [], first, s, _ => ⟨_, by rw [walkList]⟩
  | v :: l, first, s, hf => by
    rw [FaithfulList] at hf
    obtain ⟨s₁, h⟩ := walk_ok D v (if first then s else s.add [44, 32]) hf.1
    obtain ⟨s₂, h₂⟩ := walkList_ok D l false s₁ hf.2
    exact ⟨s₂, by rw [walkList, h]; exact h₂⟩
termination_by structural l => l

theorem walkItems_ok (D : Dump) : ∀ (l : List (Text × Json)) (first : Bool) (s : Walk), FaithfulItems D l →
    ∃ s', walkItems D first l s = .ok s'
  | [], first, s, _ => ⟨_, by rw [walkItems]⟩
  | x :: l, first, s, hf => by
    rw [FaithfulItems] at hf
    obtain ⟨s₁, h⟩ := walkItem_ok D x (if first then s else s.add [44, 32]) hf.1
    obtain ⟨s₂, h₂⟩ := walkItems_ok D l false s₁ hf.2
    exact ⟨s₂, by rw [walkItems, h]; exact h₂⟩
termination_by structural l => l

theorem walkItem_ok (D : Dump) : ∀ (x : Text × Json) (s : Walk), FaithfulItem D x → ∃ s', walkItem D x s = .ok s'
  | (k, v), s, hf => by
    rw [FaithfulItem] at hf
    obtain ⟨s₁, h⟩ := walk_ok D v (s.add (D.str k ++ [58, 32])) hf
    exact ⟨s₁, by rw [walkItem]; exact h⟩
termination_by structural x => x

end

/-- The conversion succeeds for such values. -/
theorem C45_defined_partial (D : Dump) (v : Json) (hf : Faithful D v) : ∃ bs, toContentBlocks D v = .ok bs := by
  unfold toContentBlocks
  split
  · exact ⟨_, rfl⟩
  · obtain ⟨s, h⟩ := walk_ok D v ⟨[], []⟩ hf
    rw [h]; exact ⟨_, rfl⟩

/-- The blocks of a value that is not a string give its JSON text, if no text blocks are extracted from it. -/
theorem C45_linear_partial (D : Dump) (v : Json) (hs : ∀ t, v ≠ .str t) (hf : Faithful D v) (bs : List Block)
    (h : toContentBlocks D v = .ok bs) : linear D bs = dumps D v := by
  have hw : ∃ s, walk D v ⟨[], []⟩ = .ok s ∧ bs = s.flush.blocks := by
    unfold toContentBlocks at h
    split at h
    · rename_i t; exact absurd rfl (hs t)
    · cases hw : walk D v ⟨[], []⟩ with
      | error e => rw [hw] at h; cases h
      | ok s => rw [hw] at h; cases h; exact ⟨s, rfl, rfl⟩
  obtain ⟨s, hw, rfl⟩ := hw
  have h1 := walk_content D v _ _ hf hw
  have h2 := Walk.content_flush D s
  unfold Walk.content at h2
  rw [Walk.flush_buf] at h2
  simp only [List.flatten_nil, List.append_nil] at h2
  rw [h2]
  show s.content D = _
  rw [h1]
  simp [Walk.content, linear]

/-- A string is one text block with the text itself. -/
theorem C45_string (D : Dump) (t : Text) : toContentBlocks D (.str t) = .ok [.text t] := rfl

/-! ## Which blocks are extracted -/

/-- The objects among blocks. -/
def others (bs : List Block) : List Json := bs.filterMap (fun b => match b with | .text _ => none | .other v => some v)

/-- No two texts in a row, and none at the end. -/
inductive Alternating : List Block → Prop where
  | nil : Alternating []
  | other (v : Json) (bs : List Block) : Alternating bs → Alternating (bs ++ [.other v])
  | text (t : Text) (v : Json) (bs : List Block) : Alternating bs → Alternating (bs ++ [.text t, .other v])

theorem others_append (a b : List Block) : others (a ++ b) = others a ++ others b := by
  simp [others]

theorem Walk.others_flush (s : Walk) : others s.flush.blocks = others s.blocks := by
  unfold Walk.flush
  split
  · rfl
  · simp [others]

/-- What walking does to the extracted objects. -/
def Extracts (s s' : Walk) (bs : List Json) : Prop :=
  others s'.blocks = others s.blocks ++ bs ∧ (Alternating s.blocks → Alternating s'.blocks)

theorem Extracts.trans {s₁ s₂ s₃ : Walk} {a b : List Json} (h : Extracts s₁ s₂ a) (k : Extracts s₂ s₃ b) :
    Extracts s₁ s₃ (a ++ b) :=
  ⟨by rw [k.1, h.1, List.append_assoc], fun x => k.2 (h.2 x)⟩

theorem Extracts.add (s : Walk) (t : Text) : Extracts s (s.add t) [] := ⟨by simp [Walk.add], fun h => h⟩

theorem Extracts.sep (s : Walk) (first : Bool) : Extracts s (if first then s else s.add [44, 32]) [] := by
  cases first
  · exact Extracts.add s _
  · exact ⟨by simp, fun h => h⟩

mutual

theorem walk_outer (D : Dump) : ∀ (v : Json) (s s' : Walk), Faithful D v → walk D v s = .ok s' →
    ∃ bs, Outer D v bs ∧ Extracts s s' bs
  | .str t, s, s', _, h => by
    rw [walk] at h; cases h; exact ⟨[], .str t, .add _ _⟩
  | .atom n, s, s', _, h => by
    rw [walk] at h; cases h; exact ⟨[], .atom n, .add _ _⟩
  | .arr l, s, s', hf, h => by
    rw [walk] at h
    cases hw : walkList D true l (s.add [91]) with
    | error e => rw [hw] at h; cases h
    | ok s₁ =>
      rw [hw] at h; cases h
      rw [Faithful] at hf
      obtain ⟨bs, h1, h2⟩ := walkList_outer D l true _ _ hf hw
      refine ⟨bs, .arr l bs h1, ?_⟩
      have := ((Extracts.add s [91]).trans h2).trans (Extracts.add s₁ [93])
      simpa using this
  | .obj l, s, s', hf, h => by
    rw [walk] at h
    rw [Faithful] at hf
    cases hb : blockShaped D l with
    | error e => rw [hb] at h; cases h
    | ok b =>
      rw [hb] at h
      cases b with
      | true =>
        simp only at h
        rw [hf.1 (blockShaped_true hb)] at h
        cases h
        refine ⟨[.obj l], .block l (blockShaped_true hb), ?_, ?_⟩
        · rw [others_append, Walk.others_flush]; rfl
        · intro ha
          show Alternating (s.flush.blocks ++ [.other (.obj l)])
          unfold Walk.flush
          split
          · exact .other _ _ ha
          · simp only [List.append_assoc]
            exact .text _ _ _ ha
      | false =>
        simp only at h
        cases hw : walkItems D true l (s.add [123]) with
        | error e => rw [hw] at h; cases h
        | ok s₁ =>
          rw [hw] at h; cases h
          obtain ⟨bs, h1, h2⟩ := walkItems_outer D l true _ _ (hf.2.1 (blockShaped_false hb)) hw
          refine ⟨bs, .obj l bs (blockShaped_false hb) h1, ?_⟩
          have := ((Extracts.add s [123]).trans h2).trans (Extracts.add s₁ [125])
          simpa using this
termination_by structural v => v

theorem walkList_outer (D : Dump) : ∀ (l : List Json) (first : Bool) (s s' : Walk), FaithfulList D l →
    walkList D first l s = .ok s' → ∃ bs, OuterList D l bs ∧ Extracts s s' bs
  | [], first, s, s', _, h => by
    rw [walkList] at h; cases h; exact ⟨[], .nil, by simp [Extracts]⟩
  | v :: l, first, s, s', hf, h => by
    rw [walkList] at h
    rw [FaithfulList] at hf
    cases hw : walk D v (if first then s else s.add [44, 32]) with
    | error e => rw [hw] at h; cases h
    | ok s₁ =>
      rw [hw] at h
      obtain ⟨b, h1, h2⟩ := walk_outer D v _ _ hf.1 hw
      obtain ⟨bs, h3, h4⟩ := walkList_outer D l false _ _ hf.2 h
      refine ⟨b ++ bs, .cons _ _ _ _ h1 h3, ?_⟩
      have := ((Extracts.sep s first).trans h2).trans h4
      simpa using this
termination_by structural l => l

theorem walkItems_outer (D : Dump) : ∀ (l : List (Text × Json)) (first : Bool) (s s' : Walk), FaithfulItems D l →
    walkItems D first l s = .ok s' → ∃ bs, OuterList D (l.map Prod.snd) bs ∧ Extracts s s' bs
  | [], first, s, s', _, h => by
    rw [walkItems] at h; cases h; exact ⟨[], .nil, by simp [Extracts]⟩
  | x :: l, first, s, s', hf, h => by
    rw [walkItems] at h
    rw [FaithfulItems] at hf
    cases hw : walkItem D x (if first then s else s.add [44, 32]) with
    | error e => rw [hw] at h; cases h
    | ok s₁ =>
      rw [hw] at h
      obtain ⟨b, h1, h2⟩ := walkItem_outer D x _ _ hf.1 hw
      obtain ⟨bs, h3, h4⟩ := walkItems_outer D l false _ _ hf.2 h
      refine ⟨b ++ bs, .cons _ _ _ _ h1 h3, ?_⟩
      have := ((Extracts.sep s first).trans h2).trans h4
      simpa using this
termination_by structural l => l

theorem walkItem_outer (D : Dump) : ∀ (x : Text × Json) (s s' : Walk), FaithfulItem D x →
    walkItem D x s = .ok s' → ∃ bs, Outer D x.2 bs ∧ Extracts s s' bs
  | (k, v), s, s', hf, h => by
    rw [walkItem] at h
    rw [FaithfulItem] at hf
    obtain ⟨b, h1, h2⟩ := walk_outer D v _ _ hf h
    refine ⟨b, h1, ?_⟩
    have := (Extracts.add s (D.str k ++ [58, 32])).trans h2
    simpa using this
termination_by structural x => x

end

/-- The extracted objects are the outermost ones that are content blocks, in order; between two of them there is at
most one text, and at most one after the last. -/
theorem C45_extracted (D : Dump) (v : Json) (hs : ∀ t, v ≠ .str t) (hf : Faithful D v) (bs : List Block)
    (h : toContentBlocks D v = .ok bs) :
    Outer D v (others bs) ∧ (Alternating bs ∨ ∃ bs' t, bs = bs' ++ [.text t] ∧ Alternating bs') := by
  have hw : ∃ s, walk D v ⟨[], []⟩ = .ok s ∧ bs = s.flush.blocks := by
    unfold toContentBlocks at h
    split at h
    · rename_i t; exact absurd rfl (hs t)
    · cases hw : walk D v ⟨[], []⟩ with
      | error e => rw [hw] at h; cases h
      | ok s => rw [hw] at h; cases h; exact ⟨s, rfl, rfl⟩
  obtain ⟨s, hw, rfl⟩ := hw
  obtain ⟨os, h1, h2, h3⟩ := walk_outer D v _ _ hf hw
  refine ⟨?_, ?_⟩
  · rw [Walk.others_flush, h2]
    simpa [others] using h1
  · have ha := h3 .nil
    unfold Walk.flush
    split
    · exact .inl ha
    · exact .inr ⟨_, _, rfl, ha⟩

namespace BlocksExample

/-- `"text"`. -/
def textT : Text := [116, 101, 120, 116]
/-- `"image_url"`. -/
def imageT : Text := [105, 109, 97, 103, 101, 95, 117, 114, 108]

/-- Two kinds of blocks; an object of type text with a text is a text block. -/
def D : Dump where
  str t := [34] ++ t ++ [34]
  atom n := [48 + n]
  isType t := t == textT || t == imageT
  check l :=
    match l.lookup typeKey with
    | some (.str t) =>
      if t = textT then
        match l.lookup textT with
        | some (.str u) => some (.text u)
        | _ => none
      else some (.other (.obj l))
    | _ => none

def image : Json := .obj [(typeKey, .str imageT), ([120], .atom 1)]

/-- `[1, {image}, "a"]` -/
def value : Json := .arr [.atom 1, image, .str [97]]

example : (toContentBlocks D value).toOption.map (fun bs => bs.length) = some 3 := by decide
example : (toContentBlocks D value).toOption.map (linear D) = some (dumps D value) := by decide

theorem value_faithful : Faithful D value := by
  simp [value, image, Faithful, FaithfulList, IsBlock, D, typeKey, imageT, textT, List.lookup]

end BlocksExample

open BlocksExample

/-- An object that looks like a text block is not kept: `{"type": "text", "text": "a"}` in a value becomes `a`. -/
theorem C45_text_fails : ∃ (D : Dump) (v : Json) (bs : List Block), (∀ t, v ≠ .str t) ∧ toContentBlocks D v = .ok bs ∧
    linear D bs ≠ dumps D v :=
  ⟨D, .obj [(typeKey, .str textT), (textT, .str [97])], [.text [97]], by simp, rfl, by decide⟩

/-- A value of `"type"` that is a list, as in JSON schemas, makes the conversion raise. -/
theorem C45_unhashable_fails : ∃ (D : Dump) (v : Json), toContentBlocks D v = .error .unhashable :=
  ⟨D, .obj [(typeKey, .arr [])], rfl⟩

end Verif.Llm
