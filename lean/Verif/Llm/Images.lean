/-!
# C94: images and complex numbers survive encoding and decoding

Model of `_validate_image` and `_serialize_image` (`handlers/llm/encoding.py` 397-414), `_validate_complex` and `_serialize_complex`
(179-191), and of Python's `base64.b64encode` and `base64.b64decode` as they are used there (`binascii.a2b_base64` without strict
mode: characters outside of the alphabet are skipped, and decoding ends at the padding).

Bytes are numbers below 256, text is a list of characters. `save` (`Image.save` in PNG format) and `open` (`Image.open`) are parameters
that may fail, as are floats.
-/

namespace Verif.Llm.Images

/-- A text. -/
abbrev Text := List Char

/-! ## Base 64 -/

/-- The alphabet. -/
def alphabet : Text := "ABCDEFGHIJKLMNOPQRSTUVWXYZabcdefghijklmnopqrstuvwxyz0123456789+/".toList

/-- The character of a number below 64. -/
def chr (n : Nat) : Char := alphabet.getD n '='

/-- `table_a2b_base64`: the number of a character, if it is in the alphabet. -/
def ord (c : Char) : Option Nat := alphabet.findIdx? (· == c)

/-- `base64.b64encode(bytes).decode("utf-8")`. -/
def b64encode : List Nat → Text
  | [] => []
  | [a] => [chr (a / 4), chr (a % 4 * 16), '=', '=']
  | [a, b] => [chr (a / 4), chr (a % 4 * 16 + b / 16), chr (b % 16 * 4), '=']
  | a :: b :: c :: l => chr (a / 4) :: chr (a % 4 * 16 + b / 16) :: chr (b % 16 * 4 + c / 64) :: chr (c % 64) :: b64encode l

/-- The loop of `a2b_base64`: the place in the group of four, the paddings seen since the last character, the bits left over, and what
was decoded. -/
def a2b : Nat → Nat → Nat → List Nat → Text → Option (List Nat)
  | q, _, _, out, [] => if q = 0 then some out else none
  | q, pads, left, out, c :: l =>
    if c = '=' then
      if 2 ≤ q then
        if 4 ≤ q + (pads + 1) then some out else a2b q (pads + 1) left out l
      else a2b q pads left out l
    else
      match ord c with
      | none => a2b q pads left out l
      | some n =>
        match q with
        | 0 => a2b 1 0 n out l
        | 1 => a2b 2 0 (n % 16) (out ++ [left * 4 + n / 16]) l
        | 2 => a2b 3 0 (n % 4) (out ++ [left * 16 + n / 4]) l
        | _ => a2b 0 0 0 (out ++ [left * 64 + n]) l

/-- `base64.b64decode(text)`: text that is not ASCII raises. -/
def b64decode (t : Text) : Option (List Nat) :=
  if t.all fun c => decide (c.toNat < 128) then a2b 0 0 0 [] t else none

/-! ## Images -/

/-- `url.split(",")`. -/
def splitCommas : Text → List Text
  | [] => [[]]
  | c :: l =>
    match splitCommas l with
    | [] => [[c]]
    | p :: ps => if c = ',' then [] :: p :: ps else (c :: p) :: ps

/-- `ChatCompletionImageObject["image_url"]`: a string, or an object with a field `url`. -/
inductive ImageUrl where
  | str (url : Text)
  | obj (url detail : Text)

/-- What can be validated: an image object, or something else, an `Image` for example. -/
inductive Value (I : Type) where
  | object (u : ImageUrl)
  | image (i : I)
  | other

/-- Lines 400-401. -/
def ImageUrl.url : ImageUrl → Text
  | .str u => u
  | .obj u _ => u

variable {I : Type}

/-- `_validate_image` (398-405); the validation of the argument rejects what is not an image object. -/
def validate (open_ : List Nat → Option I) : Value I → Option I
  | .object u =>
    match splitCommas u.url with
    | [prefix_, data] => if "data:image/".toList.isPrefixOf prefix_ then (b64decode data).bind open_ else none
    | _ => none
  | _ => none

/-- `_serialize_image` (408-414). -/
def serialize (save : I → Option (List Nat)) (i : I) : Option (Value I) :=
  (save i).map fun b => .object (.obj ("data:image/png;base64,".toList ++ b64encode b) "auto".toList)

/-! ## Proofs -/

theorem ord_chr : ∀ n, n < 64 → ord (chr n) = some n ∧ chr n ≠ '=' ∧ chr n ≠ ',' ∧ (chr n).toNat < 128 := by
  decide

theorem a2b_chr {n : Nat} (hn : n < 64) (q pads left : Nat) (out : List Nat) (l : Text) :
    a2b q pads left out (chr n :: l) =
      match q with
      | 0 => a2b 1 0 n out l
      | 1 => a2b 2 0 (n % 16) (out ++ [left * 4 + n / 16]) l
      | 2 => a2b 3 0 (n % 4) (out ++ [left * 16 + n / 4]) l
      | _ => a2b 0 0 0 (out ++ [left * 64 + n]) l := by
  obtain ⟨h1, h2, _⟩ := ord_chr n hn
  simp only [a2b, h2, if_false, h1]

theorem a2b_encode (l : List Nat) (out : List Nat) (hl : ∀ b ∈ l, b < 256) : a2b 0 0 0 out (b64encode l) = some (out ++ l) := by
  match l with
  | [] => simp [b64encode, a2b]
  | [a] =>
    have ha := hl a (by simp)
    simp only [b64encode]
    rw [a2b_chr (by omega), a2b_chr (by omega)]
    simp only [a2b, if_true, Nat.le_refl]
    have h1 : (a / 4) * 4 + a % 4 * 16 / 16 = a := by omega
    rw [h1]
    rfl
  | [a, b] =>
    have ha := hl a (by simp)
    have hb := hl b (by simp)
    simp only [b64encode]
    rw [a2b_chr (by omega), a2b_chr (by omega)]
    simp only
    rw [a2b_chr (by omega)]
    simp only [a2b, if_true]
    have h1 : (a / 4) * 4 + (a % 4 * 16 + b / 16) / 16 = a := by omega
    have h2 : (a % 4 * 16 + b / 16) % 16 * 16 + b % 16 * 4 / 4 = b := by omega
    rw [h1, h2]
    simp
  | a :: b :: c :: l =>
    have ha := hl a (by simp)
    have hb := hl b (by simp)
    have hc := hl c (by simp)
    simp only [b64encode]
    rw [a2b_chr (by omega), a2b_chr (by omega)]
    simp only
    rw [a2b_chr (by omega)]
    simp only
    rw [a2b_chr (by omega)]
    simp only
    rw [a2b_encode l _ (fun x hx => hl x (by simp [hx]))]
    have h1 : (a / 4) * 4 + (a % 4 * 16 + b / 16) / 16 = a := by omega
    have h2 : (a % 4 * 16 + b / 16) % 16 * 16 + (b % 16 * 4 + c / 64) / 4 = b := by omega
    have h3 : (b % 16 * 4 + c / 64) % 4 * 64 + c % 64 = c := by omega
    rw [h1, h2, h3]
    simp

theorem encode_chars (l : List Nat) (hl : ∀ b ∈ l, b < 256) : ∀ c ∈ b64encode l, c = '=' ∨ ∃ n, n < 64 ∧ c = chr n := by
  match l with
  | [] => simp [b64encode]
  | [a] =>
    have ha := hl a (by simp)
    intro c hc
    simp only [b64encode, List.mem_cons, List.not_mem_nil, or_false] at hc
    rcases hc with rfl | rfl | rfl | rfl
    · exact Or.inr ⟨_, by omega, rfl⟩
    · exact Or.inr ⟨_, by omega, rfl⟩
    · exact Or.inl rfl
    · exact Or.inl rfl
  | [a, b] =>
    have ha := hl a (by simp)
    have hb := hl b (by simp)
    intro c hc
    simp only [b64encode, List.mem_cons, List.not_mem_nil, or_false] at hc
    rcases hc with rfl | rfl | rfl | rfl
    · exact Or.inr ⟨_, by omega, rfl⟩
    · exact Or.inr ⟨_, by omega, rfl⟩
    · exact Or.inr ⟨_, by omega, rfl⟩
    · exact Or.inl rfl
  | a :: b :: d :: l =>
    have ha := hl a (by simp)
    have hb := hl b (by simp)
    have hd := hl d (by simp)
    have ih := encode_chars l (fun x hx => hl x (by simp [hx]))
    intro c hc
    simp only [b64encode, List.mem_cons] at hc
    rcases hc with rfl | rfl | rfl | rfl | hc
    · exact Or.inr ⟨_, by omega, rfl⟩
    · exact Or.inr ⟨_, by omega, rfl⟩
    · exact Or.inr ⟨_, by omega, rfl⟩
    · exact Or.inr ⟨_, by omega, rfl⟩
    · exact ih c hc

/-- **C94.** Base 64 is decoded to the bytes that were encoded. -/
theorem C94_base64 (l : List Nat) (hl : ∀ b ∈ l, b < 256) : b64decode (b64encode l) = some l := by
  have hall : (b64encode l).all (fun c => decide (c.toNat < 128)) = true := by
    rw [List.all_eq_true]
    intro c hc
    rcases encode_chars l hl c hc with rfl | ⟨n, hn, rfl⟩
    · decide
    · simpa using (ord_chr n hn).2.2.2
  unfold b64decode
  rw [if_pos hall, a2b_encode l [] hl, List.nil_append]

theorem split_none {l : Text} (h : ',' ∉ l) : splitCommas l = [l] := by
  induction l with
  | nil => rfl
  | cons c l ih =>
    simp only [List.mem_cons, not_or] at h
    simp only [splitCommas, ih h.2, if_neg (Ne.symm h.1)]

theorem split_one {p d : Text} (hp : ',' ∉ p) (hd : ',' ∉ d) : splitCommas (p ++ ',' :: d) = [p, d] := by
  induction p with
  | nil => simp [splitCommas, split_none hd]
  | cons c p ih =>
    simp only [List.mem_cons, not_or] at hp
    simp only [List.cons_append, splitCommas, ih hp.2, if_neg (Ne.symm hp.1)]

/-- **C94.** A data URI of an image in any format, in base 64, is opened as the bytes it has; as a string or in an object. -/
theorem C94_decode (open_ : List Nat → Option I) (format : Text) (hf : ',' ∉ format) (b : List Nat) (hb : ∀ x ∈ b, x < 256)
    (u : ImageUrl) (hu : u.url = "data:image/".toList ++ format ++ ',' :: b64encode b) : validate open_ (.object u) = open_ b := by
  have hd : ',' ∉ b64encode b := by
    intro h
    rcases encode_chars b hb _ h with h | ⟨n, hn, h⟩
    · exact absurd h (by decide)
    · exact (ord_chr n hn).2.2.1 h.symm
  have hp : ',' ∉ "data:image/".toList ++ format := by
    rw [List.mem_append]
    rintro (h | h)
    · revert h; decide
    · exact hf h
  have hpre : ("data:image/".toList).isPrefixOf ("data:image/".toList ++ format) = true := by
    rw [List.isPrefixOf_iff_prefix]
    exact ⟨format, rfl⟩
  unfold validate
  simp only
  rw [hu, split_one hp hd]
  simp only [hpre, if_true, C94_base64 b hb, Option.bind_some]

/-- **C94.** If an image can be saved, and what is saved is opened as the image, it is decoded from its encoding. -/
theorem C94_image (save : I → Option (List Nat)) (open_ : List Nat → Option I) (i : I) (b : List Nat) (hs : save i = some b)
    (hb : ∀ x ∈ b, x < 256) (ho : open_ b = some i) : (serialize save i).bind (validate open_) = some i := by
  unfold serialize
  rw [hs, Option.map_some, Option.bind_some, ← ho]
  exact C94_decode open_ "png;base64".toList (by decide) b hb _ rfl

/-- **C94.** The object of an image asks for the detail `auto`, and its URL is a data URI of a PNG in base 64. -/
theorem C94_object (save : I → Option (List Nat)) (i : I) (v : Value I) (h : serialize save i = some v) :
    ∃ b u, save i = some b ∧ v = .object (.obj u "auto".toList) ∧ u = "data:image/png;base64,".toList ++ b64encode b := by
  unfold serialize at h
  cases hs : save i with
  | none => rw [hs] at h; cases h
  | some b =>
    rw [hs] at h
    cases h
    exact ⟨b, _, rfl, rfl, rfl⟩

example : ∃ v, serialize (fun _ : Unit => some [77]) () = some v := ⟨_, rfl⟩

/-- **C94.** Different bytes have different encodings. -/
theorem C94_injective (a b : List Nat) (ha : ∀ x ∈ a, x < 256) (hb : ∀ x ∈ b, x < 256) (h : b64encode a = b64encode b) : a = b := by
  have := C94_base64 a ha
  rw [h, C94_base64 b hb] at this
  exact (Option.some.inj this).symm

/-- **C94.** URLs of other kinds are rejected, of images on the web as well. -/
theorem C94_url (open_ : List Nat → Option I) (u : ImageUrl) (h : ¬ ∃ r, u.url = "data:image/".toList ++ r) :
    validate open_ (.object u) = none := by
  unfold validate
  simp only
  split
  · rename_i p d hs
    split
    · rename_i hp
      rw [List.isPrefixOf_iff_prefix] at hp
      obtain ⟨r, hr⟩ := hp
      exfalso
      have key : ∀ (l : Text) (p d : Text), splitCommas l = [p, d] → l = p ++ ',' :: d := by
        intro l
        induction l with
        | nil => intro p d h; cases h
        | cons c l ih =>
          intro p d h
          simp only [splitCommas] at h
          cases hl : splitCommas l with
          | nil => rw [hl] at h; cases h
          | cons q qs =>
            rw [hl] at h
            simp only at h
            split at h
            · rename_i hc
              cases h
              have h1 : ∀ (l q : Text), splitCommas l = [q] → l = q := by
                intro l
                induction l with
                | nil => intro q h; cases h; rfl
                | cons e l ih =>
                  intro q h
                  simp only [splitCommas] at h
                  cases hl : splitCommas l with
                  | nil =>
                    cases l with
                    | nil => cases hl
                    | cons x l =>
                      simp only [splitCommas] at hl
                      split at hl
                      · cases hl
                      · split at hl <;> cases hl
                  | cons r rs =>
                    rw [hl] at h
                    simp only at h
                    split at h
                    · cases h
                    · cases h
                      rw [ih r hl]
              rw [hc, h1 l d hl]
              rfl
            · cases h
              rw [ih q d hl]
              rfl
      refine h ⟨r ++ ',' :: d, ?_⟩
      rw [key _ _ _ hs, ← hr, List.append_assoc]
    · rfl
  · rfl

theorem split_length (l : Text) : (splitCommas l).length = l.count ',' + 1 := by
  induction l with
  | nil => rfl
  | cons c l ih =>
    simp only [splitCommas]
    cases hl : splitCommas l with
    | nil => simp [hl] at ih
    | cons p ps =>
      rw [hl] at ih
      simp only [List.length_cons] at ih
      simp only [List.count_cons]
      split
      · rename_i hc
        simp [hc]
        omega
      · rename_i hc
        simp [hc]
        omega

/-- **C94.** URLs without a comma, or with more than one, are rejected. -/
theorem C94_commas (open_ : List Nat → Option I) (u : ImageUrl) (h : u.url.count ',' ≠ 1) : validate open_ (.object u) = none := by
  unfold validate
  simp only
  split
  · rename_i p d hs
    have := split_length u.url
    rw [hs] at this
    exact absurd (by simpa using this.symm) h
  · rfl

/-- **C94.** Text that is not ASCII is rejected. -/
theorem C94_ascii (t : Text) (c : Char) (hc : c ∈ t) (hn : 128 ≤ c.toNat) : b64decode t = none := by
  unfold b64decode
  rw [if_neg]
  intro h
  rw [List.all_eq_true] at h
  have := h c hc
  simp at this
  omega

/-! ## Complex numbers -/

/-- A complex number of floats. -/
structure Cplx (F : Type) where
  re : F
  im : F

/-- `_serialize_complex` (190-191). -/
def serializeC {F : Type} (z : Cplx F) : List (String × F) := [("real", z.re), ("imag", z.im)]

/-- `_validate_complex` (185-186): a dictionary with the two fields; others are ignored. -/
def validateC {F : Type} (d : List (String × F)) : Option (Cplx F) :=
  match d.lookup "real", d.lookup "imag" with
  | some r, some i => some ⟨r, i⟩
  | _, _ => none

/-- **C94.** A complex number is decoded from its encoding, with the fields in any order. -/
theorem C94_complex {F : Type} (z : Cplx F) : validateC (serializeC z) = some z ∧ validateC (serializeC z).reverse = some z := by
  constructor <;> simp [validateC, serializeC, List.lookup]

/-! ## What fails -/

/-- **C94, fails.** An image is not valid itself: a value that is decoded cannot be validated once more. -/
theorem C94_again_fails (open_ : List Nat → Option I) (i : I) : validate open_ (.image i) = none := rfl

/-- **C94, fails.** A data URI that is not in base 64 is read as if it were: `data:image/x,AAAA` as three zeros, not as four letters. -/
theorem C94_plain_fails (open_ : List Nat → Option I) :
    validate open_ (.object (.str "data:image/x,AAAA".toList)) = open_ [0, 0, 0] := by
  have h : splitCommas "data:image/x,AAAA".toList = ["data:image/x".toList, "AAAA".toList] := by decide
  unfold validate
  simp only [ImageUrl.url]
  rw [h]
  have h2 : b64decode "AAAA".toList = some [0, 0, 0] := by decide
  have h3 : ("data:image/".toList).isPrefixOf "data:image/x".toList = true := by decide
  simp only [h3, if_true, h2, Option.bind_some]

/-- **C94, fails.** Characters outside of the alphabet and all after the padding are skipped, so corrupt data may be decoded to other
bytes. -/
theorem C94_corrupt_fails : b64decode "TW!Fu".toList = some [77, 97, 110] ∧ b64decode "TQ==TWFu".toList = some [77] := by
  constructor <;> decide

/-! ## Examples -/

/-- From the standard: `Man`, `Ma`, `M`. -/
example : b64encode [77, 97, 110] = "TWFu".toList ∧ b64encode [77, 97] = "TWE=".toList ∧ b64encode [77] = "TQ==".toList := by
  refine ⟨by decide, by decide, by decide⟩

/-- Missing padding. -/
example : b64decode "TWE".toList = none := by decide

/-- An image of its own bytes. -/
example : (serialize some [1, 2, 3]).bind (validate fun b => some b) = some [1, 2, 3] :=
  C94_image some _ [1, 2, 3] [1, 2, 3] rfl (by decide) rfl

end Verif.Llm.Images
