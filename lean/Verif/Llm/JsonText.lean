import Verif.Llm.Blocks

/-!
# C114: JSON text

Model of `json.dumps(v)` and `json.loads(s)` with their defaults, as `to_content_blocks` (`handlers/llm/encoding.py` 96, 107),
`_serialize_tool_call` (786), `_validate_tool_call` (753) and `call_assistant` (`handlers/llm/completions.py` 454) use them, from CPython
3.12 (`Lib/json/encoder.py`, `Lib/json/decoder.py`, `Lib/json/scanner.py`, `Modules/_json.c`).

* Text is a list of code points, which may be surrogates.
* Floats are arbitrary, with an arbitrary function that writes them and one that reads them; it is assumed that what is written is a
  number of JSON with a fraction or an exponent, or `NaN`, `Infinity` or `-Infinity`, and that reading it gives the same float.
* Integers of more than 4300 digits and nesting beyond the recursion limit, for which Python raises, are not treated.
-/

namespace Verif.Llm.JsonText

/-- The text of a number: sign, integer part, fraction and exponent (its sign and its digits). -/
structure FLit where
  neg : Bool
  ip : Text
  frac : Text
  exp : Option (Text × Text)
  deriving DecidableEq

/-- The texts of floats. -/
inductive FTok where
  | lit (l : FLit)
  | nan
  | inf
  | ninf
  deriving DecidableEq

/-- `float.__repr__` and `float`. -/
structure Floats (Fl : Type) where
  repr : Fl → FTok
  parse : FTok → Fl

/-- Values: `None`, booleans, integers, floats, strings, lists and dictionaries. -/
inductive J (Fl : Type) where
  | null
  | bool (b : Bool)
  | int (n : Int)
  | float (x : Fl)
  | str (t : Text)
  | arr (l : List (J Fl))
  | obj (l : List (Text × J Fl))

variable {Fl : Type}

/-! ## `json.dumps` -/

/-- A hexadecimal digit, `'{:x}'`. -/
def hexDigit (n : Nat) : Nat := if n < 10 then 48 + n else 87 + n

/-- `'\\u{0:04x}'.format(n)`. -/
def uXXXX (n : Nat) : Text := [92, 117, hexDigit (n / 4096 % 16), hexDigit (n / 256 % 16), hexDigit (n / 16 % 16), hexDigit (n % 16)]

/-- `replace` in `py_encode_basestring_ascii` (json/encoder.py), with `ESCAPE_DCT`. -/
def escape (c : Nat) : Text :=
  if c = 34 then [92, 34]
  else if c = 92 then [92, 92]
  else if c = 10 then [92, 110]
  else if c = 13 then [92, 114]
  else if c = 9 then [92, 116]
  else if c = 12 then [92, 102]
  else if c = 8 then [92, 98]
  else if 32 ≤ c ∧ c ≤ 126 then [c]
  else if c < 0x10000 then uXXXX c
  else uXXXX (0xd800 + (c - 0x10000) / 1024 % 1024) ++ uXXXX (0xdc00 + (c - 0x10000) % 1024)

/-- `py_encode_basestring_ascii(s)`. -/
def strText (s : Text) : Text := 34 :: s.flatMap escape ++ [34]

/-- Digits, with a bound on their number. -/
def natDigits : Nat → Nat → Text
  | 0, n => [48 + n % 10]
  | k + 1, n => if n < 10 then [48 + n] else natDigits k (n / 10) ++ [48 + n % 10]

/-- `int.__repr__` for natural numbers. -/
def natText (n : Nat) : Text := natDigits n n

/-- `int.__repr__`. -/
def intText (n : Int) : Text := if n < 0 then 45 :: natText n.natAbs else natText n.natAbs

def nullT : Text := [110, 117, 108, 108]
def trueT : Text := [116, 114, 117, 101]
def falseT : Text := [102, 97, 108, 115, 101]
def nanT : Text := [78, 97, 78]
def infT : Text := [73, 110, 102, 105, 110, 105, 116, 121]

/-- The text of a number. -/
def FLit.text (l : FLit) : Text :=
  (if l.neg then [45] else []) ++ l.ip ++ (if l.frac = [] then [] else 46 :: l.frac) ++
    (match l.exp with | none => [] | some (sg, ds) => 101 :: sg ++ ds)

/-- `floatstr`. -/
def FTok.text : FTok → Text
  | .lit l => l.text
  | .nan => nanT
  | .inf => infT
  | .ninf => 45 :: infT

mutual

/-- `json.dumps(v)`. -/
def dumps (F : Floats Fl) : J Fl → Text
  | .null => nullT
  | .bool true => trueT
  | .bool false => falseT
  | .int n => intText n
  | .float x => (F.repr x).text
  | .str s => strText s
  | .arr [] => [91, 93]
  | .arr (v :: l) => 91 :: dumps F v ++ dumpsTail F l
  | .obj [] => [123, 125]
  | .obj (x :: l) => 123 :: dumpsItem F x ++ dumpsItems F l
termination_by structural v => v

/-- Further elements. -/
def dumpsTail (F : Floats Fl) : List (J Fl) → Text
  | [] => [93]
  | v :: l => [44, 32] ++ dumps F v ++ dumpsTail F l
termination_by structural l => l

/-- Further items. -/
def dumpsItems (F : Floats Fl) : List (Text × J Fl) → Text
  | [] => [125]
  | x :: l => [44, 32] ++ dumpsItem F x ++ dumpsItems F l
termination_by structural l => l

def dumpsItem (F : Floats Fl) : Text × J Fl → Text
  | (k, v) => strText k ++ [58, 32] ++ dumps F v
termination_by structural x => x

end

/-! ## `json.loads` -/

/-- `WHITESPACE_STR`. -/
def isWs (c : Nat) : Bool := c = 32 || c = 9 || c = 10 || c = 13

/-- `_w(s, end).end()`. -/
def skip (s : Text) : Text := s.dropWhile isWs

def isDigit (c : Nat) : Bool := 48 ≤ c && c ≤ 57

/-- The value of a hexadecimal digit. -/
def hexVal (c : Nat) : Option Nat :=
  if 48 ≤ c ∧ c ≤ 57 then some (c - 48)
  else if 97 ≤ c ∧ c ≤ 102 then some (c - 87)
  else if 65 ≤ c ∧ c ≤ 70 then some (c - 55)
  else none

/-- `_decode_uXXXX`. -/
def hex4 (a b c d : Nat) : Option Nat :=
  match hexVal a, hexVal b, hexVal c, hexVal d with
  | some a, some b, some c, some d => some (4096 * a + 256 * b + 16 * c + d)
  | _, _, _, _ => none

/-- `BACKSLASH`. -/
def backslash (c : Nat) : Option Nat :=
  if c = 34 then some 34
  else if c = 92 then some 92
  else if c = 47 then some 47
  else if c = 98 then some 8
  else if c = 102 then some 12
  else if c = 110 then some 10
  else if c = 114 then some 13
  else if c = 116 then some 9
  else none

/-- One character of a string, or one `\uXXXX`, with whether it is such an escape; and the rest. -/
def unit : Text → Option ((Bool × Nat) × Text)
  | [] => none
  | c :: r =>
    if c = 92 then
      match r with
      | [] => none
      | e :: r =>
        if e = 117 then
          match r with
          | a :: b :: c :: d :: r => (hex4 a b c d).map fun x => ((true, x), r)
          | _ => none
        else (backslash e).map fun x => ((false, x), r)
    else if c < 32 then none
    else some ((false, c), r)

/-- `scanstring_unicode` up to the closing quote, with a bound on the number of characters. -/
def units : Nat → Text → Option (List (Bool × Nat) × Text)
  | 0, _ => none
  | _ + 1, 34 :: r => some ([], r)
  | k + 1, s =>
    match unit s with
    | none => none
    | some (u, r) => (units k r).map fun (us, q) => (u :: us, q)

def isHigh (c : Nat) : Bool := 0xd800 ≤ c && c ≤ 0xdbff
def isLow (c : Nat) : Bool := 0xdc00 ≤ c && c ≤ 0xdfff

/-- An escaped high surrogate and an escaped low surrogate after it are one character. -/
def join : List (Bool × Nat) → Text
  | [] => []
  | [u] => [u.2]
  | u :: v :: l =>
    if u.1 && v.1 && isHigh u.2 && isLow v.2 then (0x10000 + 1024 * (u.2 - 0xd800) + (v.2 - 0xdc00)) :: join l
    else u.2 :: join (v :: l)

/-- `scanstring`, after the opening quote. -/
def scanString (s : Text) : Option (Text × Text) := (units (s.length + 1) s).map fun (us, q) => (join us, q)

/-- `s` without the prefix `p`. -/
def strip : Text → Text → Option Text
  | [], s => some s
  | _ :: _, [] => none
  | a :: p, b :: s => if a = b then strip p s else none

/-- The value of digits, `int`. -/
def digitsVal (t : Text) : Nat := t.foldl (fun n c => 10 * n + (c - 48)) 0

/-- The optional fraction. -/
def fraction (r : Text) : Text × Text :=
  match r with
  | 46 :: q => if q.takeWhile isDigit = [] then ([], r) else (q.takeWhile isDigit, q.dropWhile isDigit)
  | _ => ([], r)

/-- The optional sign of the exponent. -/
def expSign (q : Text) : Text × Text :=
  match q with
  | 43 :: q => ([43], q)
  | 45 :: q => ([45], q)
  | _ => ([], q)

/-- The optional exponent. -/
def exponent (r : Text) : Option (Text × Text) × Text :=
  match r with
  | [] => (none, [])
  | c :: q =>
    if c = 101 ∨ c = 69 then
      if (expSign q).2.takeWhile isDigit = [] then (none, r)
      else (some ((expSign q).1, (expSign q).2.takeWhile isDigit), (expSign q).2.dropWhile isDigit)
    else (none, r)

/-- `_match_number_unicode` after the integer part. -/
def numberTail (F : Floats Fl) (neg : Bool) (ip r : Text) : J Fl × Text :=
  let (fr, r) := fraction r
  let (ex, r) := exponent r
  if fr = [] ∧ ex = none then (.int (if neg then -(digitsVal ip : Int) else digitsVal ip), r)
  else (.float (F.parse (.lit ⟨neg, ip, fr, ex⟩)), r)

/-- The digits after the sign. -/
def unsigned (F : Floats Fl) (neg : Bool) (s : Text) : Option (J Fl × Text) :=
  match s with
  | [] => none
  | c :: r =>
    if c = 48 then some (numberTail F neg [48] r)
    else if isDigit c then some (numberTail F neg (c :: r.takeWhile isDigit) (r.dropWhile isDigit))
    else none

/-- `_match_number_unicode` (`NUMBER_RE`). -/
def number (F : Floats Fl) (s : Text) : Option (J Fl × Text) :=
  match s with
  | 45 :: r => unsigned F true r
  | _ => unsigned F false s

/-- The words. -/
def words (F : Floats Fl) : List (Text × J Fl) :=
  [(nullT, .null), (trueT, .bool true), (falseT, .bool false), (nanT, .float (F.parse .nan)), (infT, .float (F.parse .inf)),
    (45 :: infT, .float (F.parse .ninf))]

def word : List (Text × J Fl) → Text → Option (J Fl × Text)
  | [], _ => none
  | (p, v) :: l, s =>
    match strip p s with
    | some r => some (v, r)
    | none => word l s

/-- `pairs[key] = value`. -/
def insert (d : List (Text × J Fl)) (x : Text × J Fl) : List (Text × J Fl) :=
  if d.any (fun y => y.1 = x.1) then d.map (fun y => if y.1 = x.1 then x else y) else d ++ [x]

/-- `dict(pairs)`. -/
def dict (ps : List (Text × J Fl)) : List (Text × J Fl) := ps.foldl insert []

mutual

/-- `scan_once`, with a bound on the depth of calls. -/
def value (F : Floats Fl) : Nat → Text → Option (J Fl × Text)
  | 0, _ => none
  | _ + 1, [] => none
  | k + 1, c :: r =>
    if c = 34 then (scanString r).map fun (t, q) => (.str t, q)
    else if c = 123 then
      match skip r with
      | 125 :: q => some (.obj [], q)
      | q => (items F k q).map fun (ps, q) => (.obj (dict ps), q)
    else if c = 91 then
      match skip r with
      | 93 :: q => some (.arr [], q)
      | q => (elems F k q).map fun (l, q) => (.arr l, q)
    else
      match word (words F) (c :: r) with
      | some x => some x
      | none => number F (c :: r)

/-- The loop of `JSONArray`, up to the closing bracket. -/
def elems (F : Floats Fl) : Nat → Text → Option (List (J Fl) × Text)
  | 0, _ => none
  | k + 1, s =>
    match value F k s with
    | none => none
    | some (v, q) =>
      match skip q with
      | 93 :: q => some ([v], q)
      | 44 :: q => (elems F k (skip q)).map fun (l, q) => (v :: l, q)
      | _ => none

/-- The loop of `JSONObject`, up to the closing brace. -/
def items (F : Floats Fl) : Nat → Text → Option (List (Text × J Fl) × Text)
  | 0, _ => none
  | k + 1, s =>
    match s with
    | 34 :: r =>
      match scanString r with
      | none => none
      | some (t, q) =>
        match skip q with
        | 58 :: q =>
          match value F k (skip q) with
          | none => none
          | some (v, q) =>
            match skip q with
            | 125 :: q => some ([(t, v)], q)
            | 44 :: q => (items F k (skip q)).map fun (l, q) => ((t, v) :: l, q)
            | _ => none
        | _ => none
    | _ => none

end

/-- `json.loads(s)`; `none` is `JSONDecodeError`. -/
def loads (F : Floats Fl) (s : Text) : Option (J Fl) :=
  match value F (2 * s.length + 2) (skip s) with
  | none => none
  | some (v, q) => if skip q = [] then some v else none

/-! ## Specification -/

/-- The code points of a text. -/
def txt (s : String) : Text := s.toList.map Char.toNat

/-- White space. -/
def Ws (w : Text) : Prop := ∀ c ∈ w, c = 32 ∨ c = 9 ∨ c = 10 ∨ c = 13

/-- Digits, and the number they denote. -/
inductive Decimal : Text → Nat → Prop where
  | one (d : Nat) : d < 10 → Decimal [48 + d] d
  | snoc (t : Text) (n d : Nat) : Decimal t n → d < 10 → Decimal (t ++ [48 + d]) (10 * n + d)

/-- Some digits. -/
def Digits (t : Text) : Prop := ∀ c ∈ t, 48 ≤ c ∧ c ≤ 57

/-- Digits without a zero in front. -/
def IntPart (t : Text) : Prop := t ≠ [] ∧ Digits t ∧ ∀ r, t = 48 :: r → r = []

/-- The parts of a number. -/
def FLit.Ok (l : FLit) : Prop :=
  IntPart l.ip ∧ Digits l.frac ∧ ∀ sg ds, l.exp = some (sg, ds) → (sg = [] ∨ sg = txt "+" ∨ sg = txt "-") ∧ ds ≠ [] ∧ Digits ds

/-- The text of a number with a fraction or an exponent; `e` is the sign of the exponent. -/
def litText (e : Nat) (l : FLit) : Text :=
  (if l.neg then txt "-" else []) ++ l.ip ++ (if l.frac = [] then [] else txt "." ++ l.frac) ++
    (match l.exp with | none => [] | some (sg, ds) => e :: sg ++ ds)

/-- The value of a hexadecimal digit. -/
inductive Hex : Nat → Nat → Prop where
  | dec (d : Nat) : d < 10 → Hex (48 + d) d
  | lower (d : Nat) : d < 6 → Hex (97 + d) (10 + d)
  | upper (d : Nat) : d < 6 → Hex (65 + d) (10 + d)

/-- What stands for a code unit in a string, and whether as `\uXXXX`. -/
inductive UnitG : Bool → Nat → Text → Prop where
  | plain (c : Nat) : 32 ≤ c → [c] ≠ txt "\"" → [c] ≠ txt "\\" → UnitG false c [c]
  | quote : UnitG false 34 (txt "\\\"")
  | backslash : UnitG false 92 (txt "\\\\")
  | slash : UnitG false 47 (txt "\\/")
  | back : UnitG false 8 (txt "\\b")
  | feed : UnitG false 12 (txt "\\f")
  | newline : UnitG false 10 (txt "\\n")
  | ret : UnitG false 13 (txt "\\r")
  | tab : UnitG false 9 (txt "\\t")
  | hex (a b c d w x y z : Nat) : Hex a w → Hex b x → Hex c y → Hex d z →
      UnitG true (((w * 16 + x) * 16 + y) * 16 + z) (txt "\\u" ++ [a, b, c, d])

/-- Several code units. -/
inductive UnitsG : List (Bool × Nat) → Text → Prop where
  | nil : UnitsG [] []
  | cons (b : Bool) (c : Nat) (t : Text) (us : List (Bool × Nat)) (ts : Text) : UnitG b c t → UnitsG us ts → UnitsG ((b, c) :: us) (t ++ ts)

def High (c : Nat) : Prop := 0xd800 ≤ c ∧ c < 0xdc00
def Low (c : Nat) : Prop := 0xdc00 ≤ c ∧ c < 0xe000

/-- Escaped surrogate pairs are read as UTF-16, all else as it is. -/
inductive Joined : List (Bool × Nat) → Text → Prop where
  | nil : Joined [] []
  | pair (h l : Nat) (us : List (Bool × Nat)) (t : Text) : High h → Low l → Joined us t →
      Joined ((true, h) :: (true, l) :: us) ((0x10000 + (h - 0xd800) * 1024 + (l - 0xdc00)) :: t)
  | one (b : Bool) (c : Nat) (us : List (Bool × Nat)) (t : Text) :
      (∀ l us', b = true → High c → us = (true, l) :: us' → ¬ Low l) → Joined us t → Joined ((b, c) :: us) (c :: t)

/-- The inside of a string. -/
def StrG (s t : Text) : Prop := ∃ us, UnitsG us t ∧ Joined us s

/-- The keys, each where it is first. -/
def firsts : List Text → List Text
  | [] => []
  | a :: l => a :: (firsts l).filter (fun b => b ≠ a)

/-- The dictionary of pairs: keys in the order in which they first appear, with the last value. -/
def IsDict (ps d : List (Text × J Fl)) : Prop := d.map Prod.fst = firsts (ps.map Prod.fst) ∧ ∀ k, d.lookup k = ps.reverse.lookup k

mutual

/-- The grammar of JSON (RFC 8259), with `NaN`, `Infinity` and `-Infinity`. -/
inductive ValueG (F : Floats Fl) : J Fl → Text → Prop where
  | null : ValueG F .null (txt "null")
  | true : ValueG F (.bool true) (txt "true")
  | false : ValueG F (.bool false) (txt "false")
  | nan : ValueG F (.float (F.parse .nan)) (txt "NaN")
  | inf : ValueG F (.float (F.parse .inf)) (txt "Infinity")
  | ninf : ValueG F (.float (F.parse .ninf)) (txt "-Infinity")
  | pos (t : Text) (n : Nat) : IntPart t → Decimal t n → ValueG F (.int n) t
  | neg (t : Text) (n : Nat) : IntPart t → Decimal t n → ValueG F (.int (-n)) (txt "-" ++ t)
  | float (l : FLit) (e : Nat) : l.Ok → (l.frac ≠ [] ∨ l.exp ≠ none) → ([e] = txt "e" ∨ [e] = txt "E") →
      ValueG F (.float (F.parse (.lit l))) (litText e l)
  | str (s t : Text) : StrG s t → ValueG F (.str s) (txt "\"" ++ t ++ txt "\"")
  | arr0 (w : Text) : Ws w → ValueG F (.arr []) (txt "[" ++ w ++ txt "]")
  | arr (w : Text) (l : List (J Fl)) (t : Text) : Ws w → ElemsG F l t → ValueG F (.arr l) (txt "[" ++ w ++ t ++ txt "]")
  | obj0 (w : Text) : Ws w → ValueG F (.obj []) (txt "{" ++ w ++ txt "}")
  | obj (w : Text) (ps d : List (Text × J Fl)) (t : Text) : Ws w → ItemsG F ps t → IsDict ps d →
      ValueG F (.obj d) (txt "{" ++ w ++ t ++ txt "}")

/-- Elements with commas between them. -/
inductive ElemsG (F : Floats Fl) : List (J Fl) → Text → Prop where
  | one (v : J Fl) (t w : Text) : ValueG F v t → Ws w → ElemsG F [v] (t ++ w)
  | more (v : J Fl) (t w w' : Text) (l : List (J Fl)) (t' : Text) : ValueG F v t → Ws w → Ws w' → ElemsG F l t' →
      ElemsG F (v :: l) (t ++ w ++ txt "," ++ w' ++ t')

/-- Items with commas between them. -/
inductive ItemsG (F : Floats Fl) : List (Text × J Fl) → Text → Prop where
  | one (k kt w1 w2 : Text) (v : J Fl) (t w : Text) : StrG k kt → Ws w1 → Ws w2 → ValueG F v t → Ws w →
      ItemsG F [(k, v)] (txt "\"" ++ kt ++ txt "\"" ++ w1 ++ txt ":" ++ w2 ++ t ++ w)
  | more (k kt w1 w2 : Text) (v : J Fl) (t w w' : Text) (l : List (Text × J Fl)) (t' : Text) :
      StrG k kt → Ws w1 → Ws w2 → ValueG F v t → Ws w → Ws w' → ItemsG F l t' →
      ItemsG F ((k, v) :: l) (txt "\"" ++ kt ++ txt "\"" ++ w1 ++ txt ":" ++ w2 ++ t ++ w ++ txt "," ++ w' ++ t')

end

/-- A text with white space around a value. -/
def Document (F : Floats Fl) (v : J Fl) (s : Text) : Prop := ∃ w t w', s = w ++ t ++ w' ∧ Ws w ∧ Ws w' ∧ ValueG F v t

/-- A string of code points, without a low surrogate after a high one. -/
def StrOk : Text → Prop
  | [] => True
  | c :: s => c < 0x110000 ∧ (∀ l s', s = l :: s' → ¬ (High c ∧ Low l)) ∧ StrOk s

mutual

/-- All strings are such, and keys are different. -/
def Ok : J Fl → Prop
  | .null => True
  | .bool _ => True
  | .int _ => True
  | .float _ => True
  | .str s => StrOk s
  | .arr l => OkList l
  | .obj l => (l.map Prod.fst).Nodup ∧ OkItems l
termination_by structural v => v

def OkList : List (J Fl) → Prop
  | [] => True
  | v :: l => Ok v ∧ OkList l
termination_by structural l => l

def OkItems : List (Text × J Fl) → Prop
  | [] => True
  | x :: l => OkItem x ∧ OkItems l
termination_by structural l => l

def OkItem : Text × J Fl → Prop
  | (k, v) => StrOk k ∧ Ok v
termination_by structural x => x

end

/-- Floats are written as numbers that are read as the same floats. -/
def Floats.Ok (F : Floats Fl) : Prop :=
  (∀ x, F.parse (F.repr x) = x) ∧ ∀ x l, F.repr x = .lit l → l.Ok ∧ (l.frac ≠ [] ∨ l.exp ≠ none)

/-! ## Proofs: white space, digits, words -/

theorem skip_ws {w : Text} (h : Ws w) (s : Text) : skip (w ++ s) = skip s := by
  induction w with
  | nil => rfl
  | cons c w ih =>
    have hc : isWs c = true := by
      have := h c (by simp)
      simp only [isWs, Bool.or_eq_true, decide_eq_true_eq]
      omega
    have : skip (c :: w ++ s) = skip (w ++ s) := by simp [skip, hc]
    rw [this]
    exact ih fun c hc => h c (by simp [hc])

theorem skip_all {w : Text} (h : Ws w) : skip w = [] := by
  have := skip_ws h []
  simpa [skip] using this

theorem skip_split (s : Text) : ∃ w, Ws w ∧ s = w ++ skip s := by
  induction s with
  | nil => exact ⟨[], by simp [Ws], rfl⟩
  | cons c s ih =>
    by_cases hc : isWs c = true
    · obtain ⟨w, h1, h2⟩ := ih
      refine ⟨c :: w, ?_, ?_⟩
      · intro d hd
        rcases List.mem_cons.1 hd with rfl | hd
        · simp only [isWs, Bool.or_eq_true, decide_eq_true_eq] at hc
          omega
        · exact h1 d hd
      · have : skip (c :: s) = skip s := by simp [skip, hc]
        rw [this, List.cons_append, ← h2]
    · refine ⟨[], by simp [Ws], ?_⟩
      simp [skip, hc]

theorem skip_cons {c : Nat} (h : isWs c = false) (s : Text) : skip (c :: s) = c :: s := by simp [skip, h]

theorem strip_eq {p s r : Text} : strip p s = some r ↔ s = p ++ r := by
  induction p generalizing s with
  | nil => simp [strip]
  | cons a p ih =>
    cases s with
    | nil => simp [strip]
    | cons b s =>
      by_cases h : a = b
      · subst h; simp [strip, ih]
      · simp [strip, h, Ne.symm h]

theorem isDigit_iff {c : Nat} : isDigit c = true ↔ 48 ≤ c ∧ c ≤ 57 := by simp [isDigit]

/-- What follows digits. -/
def NoDigit (r : Text) : Prop := ∀ c q, r = c :: q → isDigit c = false

theorem take_digits {t r : Text} (h : Digits t) (hr : NoDigit r) : (t ++ r).takeWhile isDigit = t ∧ (t ++ r).dropWhile isDigit = r := by
  induction t with
  | nil =>
    cases r with
    | nil => simp
    | cons c q => simp [hr c q rfl]
  | cons c t ih =>
    have hc : isDigit c = true := isDigit_iff.2 (h c (by simp))
    have := ih fun c hc => h c (by simp [hc])
    simp [hc, this]

theorem digits_take (t : Text) : Digits (t.takeWhile isDigit) := by
  induction t with
  | nil => simp [Digits]
  | cons c t ih =>
    by_cases hc : isDigit c = true
    · intro d hd
      rw [List.takeWhile_cons, if_pos hc] at hd
      rcases List.mem_cons.1 hd with rfl | hd
      · exact isDigit_iff.1 hc
      · exact ih d hd
    · simp [hc, Digits]

theorem digitsVal_snoc (t : Text) (c : Nat) : digitsVal (t ++ [c]) = 10 * digitsVal t + (c - 48) := by simp [digitsVal]

theorem decimal_val {t : Text} {n : Nat} (h : Decimal t n) : digitsVal t = n := by
  induction h with
  | one d hd => simp [digitsVal]
  | snoc t n d _ hd ih => rw [digitsVal_snoc, ih]; simp

theorem val_decimal {t : Text} (h : Digits t) (ht : t ≠ []) : Decimal t (digitsVal t) := by
  generalize hn : t.length = n
  induction n generalizing t with
  | zero => exact absurd (List.length_eq_zero_iff.1 hn) ht
  | succ n ih =>
    rcases List.eq_nil_or_concat t with rfl | ⟨t, c, rfl⟩
    · exact absurd rfl ht
    · rw [List.concat_eq_append] at h hn ⊢
      have hc := h c (by simp)
      obtain ⟨d, rfl⟩ : ∃ d, c = 48 + d := ⟨c - 48, by omega⟩
      by_cases e : t = []
      · subst e
        have := Decimal.one d (by omega)
        simpa [digitsVal] using this
      · rw [digitsVal_snoc]
        have := Decimal.snoc t _ d (ih (fun c hc => h c (by simp [hc])) e (by simpa using hn)) (by omega)
        simpa using this

theorem natDigits_spec (k n : Nat) (hk : n ≤ k) :
    IntPart (natDigits k n) ∧ Decimal (natDigits k n) n ∧ (0 < n → ∀ r, natDigits k n ≠ 48 :: r) := by
  induction k generalizing n with
  | zero =>
    obtain rfl : n = 0 := by omega
    exact ⟨⟨by simp [natDigits], by simp [natDigits, Digits], by simp [natDigits]⟩, .one 0 (by decide), by simp⟩
  | succ k ih =>
    rw [natDigits]
    split
    · rename_i h
      refine ⟨⟨by simp, ?_, ?_⟩, .one n h, ?_⟩
      · intro c hc; simp at hc; omega
      · intro r hr; simp at hr; exact hr.2
      · intro hn r hr; simp at hr; omega
    · rename_i h
      obtain ⟨⟨h1, h2, h3⟩, h4, h5⟩ := ih (n / 10) (by omega)
      have h6 : ∀ r, natDigits k (n / 10) ++ [48 + n % 10] ≠ 48 :: r := by
        intro r hr
        cases hx : natDigits k (n / 10) with
        | nil => exact h1 hx
        | cons a q =>
          rw [hx, List.cons_append] at hr
          obtain ⟨rfl, _⟩ := List.cons.inj hr
          exact h5 (by omega) q hx
      refine ⟨⟨by simp, ?_, ?_⟩, ?_, fun _ => h6⟩
      · intro c hc
        rcases List.mem_append.1 hc with hc | hc
        · exact h2 c hc
        · simp at hc; omega
      · intro r hr; exact absurd hr (h6 r)
      · have := Decimal.snoc _ _ (n % 10) h4 (by omega)
        have e : 10 * (n / 10) + n % 10 = n := by omega
        rwa [e] at this

theorem natText_spec (n : Nat) : IntPart (natText n) ∧ Decimal (natText n) n :=
  ⟨(natDigits_spec n n (Nat.le_refl n)).1, (natDigits_spec n n (Nat.le_refl n)).2.1⟩

/-! ## Numbers -/

/-- What follows a number. -/
def Follow (r : Text) : Prop := ∀ c q, r = c :: q → isDigit c = false ∧ c ≠ 46 ∧ c ≠ 101 ∧ c ≠ 69

theorem Follow.noDigit {r : Text} (h : Follow r) : NoDigit r := fun c q e => (h c q e).1

theorem fraction_none {r : Text} (h : ∀ q, r ≠ 46 :: q) : fraction r = ([], r) := by
  unfold fraction
  split
  · exact absurd rfl (h _)
  · rfl

theorem fraction_some {t r : Text} (ht : t ≠ []) (h : Digits t) (hr : NoDigit r) : fraction (46 :: t ++ r) = (t, r) := by
  simp [fraction, take_digits h hr, ht]

theorem exponent_none {r : Text} (h : ∀ c q, r = c :: q → c ≠ 101 ∧ c ≠ 69) : exponent r = (none, r) := by
  cases r with
  | nil => rfl
  | cons c q => simp [exponent, h c q rfl]

theorem expSign_eq {sg ds r : Text} (h : sg = [] ∨ sg = [43] ∨ sg = [45]) (hd : ds ≠ []) (hd' : Digits ds) :
    expSign (sg ++ ds ++ r) = (sg, ds ++ r) := by
  rcases h with rfl | rfl | rfl
  · cases ds with
    | nil => exact absurd rfl hd
    | cons c ds =>
      have := hd' c (by simp)
      unfold expSign
      split
      · rename_i e; simp at e; omega
      · rename_i e; simp at e; omega
      · rfl
  · rfl
  · rfl

theorem exponent_some {e : Nat} {sg ds r : Text} (he : e = 101 ∨ e = 69) (h : sg = [] ∨ sg = [43] ∨ sg = [45]) (hd : ds ≠ [])
    (hd' : Digits ds) (hr : NoDigit r) : exponent (e :: sg ++ ds ++ r) = (some (sg, ds), r) := by
  have := expSign_eq (r := r) h hd hd'
  simp only [List.append_assoc] at this
  simp [exponent, he, this, take_digits hd' hr, hd]

/-- The text of an exponent. -/
def expText (e : Nat) : Option (Text × Text) → Text
  | none => []
  | some (sg, ds) => e :: sg ++ ds

/-- The text after the integer part. -/
def restText (e : Nat) (l : FLit) : Text :=
  (if l.frac = [] then [] else 46 :: l.frac) ++ expText e l.exp

theorem restText_noDigit {e : Nat} {l : FLit} {r : Text} (he : e = 101 ∨ e = 69) (hr : Follow r) : NoDigit (restText e l ++ r) := by
  intro c q h
  unfold restText at h
  split at h
  · cases hx : l.exp with
    | none => rw [hx] at h; exact (hr c q (by simpa [expText] using h)).1
    | some x => rw [hx] at h; simp [expText] at h; obtain ⟨h, _⟩ := h; subst h; rcases he with rfl | rfl <;> rfl
  · simp at h; obtain ⟨h, _⟩ := h; subst h; rfl

theorem numberTail_eq (F : Floats Fl) {e : Nat} {l : FLit} {r : Text} (he : e = 101 ∨ e = 69) (h : l.Ok) (hr : Follow r) :
    numberTail F l.neg l.ip (restText e l ++ r) =
      (if l.frac = [] ∧ l.exp = none then .int (if l.neg then -(digitsVal l.ip : Int) else digitsVal l.ip) else .float (F.parse (.lit l)), r) := by
  obtain ⟨neg, ip, frac, exp⟩ := l
  obtain ⟨h1, h2, h3⟩ := h
  have hex : exponent (expText e exp ++ r) = (exp, r) := by
    cases exp with
    | none =>
      rw [expText, List.nil_append]
      exact exponent_none fun c q e => ⟨(hr c q e).2.2.1, (hr c q e).2.2.2⟩
    | some x =>
      obtain ⟨sg, ds⟩ := x
      obtain ⟨a, b, c⟩ := h3 sg ds rfl
      exact exponent_some he a b c hr.noDigit
  have hfr : fraction (restText e ⟨neg, ip, frac, exp⟩ ++ r) = (frac, expText e exp ++ r) := by
    by_cases hf : frac = []
    · subst hf
      simp only [restText, if_true, List.nil_append]
      refine fraction_none fun q hq => ?_
      cases exp with
      | none => exact (hr 46 q (by simpa [expText] using hq)).2.1 rfl
      | some x => simp [expText] at hq; omega
    · simp only [restText, if_neg hf, List.append_assoc]
      refine fraction_some hf h2 ?_
      intro c q hq
      cases exp with
      | none => exact (hr c q (by simpa [expText] using hq)).1
      | some x => simp [expText] at hq; obtain ⟨h, _⟩ := hq; subst h; rcases he with rfl | rfl <;> rfl
  simp only [numberTail, hfr, hex]
  split <;> rfl

theorem unsigned_eq (F : Floats Fl) {e : Nat} {l : FLit} {r : Text} (he : e = 101 ∨ e = 69) (h : l.Ok) (hr : Follow r) :
    unsigned F l.neg (l.ip ++ restText e l ++ r) = some (numberTail F l.neg l.ip (restText e l ++ r)) := by
  obtain ⟨⟨h1, h2, h3⟩, _⟩ := h
  cases hx : l.ip with
  | nil => exact absurd hx h1
  | cons c q =>
    rw [hx] at h2 h3
    have hc := h2 c (by simp)
    by_cases h0 : c = 48
    · subst h0
      have := h3 q rfl
      subst this
      simp [unsigned]
    · have hd : isDigit c = true := isDigit_iff.2 hc
      have hq : Digits q := fun a ha => h2 a (by simp [ha])
      have := take_digits hq (restText_noDigit (l := l) he hr)
      simp only [List.append_assoc] at this ⊢
      simp [unsigned, h0, hd, this]

theorem number_eq (F : Floats Fl) {e : Nat} {l : FLit} {r : Text} (he : e = 101 ∨ e = 69) (h : l.Ok) (hr : Follow r) :
    number F ((if l.neg then [45] else []) ++ l.ip ++ restText e l ++ r) =
      some (if l.frac = [] ∧ l.exp = none then .int (if l.neg then -(digitsVal l.ip : Int) else digitsVal l.ip) else .float (F.parse (.lit l)), r) := by
  have hu := unsigned_eq F he h hr
  rw [numberTail_eq F he h hr] at hu
  cases hn : l.neg with
  | true => rw [hn] at hu; simpa [number] using hu
  | false =>
    rw [hn] at hu
    rw [← hu]
    obtain ⟨⟨h1, h2, _⟩, _⟩ := h
    cases hx : l.ip with
    | nil => exact absurd hx h1
    | cons c q =>
      have hc := h2 c (by simp [hx])
      unfold number
      split
      · rename_i e; simp at e; omega
      · simp

theorem litText_eq (e : Nat) (l : FLit) : litText e l = (if l.neg then [45] else []) ++ l.ip ++ restText e l := by
  obtain ⟨neg, ip, frac, exp⟩ := l
  have h1 : txt "-" = [45] := rfl
  have h2 : txt "." = [46] := rfl
  cases exp <;> simp [litText, restText, expText, h1, h2]

theorem fraction_sound (r : Text) : r = (if (fraction r).1 = [] then [] else 46 :: (fraction r).1) ++ (fraction r).2 ∧ Digits (fraction r).1 := by
  unfold fraction
  split
  · rename_i q
    split
    · simp [Digits]
    · rename_i h
      simp only [List.cons_append, List.takeWhile_append_dropWhile, true_and]
      exact digits_take q
  · simp [Digits]

theorem expSign_sound (q : Text) : q = (expSign q).1 ++ (expSign q).2 ∧ ((expSign q).1 = [] ∨ (expSign q).1 = [43] ∨ (expSign q).1 = [45]) := by
  unfold expSign
  split <;> simp

theorem exponent_sound (r : Text) : ∃ e, (e = 101 ∨ e = 69) ∧ r = expText e (exponent r).1 ++ (exponent r).2 ∧
    ∀ sg ds, (exponent r).1 = some (sg, ds) → (sg = [] ∨ sg = [43] ∨ sg = [45]) ∧ ds ≠ [] ∧ Digits ds := by
  unfold exponent
  split
  · exact ⟨101, .inl rfl, rfl, by simp⟩
  · rename_i c q
    split
    · rename_i hc
      split
      · exact ⟨c, hc, rfl, by simp⟩
      · rename_i h
        obtain ⟨h1, h2⟩ := expSign_sound q
        refine ⟨c, hc, ?_, ?_⟩
        · simp only [expText, List.cons_append, List.append_assoc, List.takeWhile_append_dropWhile, ← h1]
        · rintro sg ds ⟨⟩
          exact ⟨h2, h, digits_take _⟩
    · exact ⟨101, .inl rfl, rfl, by simp⟩

theorem numberTail_sound (F : Floats Fl) (neg : Bool) {ip r : Text} (hip : IntPart ip) :
    ∃ q, r = q ++ (numberTail F neg ip r).2 ∧ ValueG F (numberTail F neg ip r).1 ((if neg then [45] else []) ++ ip ++ q) := by
  obtain ⟨h1, h2⟩ := fraction_sound r
  obtain ⟨e, he, h3, h4⟩ := exponent_sound (fraction r).2
  by_cases h : (fraction r).1 = [] ∧ (exponent (fraction r).2).1 = none
  · have ht : numberTail F neg ip r = (.int (if neg then -(digitsVal ip : Int) else digitsVal ip), (exponent (fraction r).2).2) := by
      simp [numberTail, h]
    rw [ht]
    refine ⟨[], ?_, ?_⟩
    · rw [h.1] at h1
      rw [h.2] at h3
      simp only [if_true, List.nil_append, expText] at h1 h3 ⊢
      rw [← h3, ← h1]
    · have := val_decimal hip.2.1 hip.1
      cases neg
      · simpa using ValueG.pos ip _ hip this
      · have := ValueG.neg (F := F) ip _ hip this
        rw [List.append_nil]
        exact this
  · have ht : numberTail F neg ip r =
        (.float (F.parse (.lit ⟨neg, ip, (fraction r).1, (exponent (fraction r).2).1⟩)), (exponent (fraction r).2).2) := by
      simp only [numberTail, if_neg h]
    rw [ht]
    refine ⟨restText e ⟨neg, ip, (fraction r).1, (exponent (fraction r).2).1⟩, ?_, ?_⟩
    · simp only [restText, List.append_assoc]
      rw [← h3, ← h1]
    · have := ValueG.float (F := F) ⟨neg, ip, (fraction r).1, (exponent (fraction r).2).1⟩ e ⟨hip, h2, h4⟩
        (by
          by_cases a : (fraction r).1 = []
          · exact .inr fun b => h ⟨a, b⟩
          · exact .inl a)
        (by rcases he with rfl | rfl <;> decide)
      rwa [litText_eq] at this

theorem unsigned_sound (F : Floats Fl) (neg : Bool) {s r : Text} {v : J Fl} (h : unsigned F neg s = some (v, r)) :
    ∃ q, s = q ++ r ∧ ValueG F v ((if neg then [45] else []) ++ q) := by
  unfold unsigned at h
  split at h
  · cases h
  · rename_i c q
    split at h
    · rename_i hc
      subst hc
      obtain ⟨t, h1, h2⟩ := numberTail_sound F neg (ip := [48]) (r := q) ⟨by simp, by simp [Digits], by simp⟩
      rw [Option.some.inj h] at h1 h2
      exact ⟨48 :: t, by rw [h1]; rfl, by simpa using h2⟩
    · rename_i hc
      split at h
      · rename_i hd
        obtain ⟨t, h1, h2⟩ := numberTail_sound F neg (ip := c :: q.takeWhile isDigit) (r := q.dropWhile isDigit) ⟨by simp, by
          intro a ha
          rcases List.mem_cons.1 ha with rfl | ha
          · exact isDigit_iff.1 hd
          · exact digits_take q a ha, by intro r hr; simp at hr; exact absurd hr.1 hc⟩
        rw [Option.some.inj h] at h1 h2
        refine ⟨c :: q.takeWhile isDigit ++ t, ?_, by simpa using h2⟩
        simp only [List.cons_append, List.append_assoc]
        simp only at h1
        rw [← h1, List.takeWhile_append_dropWhile]
      · cases h

theorem number_sound (F : Floats Fl) {s r : Text} {v : J Fl} (h : number F s = some (v, r)) : ∃ q, s = q ++ r ∧ ValueG F v q := by
  unfold number at h
  split at h
  · obtain ⟨q, rfl, h2⟩ := unsigned_sound F true h
    exact ⟨45 :: q, rfl, by simpa using h2⟩
  · obtain ⟨q, h1, h2⟩ := unsigned_sound F false h
    exact ⟨q, h1, by simpa using h2⟩

/-! ## Strings -/

theorem hexVal_iff {c x : Nat} : hexVal c = some x ↔ Hex c x := by
  constructor
  · intro h
    unfold hexVal at h
    split at h
    · rename_i hc
      have := Hex.dec (c - 48) (by omega)
      rw [show 48 + (c - 48) = c by omega, Option.some.inj h] at this
      exact this
    · split at h
      · rename_i hc
        have := Hex.lower (c - 97) (by omega)
        rw [show 97 + (c - 97) = c by omega, show 10 + (c - 97) = c - 87 by omega, Option.some.inj h] at this
        exact this
      · split at h
        · rename_i hc
          have := Hex.upper (c - 65) (by omega)
          rw [show 65 + (c - 65) = c by omega, show 10 + (c - 65) = c - 55 by omega, Option.some.inj h] at this
          exact this
        · cases h
  · intro h
    cases h with
    | dec d h => unfold hexVal; rw [if_pos (by omega)]; congr 1; omega
    | lower d h => unfold hexVal; rw [if_neg (by omega), if_pos (by omega)]; congr 1; omega
    | upper d h => unfold hexVal; rw [if_neg (by omega), if_neg (by omega), if_pos (by omega)]; congr 1; omega

theorem unit_complete {b : Bool} {c : Nat} {t : Text} (h : UnitG b c t) (r : Text) :
    unit (t ++ r) = some ((b, c), r) ∧ ∃ a q, t = a :: q ∧ a ≠ 34 := by
  cases h with
  | plain _ h1 h2 h3 =>
    have h2 : c ≠ 34 := fun e => h2 (by rw [e]; rfl)
    have h3 : c ≠ 92 := fun e => h3 (by rw [e]; rfl)
    refine ⟨?_, c, [], rfl, h2⟩
    have : ¬ c < 32 := by omega
    simp [unit, h3, this]
  | quote => exact ⟨rfl, 92, _, rfl, by decide⟩
  | backslash => exact ⟨rfl, 92, _, rfl, by decide⟩
  | slash => exact ⟨rfl, 92, _, rfl, by decide⟩
  | back => exact ⟨rfl, 92, _, rfl, by decide⟩
  | feed => exact ⟨rfl, 92, _, rfl, by decide⟩
  | newline => exact ⟨rfl, 92, _, rfl, by decide⟩
  | ret => exact ⟨rfl, 92, _, rfl, by decide⟩
  | tab => exact ⟨rfl, 92, _, rfl, by decide⟩
  | hex a b c d w x y z ha hb hc hd =>
    refine ⟨?_, 92, _, rfl, by decide⟩
    have h1 := hexVal_iff.2 ha
    have h2 := hexVal_iff.2 hb
    have h3 := hexVal_iff.2 hc
    have h4 := hexVal_iff.2 hd
    have e : txt "\\u" = [92, 117] := rfl
    simp only [e, List.cons_append, List.nil_append, unit, if_true, hex4, h1, h2, h3, h4, Option.map_some]
    congr 3
    omega

theorem unit_sound {s r : Text} {b : Bool} {c : Nat} (h : unit s = some ((b, c), r)) (hq : ∀ q, s ≠ 34 :: q) :
    ∃ t, s = t ++ r ∧ UnitG b c t := by
  unfold unit at h
  split at h
  · cases h
  · rename_i a q
    split at h
    · rename_i ha
      subst ha
      split at h
      · cases h
      · rename_i e q
        split at h
        · rename_i he
          subst he
          split at h
          · rename_i a b c d q
            simp only [Option.map_eq_some_iff] at h
            obtain ⟨x, hx, h⟩ := h
            cases h
            unfold hex4 at hx
            split at hx
            · rename_i w x y z hw hx' hy hz
              have := UnitG.hex _ _ _ _ _ _ _ _ (hexVal_iff.1 hw) (hexVal_iff.1 hx') (hexVal_iff.1 hy) (hexVal_iff.1 hz)
              rw [show ((w * 16 + x) * 16 + y) * 16 + z = 4096 * w + 256 * x + 16 * y + z by omega, Option.some.inj hx] at this
              exact ⟨_, rfl, this⟩
            · cases hx
          · cases h
        · simp only [Option.map_eq_some_iff] at h
          obtain ⟨x, hx, h⟩ := h
          cases h
          unfold backslash at hx
          repeat' split at hx
          all_goals first | (rename_i he; subst he; cases hx) | cases hx
          · exact ⟨_, rfl, .quote⟩
          · exact ⟨_, rfl, .backslash⟩
          · exact ⟨_, rfl, .slash⟩
          · exact ⟨_, rfl, .back⟩
          · exact ⟨_, rfl, .feed⟩
          · exact ⟨_, rfl, .newline⟩
          · exact ⟨_, rfl, .ret⟩
          · exact ⟨_, rfl, .tab⟩
    · rename_i ha
      split at h
      · cases h
      · cases h
        refine ⟨[c], rfl, .plain c (by omega) ?_ ?_⟩
        · intro e
          have : c = 34 := (List.cons.inj e).1
          exact hq r (by rw [this])
        · intro e
          exact ha (List.cons.inj e).1

theorem units_complete {us : List (Bool × Nat)} {t : Text} (h : UnitsG us t) (r : Text) (k : Nat) (hk : t.length + 1 ≤ k) :
    units k (t ++ 34 :: r) = some (us, r) := by
  induction h generalizing k with
  | nil =>
    obtain ⟨k, rfl⟩ : ∃ j, k = j + 1 := ⟨k - 1, by simp at hk; omega⟩
    rfl
  | cons b c t us ts hu _ ih =>
    obtain ⟨k, rfl⟩ : ∃ j, k = j + 1 := ⟨k - 1, by simp at hk; omega⟩
    obtain ⟨h1, a, q, ha, hne⟩ := unit_complete hu (ts ++ 34 :: r)
    subst ha
    have := ih k (by simp at hk; omega)
    rw [List.append_assoc]
    rw [List.cons_append] at h1 ⊢
    rw [units, h1]
    · simp [this]
    · intro r' hr'
      exact hne (List.cons.inj hr').1

theorem units_sound {k : Nat} {s r : Text} {us : List (Bool × Nat)} (h : units k s = some (us, r)) :
    ∃ t, s = t ++ 34 :: r ∧ UnitsG us t := by
  induction k generalizing s us with
  | zero => cases h
  | succ k ih =>
    unfold units at h
    split at h
    · cases h
    · cases h; exact ⟨[], rfl, .nil⟩
    · rename_i k' e hn
      cases e
      split at h
      · cases h
      · rename_i u q hu
        simp only [Option.map_eq_some_iff] at h
        obtain ⟨⟨us', q'⟩, h1, h2⟩ := h
        cases h2
        obtain ⟨t', e1, g1⟩ := ih h1
        obtain ⟨t, e2, g2⟩ := unit_sound (b := u.1) (c := u.2) hu hn
        exact ⟨t ++ t', by rw [e2, e1, List.append_assoc], .cons u.1 u.2 t us' t' g2 g1⟩

theorem isHigh_iff {c : Nat} : isHigh c = true ↔ High c := by
  simp only [isHigh, High, Bool.and_eq_true, decide_eq_true_eq]; omega

theorem isLow_iff {c : Nat} : isLow c = true ↔ Low c := by
  simp only [isLow, Low, Bool.and_eq_true, decide_eq_true_eq]; omega

theorem joined_join : ∀ us : List (Bool × Nat), Joined us (join us)
  | [] => .nil
  | [(b, c)] => .one b c [] [] (by intro l us _ _ e; cases e) .nil
  | (b, c) :: (b', c') :: us => by
    rw [join]
    split
    · rename_i h
      simp only [Bool.and_eq_true] at h
      obtain ⟨⟨⟨rfl, rfl⟩, h1⟩, h2⟩ := h
      have := Joined.pair c c' us _ (isHigh_iff.1 h1) (isLow_iff.1 h2) (joined_join us)
      rw [Nat.mul_comm] at this
      exact this
    · rename_i h
      refine .one b c _ _ ?_ (joined_join ((b', c') :: us))
      intro l us' hb hh e hl
      cases e
      subst hb
      exact h (by simp [isHigh_iff.2 hh, isLow_iff.2 hl])

theorem joined_unique {us : List (Bool × Nat)} {s : Text} (h : Joined us s) : s = join us := by
  induction h with
  | nil => rfl
  | pair h l us t hh hl _ ih =>
    rw [join, if_pos (by simp [isHigh_iff.2 hh, isLow_iff.2 hl]), ← ih, Nat.mul_comm]
  | one b c us t hn _ ih =>
    cases us with
    | nil => rw [ih]; rfl
    | cons u us =>
      rw [join, if_neg, ← ih]
      intro e
      simp only [Bool.and_eq_true] at e
      obtain ⟨⟨⟨e1, e2⟩, e3⟩, e4⟩ := e
      obtain ⟨b', c'⟩ := u
      simp only at e2
      subst e2
      exact hn c' us e1 (isHigh_iff.1 e3) rfl (isLow_iff.1 e4)

theorem scanString_complete {s t : Text} (h : StrG s t) (r : Text) : scanString (t ++ 34 :: r) = some (s, r) := by
  obtain ⟨us, h1, h2⟩ := h
  have := units_complete h1 r ((t ++ 34 :: r).length + 1) (by simp)
  rw [scanString, this, joined_unique h2]
  rfl

theorem scanString_sound {s t r : Text} (h : scanString s = some (t, r)) : ∃ q, s = q ++ 34 :: r ∧ StrG t q := by
  simp only [scanString, Option.map_eq_some_iff] at h
  obtain ⟨⟨us, q⟩, h1, h2⟩ := h
  cases h2
  obtain ⟨t, e, g⟩ := units_sound h1
  exact ⟨t, e, us, g, joined_join us⟩

/-! ## Dictionaries -/

theorem insert_keys (d : List (Text × J Fl)) (x : Text × J Fl) :
    (insert d x).map Prod.fst = if x.1 ∈ d.map Prod.fst then d.map Prod.fst else d.map Prod.fst ++ [x.1] := by
  unfold insert
  by_cases h : x.1 ∈ d.map Prod.fst
  · have : d.any (fun y => y.1 = x.1) = true := by
      obtain ⟨y, h1, h2⟩ := List.mem_map.1 h
      exact List.any_eq_true.2 ⟨y, h1, by simp [h2]⟩
    rw [if_pos this, if_pos h, List.map_map]
    refine List.map_congr_left fun y _ => ?_
    simp only [Function.comp]
    split
    · rename_i e; exact e.symm
    · rfl
  · have : ¬ d.any (fun y => y.1 = x.1) = true := by
      intro e
      obtain ⟨y, h1, h2⟩ := List.any_eq_true.1 e
      exact h (List.mem_map.2 ⟨y, h1, by simpa using h2⟩)
    rw [if_neg this, if_neg h]
    simp

theorem insert_lookup (d : List (Text × J Fl)) (x : Text × J Fl) (k : Text) :
    (insert d x).lookup k = if k = x.1 then some x.2 else d.lookup k := by
  obtain ⟨a, v⟩ := x
  induction d with
  | nil =>
    by_cases h : k = a
    · simp [insert, h]
    · have : (k == a) = false := by simp [h]
      simp [insert, h, List.lookup, this]
  | cons y d ih =>
    obtain ⟨b, u⟩ := y
    by_cases hb : b = a
    · subst hb
      have : insert ((b, u) :: d) (b, v) = (b, v) :: d.map (fun y => if y.1 = b then (b, v) else y) := by simp [insert]
      rw [this]
      by_cases h : k = b
      · simp [h]
      · have h' : (k == b) = false := by simp [h]
        simp only [List.lookup_cons, h', if_neg h]
        clear ih this
        induction d with
        | nil => rfl
        | cons z d ih =>
          obtain ⟨c, w⟩ := z
          by_cases hc : c = b
          · subst hc
            simp [List.lookup_cons, h', ih]
          · simp [List.lookup_cons, hc, ih]
    · have hi : insert ((b, u) :: d) (a, v) = (b, u) :: insert d (a, v) := by
        simp only [insert, List.any_cons, hb, decide_false, Bool.false_or, List.map_cons, if_false]
        split <;> rfl
      rw [hi]
      simp only [List.lookup_cons]
      by_cases h : k = b
      · subst h
        have : k ≠ a := hb
        simp [this]
      · have h' : (k == b) = false := by simp [h]
        simp only [h', ih]

theorem fold_keys (ps d : List (Text × J Fl)) :
    (ps.foldl insert d).map Prod.fst = d.map Prod.fst ++ (firsts (ps.map Prod.fst)).filter (fun k => k ∉ d.map Prod.fst) := by
  induction ps generalizing d with
  | nil => simp [firsts]
  | cons x ps ih =>
    rw [List.foldl_cons, ih, insert_keys, List.map_cons, firsts]
    by_cases h : x.1 ∈ d.map Prod.fst
    · rw [if_pos h, List.filter_cons_of_neg (by simpa using h), List.filter_filter]
      congr 1
      refine List.filter_congr fun k _ => ?_
      by_cases e : k = x.1
      · subst e; simp only [h, not_true_eq_false, decide_false, Bool.false_and]
      · simp [e]
    · rw [if_neg h, List.filter_cons_of_pos (by simpa using h), List.filter_filter, List.append_assoc]
      congr 1
      simp only [List.singleton_append]
      congr 1
      refine List.filter_congr fun k _ => ?_
      by_cases e : k = x.1
      · subst e; simp
      · simp [e]

theorem fold_lookup (ps d : List (Text × J Fl)) (k : Text) : (ps.foldl insert d).lookup k = (ps.reverse.lookup k).or (d.lookup k) := by
  induction ps generalizing d with
  | nil => simp
  | cons x ps ih =>
    rw [List.foldl_cons, ih, insert_lookup, List.reverse_cons, List.lookup_append]
    obtain ⟨a, v⟩ := x
    by_cases h : k = a
    · subst h
      cases ps.reverse.lookup k <;> simp
    · have h' : (k == a) = false := by simp [h]
      cases ps.reverse.lookup k <;> simp [h, List.lookup_cons, h']

theorem dict_isDict (ps : List (Text × J Fl)) : IsDict ps (dict ps) := by
  constructor
  · rw [dict, fold_keys]; simp
  · intro k; rw [dict, fold_lookup]; simp

theorem firsts_nodup (l : List Text) : (firsts l).Nodup := by
  induction l with
  | nil => simp [firsts]
  | cons a l ih =>
    rw [firsts, List.nodup_cons]
    exact ⟨by simp, ih.filter _⟩

theorem lookup_ext : ∀ {d e : List (Text × J Fl)}, d.map Prod.fst = e.map Prod.fst → (d.map Prod.fst).Nodup →
    (∀ k, d.lookup k = e.lookup k) → d = e
  | [], [], _, _, _ => rfl
  | [], _ :: _, h, _, _ => by simp at h
  | _ :: _, [], h, _, _ => by simp at h
  | (a, v) :: d, (b, u) :: e, h, hn, hl => by
    simp only [List.map_cons, List.cons.injEq] at h
    obtain ⟨rfl, h⟩ := h
    rw [List.map_cons, List.nodup_cons] at hn
    have h1 := hl a
    simp at h1
    subst h1
    rw [lookup_ext h hn.2 fun k => ?_]
    by_cases hk : k = a
    · subst hk
      have hx : ∀ l : List (Text × J Fl), k ∉ l.map Prod.fst → l.lookup k = none := by
        intro l hl
        induction l with
        | nil => rfl
        | cons y l ih =>
          simp only [List.map_cons, List.mem_cons, not_or] at hl
          have : (k == y.1) = false := by simp [hl.1]
          rw [List.lookup_cons, this]
          exact ih hl.2
      rw [hx d hn.1, hx e (h ▸ hn.1)]
    · have := hl k
      have hk' : (k == a) = false := by simp [hk]
      simpa [List.lookup_cons, hk'] using this

theorem isDict_unique {ps d : List (Text × J Fl)} (h : IsDict ps d) : d = dict ps := by
  have h' := dict_isDict ps
  exact lookup_ext (h.1.trans h'.1.symm) (h.1 ▸ firsts_nodup _) fun k => (h.2 k).trans (h'.2 k).symm

/-! ## Values -/

theorem word_none (F : Floats Fl) {c : Nat} {q : Text} (h : isDigit c = true) : word (words F) (c :: q) = none := by
  have := isDigit_iff.1 h
  have h1 : ¬ 110 = c := by omega
  have h2 : ¬ 116 = c := by omega
  have h3 : ¬ 102 = c := by omega
  have h4 : ¬ 78 = c := by omega
  have h5 : ¬ 73 = c := by omega
  have h6 : ¬ 45 = c := by omega
  simp [word, words, strip, nullT, trueT, falseT, nanT, infT, h1, h2, h3, h4, h5, h6]

theorem word_none_neg (F : Floats Fl) {c : Nat} {q : Text} (h : isDigit c = true) : word (words F) (45 :: c :: q) = none := by
  have := isDigit_iff.1 h
  have h5 : ¬ 73 = c := by omega
  simp [word, words, strip, nullT, trueT, falseT, nanT, infT, h5]

theorem value_number (F : Floats Fl) {e : Nat} {l : FLit} {r : Text} (he : e = 101 ∨ e = 69) (h : l.Ok) (hr : Follow r) (k : Nat) :
    value F (k + 1) ((if l.neg then [45] else []) ++ l.ip ++ restText e l ++ r) =
      some (if l.frac = [] ∧ l.exp = none then .int (if l.neg then -(digitsVal l.ip : Int) else digitsVal l.ip) else .float (F.parse (.lit l)), r) := by
  have hn := number_eq F he h hr
  obtain ⟨⟨h1, h2, _⟩, _⟩ := h
  cases hx : l.ip with
  | nil => exact absurd hx h1
  | cons c q =>
    have hc := h2 c (by simp [hx])
    have hd := isDigit_iff.2 hc
    rw [hx] at hn
    cases hneg : l.neg with
    | true =>
      rw [hneg] at hn
      simp only [if_true, List.cons_append, List.nil_append] at hn ⊢
      rw [value]
      simp only [word_none_neg F hd, hn]
      simp
    | false =>
      rw [hneg] at hn
      simp only [Bool.false_eq_true, if_false, List.cons_append, List.nil_append] at hn ⊢
      rw [value]
      simp only [word_none F hd, hn]
      rw [if_neg (by omega), if_neg (by omega), if_neg (by omega)]

theorem value_head {F : Floats Fl} {v : J Fl} {t : Text} (h : ValueG F v t) : ∃ c q, t = c :: q ∧ isWs c = false ∧ c ≠ 93 := by
  have ip : ∀ {t r : Text}, IntPart t → ∃ c q, t ++ r = c :: q ∧ isWs c = false ∧ c ≠ 93 := by
    intro t r h
    cases t with
    | nil => exact absurd rfl h.1
    | cons c q =>
      have := h.2.1 c (by simp)
      refine ⟨c, q ++ r, rfl, ?_, by omega⟩
      simp only [isWs, Bool.or_eq_false_iff, decide_eq_false_iff_not]
      omega
  cases h with
  | null => exact ⟨_, _, rfl, rfl, by decide⟩
  | true => exact ⟨_, _, rfl, rfl, by decide⟩
  | false => exact ⟨_, _, rfl, rfl, by decide⟩
  | nan => exact ⟨_, _, rfl, rfl, by decide⟩
  | inf => exact ⟨_, _, rfl, rfl, by decide⟩
  | ninf => exact ⟨_, _, rfl, rfl, by decide⟩
  | pos t n h _ => have := ip (r := []) h; simpa using this
  | neg t n h _ => exact ⟨_, _, rfl, rfl, by decide⟩
  | float l e h _ _ =>
    rw [litText_eq]
    cases l.neg with
    | true => exact ⟨45, _, rfl, rfl, by decide⟩
    | false => simpa using ip (r := restText e l) h.1
  | str s t _ => exact ⟨_, _, rfl, rfl, by decide⟩
  | arr0 w _ => exact ⟨_, _, rfl, rfl, by decide⟩
  | arr w l t _ _ => exact ⟨_, _, rfl, rfl, by decide⟩
  | obj0 w _ => exact ⟨_, _, rfl, rfl, by decide⟩
  | obj w ps d t _ _ _ => exact ⟨_, _, rfl, rfl, by decide⟩

theorem elems_head {F : Floats Fl} {l : List (J Fl)} {t : Text} (h : ElemsG F l t) : ∃ c q, t = c :: q ∧ isWs c = false ∧ c ≠ 93 := by
  cases h with
  | one v t w hv _ =>
    obtain ⟨c, q, rfl, h⟩ := value_head hv
    exact ⟨c, q ++ w, rfl, h⟩
  | more v t w w' l t' hv _ _ _ =>
    obtain ⟨c, q, rfl, h⟩ := value_head hv
    exact ⟨c, q ++ w ++ txt "," ++ w' ++ t', by simp, h⟩

theorem items_head {F : Floats Fl} {l : List (Text × J Fl)} {t : Text} (h : ItemsG F l t) : ∃ q, t = 34 :: q := by
  cases h with
  | one => exact ⟨_, by simp only [List.append_assoc]; rfl⟩
  | more => exact ⟨_, by simp only [List.append_assoc]; rfl⟩

theorem follow_ws {w : Text} {c : Nat} {r : Text} (h : Ws w) (hc : c = 93 ∨ c = 44 ∨ c = 125) : Follow (w ++ c :: r) := by
  intro a q e
  have : (a = 32 ∨ a = 9 ∨ a = 10 ∨ a = 13) ∨ a = 93 ∨ a = 44 ∨ a = 125 := by
    cases w with
    | nil => simp at e; omega
    | cons b w => simp at e; have := h b (by simp); omega
  refine ⟨?_, by omega, by omega, by omega⟩
  rw [Bool.eq_false_iff]
  intro hd
  have := isDigit_iff.1 hd
  omega

theorem skip_to {w : Text} {c : Nat} {r : Text} (h : Ws w) (hc : isWs c = false) : skip (w ++ c :: r) = c :: r := by
  rw [skip_ws h, skip_cons hc]

mutual

theorem value_complete {F : Floats Fl} : ∀ {v : J Fl} {t : Text}, ValueG F v t → ∀ k r, 2 * t.length + 1 ≤ k → Follow r →
    value F k (t ++ r) = some (v, r)
  | _, _, .null, k + 1, r, _, _ => rfl
  | _, _, .true, k + 1, r, _, _ => rfl
  | _, _, .false, k + 1, r, _, _ => rfl
  | _, _, .nan, k + 1, r, _, _ => rfl
  | _, _, .inf, k + 1, r, _, _ => rfl
  | _, _, .ninf, k + 1, r, _, _ => rfl
  | _, _, .pos t n hi hd, k + 1, r, _, hr => by
    have := value_number F (e := 101) (l := ⟨false, t, [], none⟩) (.inl rfl) ⟨hi, by simp [Digits], by simp⟩ hr k
    simpa [restText, expText, decimal_val hd] using this
  | _, _, .neg t n hi hd, k + 1, r, _, hr => by
    have := value_number F (e := 101) (l := ⟨true, t, [], none⟩) (.inl rfl) ⟨hi, by simp [Digits], by simp⟩ hr k
    have e : txt "-" = [45] := rfl
    simpa [restText, expText, decimal_val hd, e] using this
  | _, _, .float l e hl hf he, k + 1, r, _, hr => by
    have he' : e = 101 ∨ e = 69 := by
      rcases he with h | h
      · exact .inl (List.cons.inj h).1
      · exact .inr (List.cons.inj h).1
    have := value_number F he' hl hr k
    rw [litText_eq, this, if_neg]
    rintro ⟨a, b⟩
    rcases hf with h | h
    · exact h a
    · exact h b
  | _, _, .str s t hs, k + 1, r, _, _ => by
    have e : txt "\"" ++ t ++ txt "\"" ++ r = 34 :: (t ++ 34 :: r) := by simp only [List.append_assoc]; rfl
    rw [e, value, if_pos rfl, scanString_complete hs]
    rfl
  | _, _, .arr0 w hw, k + 1, r, _, _ => by
    have e : txt "[" ++ w ++ txt "]" ++ r = 91 :: (w ++ 93 :: r) := by simp only [List.append_assoc]; rfl
    rw [e, value, if_neg (by decide), if_neg (by decide), if_pos rfl, skip_to hw rfl]
    rfl
  | _, _, .arr w l t hw hl, k + 1, r, hk, _ => by
    have e : txt "[" ++ w ++ t ++ txt "]" ++ r = 91 :: (w ++ (t ++ 93 :: r)) := by simp only [List.append_assoc]; rfl
    have hlen : (txt "[" ++ w ++ t ++ txt "]").length = w.length + t.length + 2 := by
      simp only [List.length_append]; show 1 + _ + _ + 1 = _; omega
    have ih := elems_complete hl k r (by omega)
    obtain ⟨c, q, rfl, hc, hc'⟩ := elems_head hl
    rw [e, value, if_neg (by decide), if_neg (by decide), if_pos rfl, List.cons_append, skip_to hw hc]
    split
    · rename_i h; exact absurd (List.cons.inj h).1 hc'
    · rw [List.cons_append] at ih; rw [ih]; rfl
  | _, _, .obj0 w hw, k + 1, r, _, _ => by
    have e : txt "{" ++ w ++ txt "}" ++ r = 123 :: (w ++ 125 :: r) := by simp only [List.append_assoc]; rfl
    rw [e, value, if_neg (by decide), if_pos rfl, skip_to hw rfl]
    rfl
  | _, _, .obj w ps d t hw hl hd, k + 1, r, hk, _ => by
    have e : txt "{" ++ w ++ t ++ txt "}" ++ r = 123 :: (w ++ (t ++ 125 :: r)) := by simp only [List.append_assoc]; rfl
    have hlen : (txt "{" ++ w ++ t ++ txt "}").length = w.length + t.length + 2 := by
      simp only [List.length_append]; show 1 + _ + _ + 1 = _; omega
    have ih := items_complete hl k r (by omega)
    obtain ⟨q, rfl⟩ := items_head hl
    rw [e, value, if_neg (by decide), if_pos rfl, List.cons_append, skip_to hw rfl]
    rw [List.cons_append] at ih
    simp only [ih, Option.map_some, isDict_unique hd]
termination_by structural _ _ h => h

theorem elems_complete {F : Floats Fl} : ∀ {l : List (J Fl)} {t : Text}, ElemsG F l t → ∀ k r, 2 * t.length + 2 ≤ k →
    elems F k (t ++ 93 :: r) = some (l, r)
  | _, _, .one v t w hv hw, k + 1, r, hk => by
    have ih := value_complete hv k (w ++ 93 :: r) (by simp at hk; omega) (follow_ws hw (.inl rfl))
    rw [List.append_assoc, elems, ih]
    simp only [skip_to hw (show isWs 93 = false from rfl)]
  | _, _, .more v t w w' l t' hv hw hw' hl, k + 1, r, hk => by
    have e : t ++ w ++ txt "," ++ w' ++ t' ++ 93 :: r = t ++ (w ++ 44 :: (w' ++ (t' ++ 93 :: r))) := by simp only [List.append_assoc]; rfl
    have hlen : (t ++ w ++ txt "," ++ w' ++ t').length = t.length + w.length + 1 + w'.length + t'.length := by
      simp only [List.length_append]; rfl
    have ih := value_complete hv k (w ++ 44 :: (w' ++ (t' ++ 93 :: r))) (by omega) (follow_ws hw (.inr (.inl rfl)))
    have ih' := elems_complete hl k r (by omega)
    obtain ⟨c, q, rfl, hc, _⟩ := elems_head hl
    rw [e, elems, ih]
    simp only [skip_to hw (show isWs 44 = false from rfl)]
    rw [List.cons_append] at ih' ⊢
    rw [skip_to hw' hc, ih']
    rfl
termination_by structural _ _ h => h

theorem items_complete {F : Floats Fl} : ∀ {l : List (Text × J Fl)} {t : Text}, ItemsG F l t → ∀ k r, 2 * t.length + 2 ≤ k →
    items F k (t ++ 125 :: r) = some (l, r)
  | _, _, .one s kt w1 w2 v t w hs hw1 hw2 hv hw, k + 1, r, hk => by
    have e : txt "\"" ++ kt ++ txt "\"" ++ w1 ++ txt ":" ++ w2 ++ t ++ w ++ 125 :: r =
        34 :: (kt ++ 34 :: (w1 ++ 58 :: (w2 ++ (t ++ (w ++ 125 :: r))))) := by simp only [List.append_assoc]; rfl
    have hlen : (txt "\"" ++ kt ++ txt "\"" ++ w1 ++ txt ":" ++ w2 ++ t ++ w).length =
        1 + kt.length + 1 + w1.length + 1 + w2.length + t.length + w.length := by
      simp only [List.length_append]; rfl
    have ih := value_complete hv k (w ++ 125 :: r) (by omega) (follow_ws hw (.inr (.inr rfl)))
    obtain ⟨c, q, rfl, hc, _⟩ := value_head hv
    rw [List.cons_append] at ih
    rw [e, items]
    simp only [scanString_complete hs, skip_to hw1 (show isWs 58 = false from rfl), List.cons_append, skip_to hw2 hc, ih,
      skip_to hw (show isWs 125 = false from rfl)]
  | _, _, .more s kt w1 w2 v t w w' l t' hs hw1 hw2 hv hw hw' hl, k + 1, r, hk => by
    have e : txt "\"" ++ kt ++ txt "\"" ++ w1 ++ txt ":" ++ w2 ++ t ++ w ++ txt "," ++ w' ++ t' ++ 125 :: r =
        34 :: (kt ++ 34 :: (w1 ++ 58 :: (w2 ++ (t ++ (w ++ 44 :: (w' ++ (t' ++ 125 :: r))))))) := by simp only [List.append_assoc]; rfl
    have hlen : (txt "\"" ++ kt ++ txt "\"" ++ w1 ++ txt ":" ++ w2 ++ t ++ w ++ txt "," ++ w' ++ t').length =
        1 + kt.length + 1 + w1.length + 1 + w2.length + t.length + w.length + 1 + w'.length + t'.length := by
      simp only [List.length_append]; rfl
    have ih := value_complete hv k (w ++ 44 :: (w' ++ (t' ++ 125 :: r))) (by omega) (follow_ws hw (.inr (.inl rfl)))
    have ih' := items_complete hl k r (by omega)
    obtain ⟨c, q, rfl, hc, _⟩ := value_head hv
    obtain ⟨q', rfl⟩ := items_head hl
    simp only [List.cons_append] at ih ih'
    rw [e, items]
    simp only [scanString_complete hs, skip_to hw1 (show isWs 58 = false from rfl), List.cons_append, skip_to hw2 hc, ih,
      skip_to hw (show isWs 44 = false from rfl), skip_to hw' (show isWs 34 = false from rfl), ih', Option.map_some]
termination_by structural _ _ h => h

end

theorem word_sound {F : Floats Fl} {s r : Text} {v : J Fl} (h : word (words F) s = some (v, r)) : ∃ t, s = t ++ r ∧ ValueG F v t := by
  have key : ∀ l : List (Text × J Fl), (∀ x ∈ l, ValueG F x.2 x.1) → word l s = some (v, r) → ∃ t, s = t ++ r ∧ ValueG F v t := by
    intro l
    induction l with
    | nil => intro _ h; cases h
    | cons x l ih =>
      intro hl h
      obtain ⟨p, u⟩ := x
      simp only [word] at h
      split at h
      · rename_i q hq
        cases h
        exact ⟨p, strip_eq.1 hq, hl (p, v) (by simp)⟩
      · exact ih (fun x hx => hl x (by simp [hx])) h
  refine key _ ?_ h
  intro x hx
  simp only [words, List.mem_cons, List.not_mem_nil, or_false] at hx
  rcases hx with rfl | rfl | rfl | rfl | rfl | rfl
  · exact .null
  · exact .true
  · exact .false
  · exact .nan
  · exact .inf
  · exact .ninf

theorem sound (F : Floats Fl) : ∀ k : Nat,
    (∀ s v r, value F k s = some (v, r) → ∃ t, s = t ++ r ∧ ValueG F v t) ∧
    (∀ s l r, elems F k s = some (l, r) → ∃ t, s = t ++ 93 :: r ∧ ElemsG F l t) ∧
    ∀ s l r, items F k s = some (l, r) → ∃ t, s = t ++ 125 :: r ∧ ItemsG F l t := by
  intro k
  induction k with
  | zero => exact ⟨fun s v r h => by simp [value] at h, fun s v r h => by simp [elems] at h, fun s v r h => by simp [items] at h⟩
  | succ k ih =>
    obtain ⟨ihv, ihe, ihi⟩ := ih
    refine ⟨?_, ?_, ?_⟩
    · intro s v r h
      cases s with
      | nil => simp [value] at h
      | cons c q =>
        rw [value] at h
        split at h
        · rename_i hc
          subst hc
          simp only [Option.map_eq_some_iff] at h
          obtain ⟨⟨t, q'⟩, h1, h2⟩ := h
          cases h2
          obtain ⟨u, rfl, g⟩ := scanString_sound h1
          exact ⟨34 :: u ++ [34], by simp, .str _ _ g⟩
        · split at h
          · rename_i hc
            subst hc
            obtain ⟨w, hw, e⟩ := skip_split q
            split at h
            · rename_i q' hq
              cases h
              rw [hq] at e
              exact ⟨123 :: w ++ [125], by rw [e]; simp, .obj0 w hw⟩
            · rename_i hq
              simp only [Option.map_eq_some_iff] at h
              obtain ⟨⟨ps, q'⟩, h1, h2⟩ := h
              cases h2
              obtain ⟨t, et, g⟩ := ihi _ _ _ h1
              rw [et] at e
              exact ⟨123 :: w ++ t ++ [125], by rw [e]; simp, .obj w ps _ t hw g (dict_isDict ps)⟩
          · split at h
            · rename_i hc
              subst hc
              obtain ⟨w, hw, e⟩ := skip_split q
              split at h
              · rename_i q' hq
                cases h
                rw [hq] at e
                exact ⟨91 :: w ++ [93], by rw [e]; simp, .arr0 w hw⟩
              · rename_i hq
                simp only [Option.map_eq_some_iff] at h
                obtain ⟨⟨l, q'⟩, h1, h2⟩ := h
                cases h2
                obtain ⟨t, et, g⟩ := ihe _ _ _ h1
                rw [et] at e
                exact ⟨91 :: w ++ t ++ [93], by rw [e]; simp, .arr w l t hw g⟩
            · split at h
              · rename_i x hx
                cases h
                exact word_sound hx
              · exact number_sound F h
    · intro s l r h
      rw [elems] at h
      split at h
      · cases h
      · rename_i v q hv
        obtain ⟨t, rfl, g⟩ := ihv _ _ _ hv
        obtain ⟨w, hw, e⟩ := skip_split q
        split at h
        · rename_i q' hq
          cases h
          rw [hq] at e
          exact ⟨t ++ w, by rw [e]; simp, .one v t w g hw⟩
        · rename_i q' hq
          simp only [Option.map_eq_some_iff] at h
          obtain ⟨⟨l', q''⟩, h1, h2⟩ := h
          cases h2
          obtain ⟨t', et, g'⟩ := ihe _ _ _ h1
          obtain ⟨w', hw', e'⟩ := skip_split q'
          rw [hq, e', et] at e
          exact ⟨t ++ w ++ [44] ++ w' ++ t', by rw [e]; simp, .more v t w w' l' t' g hw hw' g'⟩
        · cases h
    · intro s l r h
      rw [items.eq_def] at h
      dsimp only at h
      split at h
      · rename_i q
        split at h
        · cases h
        · rename_i kt q1 hk
          obtain ⟨ks, rfl, gk⟩ := scanString_sound hk
          obtain ⟨w1, hw1, e1⟩ := skip_split q1
          split at h
          · rename_i q2 hq2
            obtain ⟨w2, hw2, e2⟩ := skip_split q2
            split at h
            · cases h
            · rename_i v q3 hv
              obtain ⟨t, et, g⟩ := ihv _ _ _ hv
              obtain ⟨w, hw, e⟩ := skip_split q3
              rw [hq2, e2, et] at e1
              split at h
              · rename_i q' hq
                cases h
                rw [hq] at e
                exact ⟨34 :: ks ++ [34] ++ w1 ++ [58] ++ w2 ++ t ++ w, by rw [e1, e]; simp, .one kt ks w1 w2 v t w gk hw1 hw2 g hw⟩
              · rename_i q' hq
                simp only [Option.map_eq_some_iff] at h
                obtain ⟨⟨l', q''⟩, h1, h2⟩ := h
                cases h2
                obtain ⟨t', et', g'⟩ := ihi _ _ _ h1
                obtain ⟨w', hw', e'⟩ := skip_split q'
                rw [hq, e', et'] at e
                exact ⟨34 :: ks ++ [34] ++ w1 ++ [58] ++ w2 ++ t ++ w ++ [44] ++ w' ++ t', by rw [e1, e]; simp,
                  .more kt ks w1 w2 v t w w' l' t' gk hw1 hw2 g hw hw' g'⟩
              · cases h
          · cases h
      · cases h

theorem follow_end {w : Text} (h : Ws w) : Follow w := by
  intro c q e
  have := h c (by simp [e])
  refine ⟨?_, by omega, by omega, by omega⟩
  rw [Bool.eq_false_iff]
  intro hd
  have := isDigit_iff.1 hd
  omega

/-- `json.loads` reads exactly the texts of the grammar, and gives the values they denote. -/
theorem C114_loads (F : Floats Fl) (s : Text) (v : J Fl) : loads F s = some v ↔ Document F v s := by
  constructor
  · intro h
    unfold loads at h
    split at h
    · cases h
    · rename_i u q hv
      split at h
      · rename_i hq
        cases h
        obtain ⟨t, et, g⟩ := (sound F _).1 _ _ _ hv
        obtain ⟨w, hw, e⟩ := skip_split s
        obtain ⟨w', hw', e'⟩ := skip_split q
        rw [hq, List.append_nil] at e'
        subst e'
        exact ⟨w, t, q, by rw [List.append_assoc, ← et]; exact e, hw, hw', g⟩
      · cases h
  · rintro ⟨w, t, w', rfl, hw, hw', g⟩
    have hv := value_complete g (2 * (w ++ t ++ w').length + 2) w' (by simp; omega) (follow_end hw')
    obtain ⟨c, q, rfl, hc, _⟩ := value_head g
    have hs : skip (w ++ c :: q ++ w') = c :: q ++ w' := by rw [List.append_assoc, List.cons_append, skip_to hw hc]
    unfold loads
    rw [hs, hv]
    simp [skip_all hw']

/-! ## What is written -/

theorem hexDigit_hex {n : Nat} (h : n < 16) : Hex (hexDigit n) n := by
  unfold hexDigit
  split
  · exact .dec n (by omega)
  · have := Hex.lower (n - 10) (by omega)
    rwa [show 97 + (n - 10) = 87 + n by omega, show 10 + (n - 10) = n by omega] at this

theorem uXXXX_unit {n : Nat} (h : n < 0x10000) : UnitG true n (uXXXX n) := by
  have := UnitG.hex _ _ _ _ _ _ _ _ (hexDigit_hex (Nat.mod_lt (n / 4096) (by decide : 0 < 16)))
    (hexDigit_hex (Nat.mod_lt (n / 256) (by decide : 0 < 16))) (hexDigit_hex (Nat.mod_lt (n / 16) (by decide : 0 < 16)))
    (hexDigit_hex (Nat.mod_lt n (by decide : 0 < 16)))
  rwa [show ((n / 4096 % 16 * 16 + n / 256 % 16) * 16 + n / 16 % 16) * 16 + n % 16 = n by omega] at this

/-- The code units that are written for a character. -/
def escUnits (c : Nat) : List (Bool × Nat) :=
  if c = 34 ∨ c = 92 ∨ c = 10 ∨ c = 13 ∨ c = 9 ∨ c = 12 ∨ c = 8 ∨ 32 ≤ c ∧ c ≤ 126 then [(false, c)]
  else if c < 0x10000 then [(true, c)]
  else [(true, 0xd800 + (c - 0x10000) / 1024 % 1024), (true, 0xdc00 + (c - 0x10000) % 1024)]

theorem units_one {b : Bool} {c : Nat} {t : Text} (h : UnitG b c t) : UnitsG [(b, c)] t := by
  have := UnitsG.cons b c t [] [] h .nil
  simpa using this

theorem escape_units (c : Nat) : UnitsG (escUnits c) (escape c) := by
  by_cases h1 : c = 34
  · subst h1; exact units_one .quote
  by_cases h2 : c = 92
  · subst h2; exact units_one .backslash
  by_cases h3 : c = 10
  · subst h3; exact units_one .newline
  by_cases h4 : c = 13
  · subst h4; exact units_one .ret
  by_cases h5 : c = 9
  · subst h5; exact units_one .tab
  by_cases h6 : c = 12
  · subst h6; exact units_one .feed
  by_cases h7 : c = 8
  · subst h7; exact units_one .back
  by_cases h8 : 32 ≤ c ∧ c ≤ 126
  · rw [escUnits, if_pos (by omega), escape, if_neg h1, if_neg h2, if_neg h3, if_neg h4, if_neg h5, if_neg h6, if_neg h7, if_pos h8]
    exact units_one (.plain c h8.1 (fun e => h1 (List.cons.inj e).1) fun e => h2 (List.cons.inj e).1)
  rw [escUnits, if_neg (by omega), escape, if_neg h1, if_neg h2, if_neg h3, if_neg h4, if_neg h5, if_neg h6, if_neg h7, if_neg h8]
  split
  · rename_i h9; exact units_one (uXXXX_unit h9)
  · exact .cons _ _ _ _ _ (uXXXX_unit (by omega)) (units_one (uXXXX_unit (by omega)))

theorem units_append {us vs : List (Bool × Nat)} {t u : Text} (h : UnitsG us t) (h' : UnitsG vs u) : UnitsG (us ++ vs) (t ++ u) := by
  induction h with
  | nil => exact h'
  | cons b c t us ts hu _ ih => rw [List.append_assoc]; exact .cons b c t _ _ hu ih

theorem str_units (s : Text) : UnitsG (s.flatMap escUnits) (s.flatMap escape) := by
  induction s with
  | nil => exact .nil
  | cons c s ih => rw [List.flatMap_cons, List.flatMap_cons]; exact units_append (escape_units c) ih

theorem str_joined (s : Text) (h : StrOk s) : Joined (s.flatMap escUnits) s := by
  induction s with
  | nil => exact .nil
  | cons c s ih =>
    obtain ⟨h1, h2, h3⟩ := h
    have ih := ih h3
    rw [List.flatMap_cons, escUnits]
    split
    · exact .one false c _ s (by intro _ _ e; cases e) ih
    · split
      · refine .one true c _ s ?_ ih
        intro l us _ hc e hl
        cases s with
        | nil => cases e
        | cons d s =>
          rw [List.flatMap_cons, escUnits] at e
          split at e
          · cases e
          · split at e
            · cases e
              exact h2 _ s rfl ⟨hc, hl⟩
            · cases e
              simp only [Low] at hl
              omega
      · rename_i h9
        have := Joined.pair (0xd800 + (c - 0x10000) / 1024 % 1024) (0xdc00 + (c - 0x10000) % 1024) _ s
          (by simp only [High]; omega) (by simp only [Low]; omega) ih
        rw [show 0x10000 + (0xd800 + (c - 0x10000) / 1024 % 1024 - 0xd800) * 1024 + (0xdc00 + (c - 0x10000) % 1024 - 0xdc00) = c by omega] at this
        exact this

theorem str_g {s : Text} (h : StrOk s) : StrG s (s.flatMap escape) := ⟨_, str_units s, str_joined s h⟩

theorem fold_nodup (ps d : List (Text × J Fl)) (h : (d.map Prod.fst ++ ps.map Prod.fst).Nodup) : ps.foldl insert d = d ++ ps := by
  induction ps generalizing d with
  | nil => simp
  | cons x ps ih =>
    have hx : x.1 ∉ d.map Prod.fst := by
      intro e
      rw [List.map_cons] at h
      exact (List.nodup_append.1 h).2.2 _ e _ (List.mem_cons_self) rfl
    have hi : insert d x = d ++ [x] := by
      unfold insert
      rw [if_neg]
      intro e
      obtain ⟨y, h1, h2⟩ := List.any_eq_true.1 e
      exact hx (List.mem_map.2 ⟨y, h1, by simpa using h2⟩)
    rw [List.foldl_cons, hi, ih]
    · simp
    · simpa using h

theorem isDict_self {l : List (Text × J Fl)} (h : (l.map Prod.fst).Nodup) : IsDict l l := by
  have : dict l = l := by
    rw [dict, fold_nodup l [] (by simpa using h)]
    rfl
  have h' := dict_isDict l
  rwa [this] at h'

theorem ws_nil : Ws [] := by simp [Ws]
theorem ws_space : Ws [32] := by simp [Ws]

theorem int_g (F : Floats Fl) (n : Int) : ValueG F (.int n) (intText n) := by
  obtain ⟨h1, h2⟩ := natText_spec n.natAbs
  unfold intText
  split
  · have := ValueG.neg (F := F) _ _ h1 h2
    rw [show (-(n.natAbs : Int)) = n by omega] at this
    exact this
  · have := ValueG.pos (F := F) _ _ h1 h2
    rwa [show ((n.natAbs : Int)) = n by omega] at this

theorem float_g (F : Floats Fl) (hF : F.Ok) (x : Fl) : ValueG F (.float x) (F.repr x).text := by
  have h1 := hF.1 x
  have h2 := hF.2 x
  conv => arg 2; rw [← h1]
  cases hx : F.repr x with
  | lit l =>
    obtain ⟨a, b⟩ := h2 l hx
    have := ValueG.float (F := F) l 101 a b (.inl rfl)
    have e : litText 101 l = (FTok.lit l).text := by
      have h1 : txt "-" = [45] := rfl
      have h2 : txt "." = [46] := rfl
      simp [litText, FTok.text, FLit.text, h1, h2]
    rwa [e] at this
  | nan => exact .nan
  | inf => exact .inf
  | ninf => exact .ninf

mutual

theorem dumps_g (F : Floats Fl) (hF : F.Ok) : ∀ v : J Fl, Ok v → ValueG F v (dumps F v)
  | .null, _ => by rw [dumps]; exact .null
  | .bool true, _ => by rw [dumps]; exact .true
  | .bool false, _ => by rw [dumps]; exact .false
  | .int n, _ => by rw [dumps]; exact int_g F n
  | .float x, _ => by rw [dumps]; exact float_g F hF x
  | .str s, h => by rw [dumps]; exact .str s _ (str_g h)
  | .arr [], _ => by rw [dumps]; exact .arr0 [] ws_nil
  | .arr (v :: l), h => by
    rw [Ok, OkList] at h
    obtain ⟨u, e, g⟩ := tail_g F hF l v (dumps F v) h.2 (dumps_g F hF v h.1)
    rw [dumps, List.cons_append, e]
    have := ValueG.arr [] (v :: l) u ws_nil g
    rw [List.append_nil] at this
    exact this
  | .obj [], _ => by rw [dumps]; exact .obj0 [] ws_nil
  | .obj (x :: l), h => by
    rw [Ok, OkItems] at h
    obtain ⟨u, e, g⟩ := items_g F hF l x (dumpsItem F x) h.2.2 (item_g F hF x h.2.1)
    rw [dumps, List.cons_append, e]
    have := ValueG.obj [] (x :: l) (x :: l) u ws_nil g (isDict_self h.1)
    rw [List.append_nil] at this
    exact this
termination_by structural v => v

theorem tail_g (F : Floats Fl) (hF : F.Ok) : ∀ (l : List (J Fl)) (v : J Fl) (t : Text), OkList l → ValueG F v t →
    ∃ u, t ++ dumpsTail F l = u ++ [93] ∧ ElemsG F (v :: l) u
  | [], v, t, _, g => by
    have := ElemsG.one v t [] g ws_nil
    rw [List.append_nil] at this
    exact ⟨t, by rw [dumpsTail], this⟩
  | v' :: l, v, t, h, g => by
    rw [OkList] at h
    obtain ⟨u, e, g'⟩ := tail_g F hF l v' (dumps F v') h.2 (dumps_g F hF v' h.1)
    refine ⟨t ++ [] ++ txt "," ++ [32] ++ u, ?_, .more v t [] [32] _ u g ws_nil ws_space g'⟩
    rw [dumpsTail, List.append_assoc [44, 32], e]
    simp only [List.append_assoc, List.nil_append]
    rfl
termination_by structural l => l

theorem items_g (F : Floats Fl) (hF : F.Ok) : ∀ (l : List (Text × J Fl)) (x : Text × J Fl) (t : Text), OkItems l →
    (∃ kt vt, StrG x.1 kt ∧ ValueG F x.2 vt ∧ t = 34 :: kt ++ [34] ++ [58, 32] ++ vt) →
    ∃ u, t ++ dumpsItems F l = u ++ [125] ∧ ItemsG F (x :: l) u
  | [], (k, v), t, _, ⟨kt, vt, hk, hv, e⟩ => by
    refine ⟨_, ?_, ItemsG.one k kt [] [32] v vt [] hk ws_nil ws_space hv ws_nil⟩
    rw [dumpsItems, e]
    simp only [List.append_assoc, List.append_nil]
    rfl
  | y :: l, (k, v), t, h, ⟨kt, vt, hk, hv, e⟩ => by
    rw [OkItems] at h
    obtain ⟨u, e', g'⟩ := items_g F hF l y (dumpsItem F y) h.2 (item_g F hF y h.1)
    refine ⟨_, ?_, ItemsG.more k kt [] [32] v vt [] [32] _ u hk ws_nil ws_space hv ws_nil ws_space g'⟩
    rw [dumpsItems, List.append_assoc [44, 32], e', e]
    simp only [List.append_assoc, List.nil_append]
    rfl
termination_by structural l => l

theorem item_g (F : Floats Fl) (hF : F.Ok) : ∀ x : Text × J Fl, OkItem x →
    ∃ kt vt, StrG x.1 kt ∧ ValueG F x.2 vt ∧ dumpsItem F x = 34 :: kt ++ [34] ++ [58, 32] ++ vt
  | (k, v), h => by
    rw [OkItem] at h
    exact ⟨_, _, str_g h.1, dumps_g F hF v h.2, by rw [dumpsItem, strText]⟩
termination_by structural x => x

end

/-- `json.dumps` writes a text of the grammar that denotes the value. -/
theorem C114_dumps (F : Floats Fl) (hF : F.Ok) (v : J Fl) (h : Ok v) : Document F v (dumps F v) :=
  ⟨[], dumps F v, [], by simp, ws_nil, ws_nil, dumps_g F hF v h⟩

/-- What is written is read back. -/
theorem C114_round (F : Floats Fl) (hF : F.Ok) (v : J Fl) (h : Ok v) : loads F (dumps F v) = some v :=
  (C114_loads F _ v).2 (C114_dumps F hF v h)

/-- Different values have different texts. -/
theorem C114_injective (F : Floats Fl) (hF : F.Ok) (v w : J Fl) (hv : Ok v) (hw : Ok w) (h : dumps F v = dumps F w) : v = w := by
  have := C114_round F hF w hw
  rw [← h, C114_round F hF v hv] at this
  exact Option.some.inj this

theorem printable_escape (c : Nat) : ∀ a ∈ escape c, 32 ≤ a ∧ a ≤ 126 := by
  have hx : ∀ n, n < 16 → 32 ≤ hexDigit n ∧ hexDigit n ≤ 126 := by
    intro n hn; unfold hexDigit; split <;> omega
  have hu : ∀ n, ∀ a ∈ uXXXX n, 32 ≤ a ∧ a ≤ 126 := by
    intro n a ha
    simp only [uXXXX, List.mem_cons, List.not_mem_nil, or_false] at ha
    rcases ha with rfl | rfl | rfl | rfl | rfl | rfl
    · omega
    · omega
    · exact hx _ (Nat.mod_lt _ (by decide))
    · exact hx _ (Nat.mod_lt _ (by decide))
    · exact hx _ (Nat.mod_lt _ (by decide))
    · exact hx _ (Nat.mod_lt _ (by decide))
  intro a ha
  unfold escape at ha
  repeat' split at ha
  all_goals first
    | exact hu _ a ha
    | (simp only [List.mem_cons, List.not_mem_nil, or_false] at ha; omega)
    | (rcases List.mem_append.1 ha with ha | ha <;> exact hu _ a ha)

theorem printable_str (s : Text) : ∀ a ∈ strText s, 32 ≤ a ∧ a ≤ 126 := by
  intro a ha
  simp only [strText, List.cons_append, List.mem_cons, List.mem_append, List.mem_flatMap, List.not_mem_nil, or_false] at ha
  rcases ha with rfl | ⟨c, _, ha⟩ | rfl
  · omega
  · exact printable_escape c a ha
  · omega

theorem printable_float (F : Floats Fl) (hF : F.Ok) (x : Fl) : ∀ a ∈ (F.repr x).text, 32 ≤ a ∧ a ≤ 126 := by
  cases hx : F.repr x with
  | lit l =>
    obtain ⟨⟨⟨_, h1, _⟩, h2, h3⟩, _⟩ := hF.2 x l hx
    intro a ha
    have hd : ∀ t : Text, Digits t → a ∈ t → 32 ≤ a ∧ a ≤ 126 := fun t h e => by have := h a e; omega
    obtain ⟨neg, ip, frac, exp⟩ := l
    simp only [FTok.text, FLit.text, List.mem_append] at ha
    rcases ha with ((ha | ha) | ha) | ha
    · split at ha
      · simp at ha; omega
      · cases ha
    · exact hd _ h1 ha
    · split at ha
      · cases ha
      · rcases List.mem_cons.1 ha with rfl | ha
        · omega
        · exact hd _ h2 ha
    · cases exp with
      | none => cases ha
      | some y =>
        obtain ⟨sg, ds⟩ := y
        obtain ⟨h4, _, h5⟩ := h3 sg ds rfl
        rcases List.mem_cons.1 ha with rfl | ha
        · omega
        · rcases List.mem_append.1 ha with ha | ha
          · rcases h4 with rfl | rfl | rfl
            · cases ha
            · have : a = 43 := List.mem_singleton.1 ha
              omega
            · have : a = 45 := List.mem_singleton.1 ha
              omega
          · exact hd _ h5 ha
  | nan => simp [FTok.text, nanT]
  | inf => simp [FTok.text, infT]
  | ninf => simp [FTok.text, infT]

mutual

theorem printable (F : Floats Fl) (hF : F.Ok) : ∀ v : J Fl, ∀ a ∈ dumps F v, 32 ≤ a ∧ a ≤ 126
  | .null => by simp [dumps, nullT]
  | .bool true => by simp [dumps, trueT]
  | .bool false => by simp [dumps, falseT]
  | .int n => by
    intro a ha
    obtain ⟨⟨_, h, _⟩, _⟩ := natText_spec n.natAbs
    rw [dumps, intText] at ha
    split at ha
    · rcases List.mem_cons.1 ha with rfl | ha
      · omega
      · have := h a ha; omega
    · have := h a ha; omega
  | .float x => by rw [dumps]; exact printable_float F hF x
  | .str s => by rw [dumps]; exact printable_str s
  | .arr [] => by simp [dumps]
  | .arr (v :: l) => by
    intro a ha
    rw [dumps] at ha
    rcases List.mem_append.1 ha with ha | ha
    · rcases List.mem_cons.1 ha with rfl | ha
      · omega
      · exact printable F hF v a ha
    · exact printable_tail F hF l a ha
  | .obj [] => by simp [dumps]
  | .obj (x :: l) => by
    intro a ha
    rw [dumps] at ha
    rcases List.mem_append.1 ha with ha | ha
    · rcases List.mem_cons.1 ha with rfl | ha
      · omega
      · exact printable_item F hF x a ha
    · exact printable_items F hF l a ha
termination_by structural v => v

theorem printable_tail (F : Floats Fl) (hF : F.Ok) : ∀ l : List (J Fl), ∀ a ∈ dumpsTail F l, 32 ≤ a ∧ a ≤ 126
  | [] => by simp [dumpsTail]
  | v :: l => by
    intro a ha
    rw [dumpsTail] at ha
    rcases List.mem_append.1 ha with ha | ha
    · rcases List.mem_append.1 ha with ha | ha
      · simp at ha; omega
      · exact printable F hF v a ha
    · exact printable_tail F hF l a ha
termination_by structural l => l

theorem printable_items (F : Floats Fl) (hF : F.Ok) : ∀ l : List (Text × J Fl), ∀ a ∈ dumpsItems F l, 32 ≤ a ∧ a ≤ 126
  | [] => by simp [dumpsItems]
  | x :: l => by
    intro a ha
    rw [dumpsItems] at ha
    rcases List.mem_append.1 ha with ha | ha
    · rcases List.mem_append.1 ha with ha | ha
      · simp at ha; omega
      · exact printable_item F hF x a ha
    · exact printable_items F hF l a ha
termination_by structural l => l

theorem printable_item (F : Floats Fl) (hF : F.Ok) : ∀ x : Text × J Fl, ∀ a ∈ dumpsItem F x, 32 ≤ a ∧ a ≤ 126
  | (k, v) => by
    intro a ha
    rw [dumpsItem] at ha
    rcases List.mem_append.1 ha with ha | ha
    · rcases List.mem_append.1 ha with ha | ha
      · exact printable_str k a ha
      · simp at ha; omega
    · exact printable F hF v a ha
termination_by structural x => x

end

/-- The text of a value is one line of printable ASCII. -/
theorem C114_ascii (F : Floats Fl) (hF : F.Ok) (v : J Fl) : ∀ a ∈ dumps F v, 32 ≤ a ∧ a ≤ 126 := printable F hF v

/-! ## Content blocks -/

mutual

/-- Encoded values of C45 with a meaning for the atoms. -/
def toJ (atoms : Nat → J Fl) : Json → J Fl
  | .str t => .str t
  | .atom n => atoms n
  | .arr l => .arr (toJs atoms l)
  | .obj l => .obj (toItems atoms l)
termination_by structural v => v

def toJs (atoms : Nat → J Fl) : List Json → List (J Fl)
  | [] => []
  | v :: l => toJ atoms v :: toJs atoms l
termination_by structural l => l

def toItems (atoms : Nat → J Fl) : List (Text × Json) → List (Text × J Fl)
  | [] => []
  | x :: l => toItem atoms x :: toItems atoms l
termination_by structural l => l

def toItem (atoms : Nat → J Fl) : Text × Json → Text × J Fl
  | (k, v) => (k, toJ atoms v)
termination_by structural x => x

end

/-- Elements with their separators in front, and the end. -/
def seps (e : Nat) : List Text → Text
  | [] => [e]
  | t :: l => [44, 32] ++ t ++ seps e l

theorem seps_eq (e : Nat) (t : Text) (l : List Text) : t ++ seps e l = [44, 32].intercalate (t :: l) ++ [e] := by
  induction l generalizing t with
  | nil => simp [seps, List.intercalate]
  | cons u l ih =>
    have := ih u
    rw [seps]
    simp only [List.intercalate, List.intersperse, List.flatten_cons, List.append_assoc] at this ⊢
    rw [← this]

mutual

theorem dumps_eq (F : Floats Fl) (atoms : Nat → J Fl) (D : Dump) (hs : D.str = strText) (ha : ∀ n, D.atom n = dumps F (atoms n)) :
    ∀ v : Json, Verif.Llm.dumps D v = dumps F (toJ atoms v)
  | .str t => by rw [Verif.Llm.dumps, toJ, dumps, hs]
  | .atom n => by rw [Verif.Llm.dumps, toJ, ha]
  | .arr [] => by simp [Verif.Llm.dumps, dumpsList, toJ, toJs, dumps, List.intercalate]
  | .arr (v :: l) => by
    rw [Verif.Llm.dumps, toJ, toJs, dumps, dumpsList, ← dumpsTail_eq F atoms D hs ha l, ← dumps_eq F atoms D hs ha v]
    simp only [List.cons_append, List.nil_append, seps_eq]
  | .obj [] => by simp [Verif.Llm.dumps, Verif.Llm.dumpsItems, toJ, toItems, dumps, List.intercalate]
  | .obj (x :: l) => by
    rw [Verif.Llm.dumps, toJ, toItems, dumps, Verif.Llm.dumpsItems, ← dumpsItems_eq F atoms D hs ha l, ← dumpsItem_eq F atoms D hs ha x]
    simp only [List.cons_append, List.nil_append, seps_eq]
termination_by structural v => v

theorem dumpsTail_eq (F : Floats Fl) (atoms : Nat → J Fl) (D : Dump) (hs : D.str = strText) (ha : ∀ n, D.atom n = dumps F (atoms n)) :
    ∀ l : List Json, seps 93 (dumpsList D l) = dumpsTail F (toJs atoms l)
  | [] => by rw [dumpsList, toJs, dumpsTail, seps]
  | v :: l => by rw [dumpsList, toJs, dumpsTail, seps, dumpsTail_eq F atoms D hs ha l, dumps_eq F atoms D hs ha v]
termination_by structural l => l

theorem dumpsItems_eq (F : Floats Fl) (atoms : Nat → J Fl) (D : Dump) (hs : D.str = strText) (ha : ∀ n, D.atom n = dumps F (atoms n)) :
    ∀ l : List (Text × Json), seps 125 (Verif.Llm.dumpsItems D l) = dumpsItems F (toItems atoms l)
  | [] => by rw [Verif.Llm.dumpsItems, toItems, dumpsItems, seps]
  | x :: l => by rw [Verif.Llm.dumpsItems, toItems, dumpsItems, seps, dumpsItems_eq F atoms D hs ha l, dumpsItem_eq F atoms D hs ha x]
termination_by structural l => l

theorem dumpsItem_eq (F : Floats Fl) (atoms : Nat → J Fl) (D : Dump) (hs : D.str = strText) (ha : ∀ n, D.atom n = dumps F (atoms n)) :
    ∀ x : Text × Json, Verif.Llm.dumpsItem D x = dumpsItem F (toItem atoms x)
  | (k, v) => by rw [Verif.Llm.dumpsItem, toItem, dumpsItem, dumps_eq F atoms D hs ha v, hs]
termination_by structural x => x

end

/-- The blocks of a value that is not a string, written one after the other, are read back as the value. -/
theorem C114_blocks (F : Floats Fl) (hF : F.Ok) (atoms : Nat → J Fl) (D : Dump) (hs : D.str = strText)
    (ha : ∀ n, D.atom n = dumps F (atoms n)) (v : Json) (hv : ∀ t, v ≠ .str t) (hf : Faithful D v) (hok : Ok (toJ atoms v)) :
    ∃ bs, toContentBlocks D v = .ok bs ∧ loads F (linear D bs) = some (toJ atoms v) := by
  obtain ⟨bs, h⟩ := C45_defined_partial D v hf
  refine ⟨bs, h, ?_⟩
  rw [C45_linear_partial D v hv hf bs h, dumps_eq F atoms D hs ha, C114_round F hF _ hok]

/-! ## Where it fails -/

/-- The float 0.5 and `NaN`. -/
def exF : Floats Bool :=
  ⟨fun b => if b then .nan else .lit ⟨false, [48], [53], none⟩, fun t => decide (t = .nan)⟩

theorem exF_ok : exF.Ok := by
  refine ⟨by decide, ?_⟩
  intro x l h
  cases x with
  | true => cases h
  | false =>
    cases h
    exact ⟨⟨⟨by simp, by simp [Digits], by simp⟩, by simp [Digits], by simp⟩, .inl (by simp)⟩

/-- A string is not quoted at the top, so that a prompt does not tell `"1"` from `1`. -/
theorem C114_bare_fails : ∃ (D : Dump) (v w : Json) (bs : List Block), D.str = strText ∧ (∀ n, D.atom n = dumps exF (.int n)) ∧
    toJ (fun n => (J.int n : J Bool)) v ≠ toJ (fun n => J.int n) w ∧ toContentBlocks D v = .ok bs ∧ toContentBlocks D w = .ok bs :=
  ⟨⟨strText, fun n => dumps exF (.int n), fun _ => false, fun _ => none⟩, .str [49], .atom 1, [.text [49]], rfl, fun _ => rfl,
    by simp [toJ], rfl, rfl⟩

/-- The string that is read. -/
def asStr : Option (J Bool) → Option Text
  | some (.str t) => some t
  | _ => none

/-- Two surrogates, as from decoding with `surrogatepass`, are read back as one character. -/
theorem C114_surrogates_fails : loads exF (dumps exF (.str [0xd83d, 0xde00])) = some (.str [0x1f600]) := by
  have h : asStr (loads exF (dumps exF (.str [0xd83d, 0xde00]))) = some [0x1f600] := by decide +kernel
  generalize loads exF (dumps exF (.str [0xd83d, 0xde00])) = x at h ⊢
  unfold asStr at h
  split at h
  · cases h; rfl
  · cases h

/-- The integers of an object that is read. -/
def asInts : Option (J Bool) → Option (List (Text × Int))
  | some (.obj l) => l.mapM fun (k, v) => match v with | .int n => some (k, n) | _ => none
  | _ => none

/-- A repeated key is no error: the last value counts. -/
theorem C114_repeated_fails : asInts (loads exF (txt "{\"a\": 1, \"b\": 2, \"a\": 3}")) = some [(txt "a", 3), (txt "b", 2)] := by
  decide +kernel

/-- `NaN` is written and read, although it is not JSON. -/
theorem C114_nan_fails : dumps exF (.float true) = txt "NaN" ∧ loads exF (txt "NaN") = some (.float true) := ⟨rfl, rfl⟩

example : Ok (.obj [(txt "a", .arr [.int (-5), .float false, .null]), (txt "b", .str (txt "xy"))] : J Bool) := by
  have ha : txt "a" = [97] := rfl
  have hb : txt "b" = [98] := rfl
  have hx : txt "xy" = [120, 121] := rfl
  rw [ha, hb, hx]
  simp [Ok, OkItems, OkItem, OkList, StrOk, High]
example : dumps exF (.obj [(txt "a", .arr [.int (-5), .float false, .null]), (txt "b", .str [120, 10, 233, 0x1f600])]) =
    txt "{\"a\": [-5, 0.5, null], \"b\": \"x\\n\\u00e9\\ud83d\\ude00\"}" := by decide +kernel
example : (loads exF (txt " [1 ,\t-0, 0.5,{ }, \"\\/\\u00E9\" ] ")).map (dumps exF) = some (txt "[1, 0, 0.5, {}, \"/\\u00e9\"]") := by
  decide +kernel
example : (loads exF (txt "[1,]")).isNone = true := by decide +kernel
example : (loads exF (txt "01")).isNone = true := by decide +kernel
example : ∃ D : Dump, D.str = strText ∧ Faithful D (.arr [.str [49], .atom 1]) :=
  ⟨⟨strText, fun n => dumps exF (.int n), fun _ => false, fun _ => none⟩, rfl, by simp [Faithful, FaithfulList]⟩

end Verif.Llm.JsonText
