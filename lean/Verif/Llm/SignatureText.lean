/-!
# C116: the signature that is shown for functions to be synthesized

Model of `_create_typed_synthesized_function` (`handlers/llm/encoding.py` 440-486), which writes the type of the function into the
description of the JSON schema that the language model gets, and of the calls of it in `_pydantic_callable` (543-556).

* A type is a class, with the module it is in; a type with arguments (`list[int]`, `Optional[int]`, `Literal["a"]`, a `Callable`), which has
  the `__name__` of its origin; or something without `__name__` (`int | None`, a string), of which `str` is taken.
* Parameters are `...`, a list of types, or a `ParamSpec` or `Concatenate`, of which `str` is taken.
* The text around the signature is constant, and is left out.
-/

namespace Verif.Llm.SignatureText

abbrev Text := List Char

/-- The word `Callable`. -/
def callable : Text := ['C', 'a', 'l', 'l', 'a', 'b', 'l', 'e']

inductive Ty where
  | cls (module name : Text)
  | generic (name : Text) (args : List Ty)
  | plain (shown : Text)

inductive Params where
  | dots
  | list (l : List Ty)
  | var (shown : Text)

/-- `Callable`, and `Callable[ps, r]`. -/
inductive CallableTy where
  | bare
  | of (ps : Params) (r : Ty)

/-- `getattr(t, "__name__", str(t))` (458, 462). -/
def shown : Ty → Text
  | .cls _ n => n
  | .generic n _ => n
  | .plain s => s

/-- `", ".join(...)` (458). -/
def joined : List Text → Text
  | [] => []
  | [s] => s
  | s :: l => s ++ [',', ' '] ++ joined l

/-- `params_str` (455-460). -/
def paramsText : Params → Text
  | .dots => ['.', '.', '.']
  | .list l => joined (l.map shown)
  | .var s => s

/-- `type_signature` (448-463). -/
def signature : CallableTy → Text
  | .bare => callable
  | .of ps r => callable ++ ['[', '['] ++ paramsText ps ++ [']', ',', ' '] ++ shown r ++ [']']

/-- The type that is described (545-556): for `Callable` without arguments it is `Callable[..., Any]`. -/
def described : CallableTy → Text
  | .bare => signature (.of .dots (.cls ['t', 'y', 'p', 'i', 'n', 'g'] ['A', 'n', 'y']))
  | c => signature c

/-! ## Specification -/

mutual

/-- How a type is written in Python, with the names of classes. -/
inductive Written : Ty → Text → Prop where
  | cls (m n : Text) : Written (.cls m n) n
  | generic (n : Text) (as : List Ty) (t : Text) : WrittenAll as t → Written (.generic n as) (n ++ ['['] ++ t ++ [']'])
  | plain (s : Text) : Written (.plain s) s

/-- Types separated by commas. -/
inductive WrittenAll : List Ty → Text → Prop where
  | nil : WrittenAll [] []
  | one (a : Ty) (t : Text) : Written a t → WrittenAll [a] t
  | cons (a b : Ty) (l : List Ty) (t u : Text) : Written a t → WrittenAll (b :: l) u → WrittenAll (a :: b :: l) (t ++ [',', ' '] ++ u)

end

/-- How the type of a function is written. -/
inductive WrittenCallable : CallableTy → Text → Prop where
  | bare : WrittenCallable .bare callable
  | dots (r : Ty) (t : Text) : Written r t → WrittenCallable (.of .dots r) ((callable ++ ['[', '.', '.', '.', ',', ' ']) ++ t ++ [']'])
  | list (l : List Ty) (r : Ty) (u t : Text) : WrittenAll l u → Written r t →
      WrittenCallable (.of (.list l) r) ((callable ++ ['[', '[']) ++ u ++ [']', ',', ' '] ++ t ++ [']'])
  | var (s : Text) (r : Ty) (t : Text) : Written r t → WrittenCallable (.of (.var s) r) ((callable ++ ['[']) ++ s ++ [',', ' '] ++ t ++ [']'])

/-- A type that has no arguments. -/
def Flat : Ty → Prop
  | .generic _ _ => False
  | _ => True

/-- A type whose name is a word: not empty, without commas and brackets, and not beginning like `...` or a variable. -/
def Word (t : Text) : Prop := t ≠ [] ∧ ',' ∉ t ∧ ']' ∉ t ∧ t.head? ≠ some '.' ∧ t.head? ≠ some '~'

/-- Parameters with such names. -/
def Words : Params → Prop
  | .dots => True
  | .list l => ∀ t ∈ l, Word (shown t)
  | .var s => s.head? = some '~' ∧ ']' ∉ s

/-- The same parameters, up to what is not part of a name: the module of a class and the arguments of a type. -/
inductive SameNames : Params → Params → Prop where
  | dots : SameNames .dots .dots
  | list (l m : List Ty) : l.map shown = m.map shown → SameNames (.list l) (.list m)
  | var (s : Text) : SameNames (.var s) (.var s)

/-! ## Proofs -/

theorem written_flat {t : Ty} (h : Flat t) : Written t (shown t) := by
  cases t with
  | cls m n => exact .cls m n
  | generic n as => exact absurd h id
  | plain s => exact .plain s

theorem writtenAll_flat : ∀ {l : List Ty}, (∀ t ∈ l, Flat t) → WrittenAll l (joined (l.map shown))
  | [], _ => .nil
  | [a], h => .one a _ (written_flat (h a (by simp)))
  | a :: b :: l, h => by
    have := writtenAll_flat (l := b :: l) fun t ht => h t (List.mem_cons_of_mem _ ht)
    exact .cons a b l _ _ (written_flat (h a (by simp))) this

/-- For a list of parameters without arguments of types, the signature is how the type is written in Python. -/
theorem C116_written (l : List Ty) (r : Ty) (hl : ∀ t ∈ l, Flat t) (hr : Flat r) :
    WrittenCallable (.of (.list l) r) (described (.of (.list l) r)) :=
  .list l r _ _ (writtenAll_flat hl) (written_flat hr)

/-- A text up to the first `c`. -/
theorem split_at {c : Char} : ∀ {a b x y : Text}, c ∉ a → c ∉ b → a ++ c :: x = b ++ c :: y → a = b ∧ x = y
  | [], [], x, y, _, _, h => by simpa using h
  | [], e :: b, x, y, _, hb, h => by
    simp only [List.nil_append, List.cons_append, List.cons.injEq] at h
    exact absurd (h.1 ▸ List.mem_cons_self ..) hb
  | e :: a, [], x, y, ha, _, h => by
    simp only [List.nil_append, List.cons_append, List.cons.injEq] at h
    exact absurd (h.1 ▸ List.mem_cons_self ..) ha
  | d :: a, e :: b, x, y, ha, hb, h => by
    simp only [List.cons_append, List.cons.injEq] at h
    obtain ⟨h1, h2⟩ := split_at (fun hm => ha (List.mem_cons_of_mem _ hm)) (fun hm => hb (List.mem_cons_of_mem _ hm)) h.2
    exact ⟨by rw [h.1, h1], h2⟩

theorem joined_cons (s s' : Text) (l : List Text) : joined (s :: s' :: l) = s ++ ',' :: ' ' :: joined (s' :: l) := by
  simp [joined]

theorem joined_ne_nil {s : Text} {l : List Text} (h : s ≠ []) : joined (s :: l) ≠ [] := by
  cases l with
  | nil => simpa [joined] using h
  | cons s' l => rw [joined_cons]; simp [h]

theorem joined_inj : ∀ {l m : List Text}, (∀ s ∈ l, Word s) → (∀ s ∈ m, Word s) → joined l = joined m → l = m
  | [], [], _, _, _ => rfl
  | [], s :: m, _, hm, h => absurd h.symm (joined_ne_nil (hm s (by simp)).1)
  | s :: l, [], hl, _, h => absurd h (joined_ne_nil (hl s (by simp)).1)
  | [s], [t], _, _, h => by simpa [joined] using h
  | [s], t :: t' :: m, hl, _, h => by
    rw [joined_cons] at h
    have : ',' ∈ s := by rw [show s = joined [s] from rfl, h]; simp
    exact absurd this (hl s (by simp)).2.1
  | s :: s' :: l, [t], _, hm, h => by
    rw [joined_cons] at h
    have : ',' ∈ t := by rw [show t = joined [t] from rfl, ← h]; simp
    exact absurd this (hm t (by simp)).2.1
  | s :: s' :: l, t :: t' :: m, hl, hm, h => by
    rw [joined_cons, joined_cons] at h
    obtain ⟨h1, h2⟩ := split_at (hl s (by simp)).2.1 (hm t (by simp)).2.1 h
    have h3 := joined_inj (l := s' :: l) (m := t' :: m) (fun x hx => hl x (List.mem_cons_of_mem _ hx))
      (fun x hx => hm x (List.mem_cons_of_mem _ hx)) (by simpa using h2)
    rw [h1, h3]

theorem joined_no_bracket : ∀ {l : List Text}, (∀ s ∈ l, Word s) → ']' ∉ joined l
  | [], _ => by simp [joined]
  | [s], h => by simpa [joined] using (h s (by simp)).2.2.1
  | s :: s' :: l, h => by
    have h2 := joined_no_bracket (l := s' :: l) fun x hx => h x (List.mem_cons_of_mem _ hx)
    rw [joined_cons]
    simp only [List.mem_append, List.mem_cons, not_or]
    exact ⟨(h s (by simp)).2.2.1, by decide, by decide, h2⟩

theorem joined_head {s : Text} {l : List Text} (h : s ≠ []) : (joined (s :: l)).head? = s.head? := by
  cases s with
  | nil => exact absurd rfl h
  | cons c s =>
    cases l with
    | nil => rfl
    | cons s' l => rw [joined_cons]; rfl

/-- The parameters of a list are neither `...` nor a variable. -/
theorem list_head {l : List Ty} (h : ∀ t ∈ l, Word (shown t)) :
    (joined (l.map shown)).head? ≠ some '.' ∧ (joined (l.map shown)).head? ≠ some '~' := by
  cases l with
  | nil => simp [joined]
  | cons t l =>
    obtain ⟨h1, -, -, h4, h5⟩ := h t (by simp)
    rw [List.map_cons, joined_head h1]
    exact ⟨h4, h5⟩

theorem params_no_bracket {ps : Params} (h : Words ps) : ']' ∉ paramsText ps := by
  cases ps with
  | dots => simp [paramsText]
  | list l => exact joined_no_bracket fun s hs => by obtain ⟨t, ht, rfl⟩ := List.mem_map.1 hs; exact h t ht
  | var s => exact h.2

theorem params_inj {ps qs : Params} (hp : Words ps) (hq : Words qs) (h : paramsText ps = paramsText qs) : SameNames ps qs := by
  have word : ∀ {l : List Ty}, (∀ t ∈ l, Word (shown t)) → ∀ s ∈ l.map shown, Word s := by
    intro l hl s hs
    obtain ⟨t, ht, rfl⟩ := List.mem_map.1 hs
    exact hl t ht
  cases ps with
  | dots =>
    cases qs with
    | dots => exact .dots
    | list m => exact absurd (by rw [show joined (m.map shown) = paramsText (.list m) from rfl, ← h]; rfl) (list_head hq).1
    | var s =>
      have := hq.1
      rw [show s = paramsText (.var s) from rfl, ← h] at this
      exact absurd this (by decide)
  | list l =>
    cases qs with
    | dots => exact absurd (by rw [show joined (l.map shown) = paramsText (.list l) from rfl, h]; rfl) (list_head hp).1
    | list m => exact .list l m (joined_inj (word hp) (word hq) h)
    | var s => exact absurd (by rw [show joined (l.map shown) = paramsText (.list l) from rfl, h]; exact hq.1) (list_head hp).2
  | var s =>
    cases qs with
    | dots =>
      have := hp.1
      rw [show s = paramsText (.var s) from rfl, h] at this
      exact absurd this (by decide)
    | list m => exact absurd (by rw [show joined (m.map shown) = paramsText (.list m) from rfl, ← h]; exact hp.1) (list_head hq).2
    | var t => exact (show s = t from h) ▸ .var s

theorem signature_eq (ps : Params) (r : Ty) :
    signature (.of ps r) = (callable ++ ['[', '[']) ++ (paramsText ps ++ ']' :: ',' :: ' ' :: (shown r ++ [']'])) := by
  simp [signature]

/-- The signature determines the number of the parameters, their names and the name of the result, and these determine the signature. -/
theorem C116_names (ps qs : Params) (r s : Ty) (hp : Words ps) (hq : Words qs) :
    described (.of ps r) = described (.of qs s) ↔ SameNames ps qs ∧ shown r = shown s := by
  constructor
  · intro h
    simp only [described] at h
    rw [signature_eq, signature_eq] at h
    obtain ⟨h1, h2⟩ := split_at (params_no_bracket hp) (params_no_bracket hq) (List.append_cancel_left h)
    refine ⟨params_inj hp hq h1, ?_⟩
    simp only [List.cons.injEq, true_and] at h2
    exact List.append_cancel_right h2
  · rintro ⟨h, hr⟩
    have : paramsText ps = paramsText qs := by
      cases h with
      | dots => rfl
      | list l m e => simp [paramsText, e]
      | var s => rfl
    simp [described, signature, this, hr]

/-- Functions of classes with different names have different signatures. -/
theorem C116_classes (l m : List (Text × Text)) (r s : Text × Text) (hl : ∀ x ∈ l, Word x.2) (hm : ∀ x ∈ m, Word x.2)
    (names : ∀ x y, x ∈ r :: l → y ∈ s :: m → x.2 = y.2 → x.1 = y.1)
    (h : described (.of (.list (l.map fun x => .cls x.1 x.2)) (.cls r.1 r.2)) =
      described (.of (.list (m.map fun x => .cls x.1 x.2)) (.cls s.1 s.2))) : l = m ∧ r = s := by
  have hw : ∀ {l : List (Text × Text)}, (∀ x ∈ l, Word x.2) → Words (.list (l.map fun x => Ty.cls x.1 x.2)) := by
    intro l hl t ht
    obtain ⟨x, hx, rfl⟩ := List.mem_map.1 ht
    exact hl x hx
  obtain ⟨h1, h2⟩ := (C116_names _ _ _ _ (hw hl) (hw hm)).1 h
  have pair : ∀ x y, x ∈ r :: l → y ∈ s :: m → x.2 = y.2 → x = y := fun x y hx hy e => Prod.ext (names x y hx hy e) e
  refine ⟨?_, pair r s (by simp) (by simp) h2⟩
  cases h1 with
  | list _ _ e =>
    rw [List.map_map, List.map_map] at e
    have go : ∀ (a b : List (Text × Text)), (∀ x ∈ a, x ∈ l) → (∀ y ∈ b, y ∈ m) →
        a.map (shown ∘ fun x => Ty.cls x.1 x.2) = b.map (shown ∘ fun x => Ty.cls x.1 x.2) → a = b := by
      intro a
      induction a with
      | nil => intro b _ _ e; cases b with
        | nil => rfl
        | cons y b => simp at e
      | cons x a ih => intro b ha hb e; cases b with
        | nil => simp at e
        | cons y b =>
          simp only [List.map_cons, List.cons.injEq] at e
          rw [pair x y (List.mem_cons_of_mem _ (ha x (by simp))) (List.mem_cons_of_mem _ (hb y (by simp))) e.1,
            ih b (fun z hz => ha z (List.mem_cons_of_mem _ hz)) (fun z hz => hb z (List.mem_cons_of_mem _ hz)) e.2]
    exact go l m (fun _ h => h) (fun _ h => h) e

/-! ## Where it fails -/

/-- The arguments of types are never shown: `Callable[[list[int]], dict[str, int]]` and `Callable[[list[str]], dict[int, str]]` have the
same signature. -/
theorem C116_arguments_fails (n k : Text) (as bs cs ds : List Ty) :
    described (.of (.list [.generic n as]) (.generic k cs)) = described (.of (.list [.generic n bs]) (.generic k ds)) := rfl

theorem written_generic {n t : Text} {as : List Ty} (h : Written (.generic n as) t) : ∃ u, t = n ++ '[' :: (u ++ [']']) := by
  generalize hx : Ty.generic n as = x at h
  cases h <;> cases hx
  rename_i u _
  exact ⟨u, by simp⟩

/-- So the signature is not how the type is written. -/
theorem C116_result_fails (l : List Ty) (n : Text) (as : List Ty) (hl : ∀ t ∈ l, Flat t ∧ Word (shown t)) :
    ¬ WrittenCallable (.of (.list l) (.generic n as)) (described (.of (.list l) (.generic n as))) := by
  intro h
  generalize hx : CallableTy.of (.list l) (.generic n as) = x at h
  generalize ht : described x = t at h
  cases h <;> cases hx
  rename_i u t hu hw
  obtain ⟨v, rfl⟩ := written_generic hw
  have hu' : u = joined (l.map shown) := by
    have go : ∀ (l : List Ty) (u : Text), (∀ t ∈ l, Flat t ∧ Word (shown t)) → WrittenAll l u → u = joined (l.map shown) := by
      intro l
      have flat : ∀ a t, Flat a → Written a t → t = shown a := by
        intro a t ha hw
        cases hw with
        | cls _ _ => rfl
        | generic _ _ _ _ => exact absurd ha id
        | plain _ => rfl
      induction l with
      | nil => intro u _ h; cases h; rfl
      | cons a l ih =>
        intro u hl h
        cases h with
        | one _ _ h => rw [flat a _ (hl a (by simp)).1 h]; rfl
        | cons _ b l t w h h' =>
          rw [flat a _ (hl a (by simp)).1 h, ih w (fun x hx => hl x (List.mem_cons_of_mem _ hx)) h']
          simp only [List.map_cons]
          rw [joined_cons]
          simp
    exact go l u hl hu
  subst hu'
  simp only [described] at ht
  rw [signature_eq] at ht
  have := congrArg List.length ht
  simp [paramsText, shown] at this

/-- Classes of different modules with one name are not told apart. -/
theorem C116_modules_fails (m m' n : Text) (r : Ty) : described (.of (.list [.cls m n]) r) = described (.of (.list [.cls m' n]) r) := rfl

/-- `Callable[..., r]` is shown with brackets around the dots, which is not how it is written. -/
theorem C116_dots_fails (m n : Text) : ¬ WrittenCallable (.of .dots (.cls m n)) (described (.of .dots (.cls m n))) := by
  intro h
  generalize hx : CallableTy.of .dots (.cls m n) = x at h
  generalize ht : described x = t at h
  cases h <;> cases hx
  rename_i hw
  cases hw
  have := congrArg List.length ht
  simp [described, signature, paramsText, shown] at this
  omega

/-- `Callable` is shown as `Callable[..., Any]` is. -/
theorem C116_bare_fails : described .bare = described (.of .dots (.cls ['t', 'y', 'p', 'i', 'n', 'g'] ['A', 'n', 'y'])) := rfl

/-! ## Examples -/

def bi (s : String) : Ty := .cls "builtins".toList s.toList

example : described (.of (.list [bi "int", bi "str"]) (bi "bool")) = "Callable[[int, str], bool]".toList := rfl
example : described (.of (.list []) (bi "int")) = "Callable[[], int]".toList := rfl
example : described (.of (.list [.generic "list".toList [bi "int"]]) (.generic "dict".toList [bi "str", bi "int"])) =
    "Callable[[list], dict]".toList := rfl
example : described (.of (.list [.plain "int | None".toList]) (bi "int")) = "Callable[[int | None], int]".toList := rfl
example : described (.of .dots (bi "int")) = "Callable[[...], int]".toList := rfl
example : described (.of (.var "~P".toList) (bi "int")) = "Callable[[~P], int]".toList := rfl
example : signature .bare = "Callable".toList := rfl
example : Words (.list [bi "int", bi "str"]) := by
  intro t ht
  simp only [List.mem_cons, List.not_mem_nil, or_false] at ht
  rcases ht with rfl | rfl <;> (unfold Word; decide)
example : Words (.var "~P".toList) := by unfold Words; decide
example : WrittenCallable (.of (.list [.generic "list".toList [bi "int"]]) (bi "int")) "Callable[[list[int]], int]".toList :=
  .list _ _ "list[int]".toList "int".toList (.one _ _ (.generic _ _ "int".toList (.one _ _ (.cls _ _)))) (.cls _ _)

end Verif.Llm.SignatureText
