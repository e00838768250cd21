import Verif.Llm.Format

/-!
# C112: the indentation of prompts

Model of `textwrap.dedent`, which `call_user` (`handlers/llm/completions.py` 509-511) applies to the docstring of a template before it is
taken apart (`Format`), and `_serialize_tool` (`handlers/llm/encoding.py` 721) to the docstring of a tool; `_validate_prompt`
(`handlers/llm/template.py` 188-195) does not.

Text is a list of code points. This is `dedent` of Python 3.12 and 3.13; that of 3.14 takes lines of other white space for blank, too.
-/

namespace Verif.Llm.Dedent

open Verif.Llm Verif.Llm.Format

/-- `[ \t]`. -/
def blank (c : Nat) : Bool := c == 32 || c == 9

/-- The lines of a text: `^` and `$` of multiline regular expressions are at newlines only. -/
def lines : Text → List Text
  | [] => [[]]
  | c :: t =>
    if c = 10 then [] :: lines t
    else
      match lines t with
      | [] => [[c]]
      | l :: ls => (c :: l) :: ls

/-- The text of lines. -/
def unlines : List Text → Text
  | [] => []
  | [l] => l
  | l :: ls => l ++ 10 :: unlines ls

/-- `_whitespace_only_re.sub('', text)` on a line. -/
def clear (l : Text) : Text := if l.all blank then [] else l

/-- What `_leading_whitespace_re.findall(text)` finds on a line. -/
def indent (l : Text) : Option Text := if l.all blank then none else some (l.takeWhile blank)

/-- The first place at which two texts differ. -/
def diffAt : Text → Text → Option Nat
  | x :: m, y :: i => if x ≠ y then some 0 else (diffAt m i).map (· + 1)
  | _, _ => none

/-- The body of the loop over the indents. -/
def step (margin : Option Text) (i : Text) : Option Text :=
  match margin with
  | none => some i
  | some m =>
    if m.isPrefixOf i then some m
    else if i.isPrefixOf m then some i
    else
      match diffAt m i with
      | some k => some (m.take k)
      | none => some m

/-- `re.sub(r'(?m)^' + margin, '', text)` on a line. -/
def unindent (m l : Text) : Text := if m.isPrefixOf l then l.drop m.length else l

/-- `textwrap.dedent(text)`. -/
def dedent (t : Text) : Text :=
  let ls := (lines t).map clear
  match (ls.filterMap indent).foldl step none with
  | none => unlines ls
  | some m => unlines (ls.map (unindent m))

/-- `call_user` on a docstring. -/
def callDoc (R : Conv) (E : PromptEnv) (doc : Text) : Except PromptErr (List Block) := callText R E (dedent doc)

/-! ## Specification -/

/-- Spaces and tabs. -/
def Blank (t : Text) : Prop := ∀ c ∈ t, c = 32 ∨ c = 9

/-- `ls` are the lines of `t`. -/
def Lines (t : Text) (ls : List Text) : Prop := ls ≠ [] ∧ (∀ l ∈ ls, 10 ∉ l) ∧ t = [10].intercalate ls

/-- Blank lines become empty, and every other line is without `m` at its beginning. -/
inductive Stripped (m : Text) : List Text → List Text → Prop
  | nil : Stripped m [] []
  | blank {l ls ls'} : Blank l → Stripped m ls ls' → Stripped m (l :: ls) ([] :: ls')
  | text {l ls ls'} : ¬ Blank l → Stripped m ls ls' → Stripped m ((m ++ l) :: ls) (l :: ls')

/-- There is no space or tab that all lines that are not empty begin with. -/
def Flush (ls : List Text) : Prop := (∃ l ∈ ls, l ≠ []) → ∀ c, c = 32 ∨ c = 9 → ∃ l ∈ ls, l ≠ [] ∧ l.head? ≠ some c

/-- `u` is `t` without common indentation. -/
def Dedented (t u : Text) : Prop := ∃ m ls ls', Blank m ∧ Lines t ls ∧ Lines u ls' ∧ Stripped m ls ls' ∧ Flush ls'

/-- `ls'` are the lines `ls`, each that is not blank with `w` before it. -/
inductive Indented (w : Text) : List Text → List Text → Prop
  | nil : Indented w [] []
  | blank {l l' ls ls'} : Blank l → Blank l' → Indented w ls ls' → Indented w (l :: ls) (l' :: ls')
  | text {l ls ls'} : ¬ Blank l → Indented w ls ls' → Indented w (l :: ls) ((w ++ l) :: ls')

/-- The fields of a prompt. -/
def fields : List Item → List RawField
  | [] => []
  | .ch _ :: is => fields is
  | .field f :: is => f :: fields is

/-! ## Proofs -/

theorem blank_iff (c : Nat) : blank c = true ↔ c = 32 ∨ c = 9 := by simp [blank]

theorem all_blank_iff (l : Text) : l.all blank = true ↔ Blank l := by simp [Blank, blank]

theorem unlines_eq (ls : List Text) : unlines ls = [10].intercalate ls := by
  induction ls with
  | nil => rfl
  | cons l ls ih =>
    cases ls with
    | nil => simp [unlines, List.intercalate]
    | cons k ls => rw [unlines, ih]; simp [List.intercalate]; simp

theorem lines_ne (t : Text) : lines t ≠ [] := by
  cases t with
  | nil => simp [lines]
  | cons c t => rw [lines]; split; · simp
                split <;> simp

theorem lines_lines (t : Text) : Lines t (lines t) := by
  refine ⟨lines_ne t, ?_, ?_⟩
  · induction t with
    | nil => simp [lines]
    | cons c t ih =>
      rw [lines]
      split
      · simpa using ih
      · rename_i hc
        cases h : lines t with
        | nil => exact absurd h (lines_ne t)
        | cons l ls =>
          rw [h] at ih
          intro k hk
          rcases List.mem_cons.1 hk with rfl | hk
          · intro hm
            rcases List.mem_cons.1 hm with e | hm
            · exact hc e.symm
            · exact ih l (by simp) hm
          · exact ih k (by simp [hk])
  · rw [← unlines_eq]
    induction t with
    | nil => rfl
    | cons c t ih =>
      rw [lines]
      split
      · rename_i hc
        cases h : lines t with
        | nil => exact absurd h (lines_ne t)
        | cons l ls => rw [h] at ih; rw [unlines, ← ih, hc]; rfl; simp
      · cases h : lines t with
        | nil => exact absurd h (lines_ne t)
        | cons l ls =>
          rw [h] at ih
          cases ls with
          | nil => simp [unlines] at ih ⊢; exact ih
          | cons k ls => simp only [unlines, List.cons_append] at ih ⊢; rw [ih]

theorem lines_pre (l : Text) (h : 10 ∉ l) (t : Text) : lines (l ++ 10 :: t) = l :: lines t := by
  induction l with
  | nil => simp [lines]
  | cons c l ih =>
    have hc : c ≠ 10 := fun e => h (by simp [e])
    rw [List.cons_append, lines, if_neg hc, ih (fun hm => h (by simp [hm]))]

theorem lines_last (l : Text) (h : 10 ∉ l) : lines l = [l] := by
  induction l with
  | nil => rfl
  | cons c l ih =>
    have hc : c ≠ 10 := fun e => h (by simp [e])
    rw [lines, if_neg hc, ih (fun hm => h (by simp [hm]))]

theorem lines_unlines (ls : List Text) (h0 : ls ≠ []) (h : ∀ l ∈ ls, 10 ∉ l) : lines (unlines ls) = ls := by
  induction ls with
  | nil => exact absurd rfl h0
  | cons l ls ih =>
    cases ls with
    | nil => exact lines_last l (h l (by simp))
    | cons k ls =>
      rw [unlines, lines_pre l (h l (by simp)), ih (by simp) (fun x hx => h x (List.mem_cons_of_mem _ hx))]
      simp

theorem lines_iff (t : Text) (ls : List Text) : Lines t ls ↔ ls = lines t := by
  constructor
  · rintro ⟨h0, h1, h2⟩
    rw [h2, ← unlines_eq, lines_unlines ls h0 h1]
  · rintro rfl; exact lines_lines t

/-! ### The margin -/

/-- The longest common prefix. -/
def common : Text → Text → Text
  | x :: m, y :: i => if x = y then x :: common m i else []
  | _, _ => []

theorem common_prefix (m i : Text) : common m i <+: m ∧ common m i <+: i := by
  induction m generalizing i with
  | nil => simp [common]
  | cons x m ih =>
    cases i with
    | nil => simp [common]
    | cons y i =>
      rw [common]
      split
      · rename_i h; subst h; exact ⟨List.cons_prefix_cons.2 ⟨rfl, (ih i).1⟩, List.cons_prefix_cons.2 ⟨rfl, (ih i).2⟩⟩
      · simp

theorem common_max (p m i : Text) (h1 : p <+: m) (h2 : p <+: i) : p <+: common m i := by
  induction p generalizing m i with
  | nil => simp
  | cons c p ih =>
    obtain ⟨a, rfl⟩ := h1
    obtain ⟨b, rfl⟩ := h2
    simp only [List.cons_append, common, if_true]
    exact List.cons_prefix_cons.2 ⟨rfl, ih _ _ (List.prefix_append ..) (List.prefix_append ..)⟩

theorem diffAt_common (m i : Text) (h1 : m.isPrefixOf i = false) (h2 : i.isPrefixOf m = false) :
    ∃ k, diffAt m i = some k ∧ m.take k = common m i := by
  induction m generalizing i with
  | nil => simp at h1
  | cons x m ih =>
    cases i with
    | nil => simp at h2
    | cons y i =>
      by_cases h : x = y
      · subst h
        simp only [List.isPrefixOf, beq_self_eq_true, Bool.true_and] at h1 h2
        obtain ⟨k, hk, e⟩ := ih i h1 h2
        exact ⟨k + 1, by simp [diffAt, hk], by simp [common, e]⟩
      · exact ⟨0, by simp [diffAt, h], by simp [common, h]⟩

theorem common_of_prefix {m i : Text} (h : m <+: i) : common m i = m := by
  obtain ⟨r, rfl⟩ := h
  induction m with
  | nil => cases r <;> rfl
  | cons x m ih => simp [common, ih]

theorem common_comm (m i : Text) : common m i = common i m := by
  induction m generalizing i with
  | nil => cases i <;> rfl
  | cons x m ih =>
    cases i with
    | nil => rfl
    | cons y i =>
      by_cases h : x = y
      · subst h; simp [common, ih]
      · have h' : ¬ y = x := fun e => h e.symm
        simp [common, h, h']

theorem step_some (m i : Text) : step (some m) i = some (common m i) := by
  rw [step]
  cases h1 : m.isPrefixOf i with
  | true => simp [common_of_prefix (List.isPrefixOf_iff_prefix.1 h1)]
  | false =>
    cases h2 : i.isPrefixOf m with
    | true => simp [common_comm m i, common_of_prefix (List.isPrefixOf_iff_prefix.1 h2)]
    | false =>
      obtain ⟨k, hk, e⟩ := diffAt_common m i h1 h2
      simp [hk, e]

/-- The margin is the longest common prefix of the indents. -/
theorem foldl_step (is : List Text) (m0 : Text) : ∃ m, is.foldl step (some m0) = some m ∧ m <+: m0 ∧ (∀ i ∈ is, m <+: i) ∧
    ∀ p, p <+: m0 → (∀ i ∈ is, p <+: i) → p <+: m := by
  induction is generalizing m0 with
  | nil => exact ⟨m0, rfl, List.prefix_refl _, by simp, fun p hp _ => hp⟩
  | cons i is ih =>
    obtain ⟨m, h1, h2, h3, h4⟩ := ih (common m0 i)
    refine ⟨m, by rw [List.foldl_cons, step_some]; exact h1, h2.trans (common_prefix m0 i).1, ?_, ?_⟩
    · intro j hj
      rcases List.mem_cons.1 hj with rfl | hj
      · exact h2.trans (common_prefix m0 j).2
      · exact h3 j hj
    · intro p hp hi
      exact h4 p (common_max p m0 i hp (hi i (by simp))) (fun j hj => hi j (by simp [hj]))

theorem margin_spec (is : List Text) (h : is ≠ []) : ∃ m, is.foldl step none = some m ∧ (∀ i ∈ is, m <+: i) ∧
    ∀ p, (∀ i ∈ is, p <+: i) → p <+: m := by
  cases is with
  | nil => exact absurd rfl h
  | cons i is =>
    obtain ⟨m, h1, h2, h3, h4⟩ := foldl_step is i
    refine ⟨m, h1, ?_, fun p hp => h4 p (hp i (by simp)) (fun j hj => hp j (by simp [hj]))⟩
    intro j hj
    rcases List.mem_cons.1 hj with rfl | hj
    · exact h2
    · exact h3 j hj

theorem clear_blank {l : Text} (h : Blank l) : clear l = [] := by rw [clear, if_pos ((all_blank_iff l).2 h)]

theorem clear_text {l : Text} (h : ¬ Blank l) : clear l = l := by rw [clear, if_neg (fun e => h ((all_blank_iff l).1 e))]

theorem indent_blank {l : Text} (h : Blank l) : indent l = none := by rw [indent, if_pos ((all_blank_iff l).2 h)]

theorem indent_text {l : Text} (h : ¬ Blank l) : indent l = some (l.takeWhile blank) := by
  rw [indent, if_neg (fun e => h ((all_blank_iff l).1 e))]

theorem blank_nil : Blank [] := by simp [Blank]

theorem indent_clear (l : Text) : indent (clear l) = indent l := by
  by_cases h : Blank l
  · rw [clear_blank h, indent_blank blank_nil, indent_blank h]
  · rw [clear_text h]

theorem takeWhile_blank (l : Text) : Blank (l.takeWhile blank) := fun c hc => (blank_iff c).1 (by
  have := List.all_takeWhile (p := blank) (l := l)
  exact List.all_eq_true.1 this c hc)

theorem prefix_takeWhile {m l : Text} (hm : Blank m) (h : m <+: l) : m <+: l.takeWhile blank := by
  induction m generalizing l with
  | nil => simp
  | cons c m ih =>
    obtain ⟨r, rfl⟩ := h
    have hc : blank c = true := (blank_iff c).2 (hm c (by simp))
    rw [List.cons_append, List.takeWhile_cons, if_pos hc]
    exact List.cons_prefix_cons.2 ⟨rfl, ih (fun d hd => hm d (by simp [hd])) (List.prefix_append ..)⟩

theorem blank_append {m l : Text} : Blank (m ++ l) ↔ Blank m ∧ Blank l := by
  simp [Blank, or_imp, forall_and]

theorem unindent_append (m l : Text) : unindent m (m ++ l) = l := by simp [unindent]

/-- What `dedent` does with lines that begin with a margin. -/
theorem stripped_map {m : Text} {ls : List Text} (hm : Blank m) (h : ∀ l ∈ ls, ¬ Blank l → m <+: l) :
    Stripped m ls ((ls.map clear).map (unindent m)) := by
  induction ls with
  | nil => exact .nil
  | cons l ls ih =>
    have ih := ih fun x hx => h x (by simp [hx])
    by_cases hl : Blank l
    · have e : unindent m (clear l) = [] := by
        rw [clear_blank hl, unindent]
        split <;> simp
      simp only [List.map_cons, e]
      exact .blank hl ih
    · obtain ⟨r, rfl⟩ := h l (by simp) hl
      simp only [List.map_cons, clear_text hl, unindent_append]
      exact .text (fun hr => hl (blank_append.2 ⟨hm, hr⟩)) ih

theorem stripped_lines {m : Text} {ls ls' : List Text} (h : Stripped m ls ls') (hl : ∀ l ∈ ls, 10 ∉ l) : ∀ l ∈ ls', 10 ∉ l := by
  induction h with
  | nil => simp
  | blank _ _ ih => simp only [List.mem_cons, forall_eq_or_imp] at hl ⊢; exact ⟨by simp, ih hl.2⟩
  | text _ _ ih =>
    simp only [List.mem_cons, forall_eq_or_imp, List.mem_append, not_or] at hl ⊢
    exact ⟨hl.1.2, ih hl.2⟩

theorem stripped_ne {m : Text} {ls ls' : List Text} (h : Stripped m ls ls') : ls ≠ [] → ls' ≠ [] := by
  cases h <;> simp

theorem stripped_mem {m : Text} {ls ls' : List Text} (h : Stripped m ls ls') : ∀ l, l ∈ ls' ∧ l ≠ [] ↔ (m ++ l) ∈ ls ∧ ¬ Blank l ∧ ¬ Blank (m ++ l) := by
  intro k
  induction h with
  | nil => simp
  | @blank l ls ls' hb _ ih =>
    constructor
    · rintro ⟨hk, h0⟩
      rcases List.mem_cons.1 hk with rfl | hk
      · exact absurd rfl h0
      · have := ih.1 ⟨hk, h0⟩
        exact ⟨by simp [this.1], this.2⟩
    · rintro ⟨hk, h0, h1⟩
      rcases List.mem_cons.1 hk with e | hk
      · rw [← e] at hb; exact absurd hb h1
      · have := ih.2 ⟨hk, h0, h1⟩
        exact ⟨by simp [this.1], this.2⟩
  | @text l ls ls' hb _ ih =>
    have hne : ∀ {x : Text}, ¬ Blank x → x ≠ [] := fun hx e => hx (e ▸ blank_nil)
    constructor
    · rintro ⟨hk, h0⟩
      rcases List.mem_cons.1 hk with rfl | hk
      · exact ⟨by simp, hb, fun h => hb (blank_append.1 h).2⟩
      · have := ih.1 ⟨hk, h0⟩
        exact ⟨by simp [this.1], this.2⟩
    · rintro ⟨hk, h0, h1⟩
      rcases List.mem_cons.1 hk with e | hk
      · have := List.append_cancel_left e
        subst this
        exact ⟨by simp, hne hb⟩
      · have := ih.2 ⟨hk, h0, h1⟩
        exact ⟨by simp [this.1], this.2⟩

theorem dedented_dedent (t : Text) : Dedented t (dedent t) := by
  obtain ⟨h0, h1, h2⟩ := lines_lines t
  rw [dedent]
  have e : ((lines t).map clear).filterMap indent = (lines t).filterMap indent := by
    rw [List.filterMap_map]
    congr 1
    funext l
    exact indent_clear l
  simp only [e]
  by_cases hi : (lines t).filterMap indent = []
  · rw [hi]
    have hb : ∀ l ∈ lines t, Blank l := by
      intro l hl
      have := List.filterMap_eq_nil_iff.1 hi l hl
      rw [indent] at this
      split at this
      · rename_i h; exact (all_blank_iff l).1 h
      · cases this
    have hs : Stripped [] (lines t) ((lines t).map clear) := by
      have := stripped_map (m := []) (ls := lines t) blank_nil (fun l _ _ => List.nil_prefix)
      rw [List.map_map] at this
      have e2 : (unindent [] ∘ clear) = clear := by funext l; simp [unindent]
      rwa [e2] at this
    refine ⟨[], lines t, (lines t).map clear, blank_nil, lines_lines t, ?_, hs, ?_⟩
    · exact ⟨stripped_ne hs h0, stripped_lines hs h1, unlines_eq _⟩
    · rintro ⟨l, hl, hne⟩
      obtain ⟨k, hk, rfl⟩ := List.mem_map.1 hl
      exact absurd (clear_blank (hb k hk)) hne
  · obtain ⟨m, hm, hp, hmax⟩ := margin_spec _ hi
    rw [hm]
    have hblank : Blank m := by
      cases hl : (lines t).filterMap indent with
      | nil => exact absurd hl hi
      | cons i is =>
        have hmem : i ∈ (lines t).filterMap indent := by rw [hl]; simp
        obtain ⟨l, _, he⟩ := List.mem_filterMap.1 hmem
        rw [indent] at he
        split at he
        · cases he
        · cases he
          intro c hc
          exact takeWhile_blank l c ((hp _ hmem).subset hc)
    have hall : ∀ l ∈ lines t, ¬ Blank l → m <+: l := by
      intro l hl hb
      exact (hp _ (List.mem_filterMap.2 ⟨l, hl, indent_text hb⟩)).trans (List.takeWhile_prefix _)
    have hs := stripped_map hblank hall
    refine ⟨m, lines t, _, hblank, lines_lines t, ⟨stripped_ne hs h0, stripped_lines hs h1, unlines_eq _⟩, hs, ?_⟩
    rintro _ c hc
    refine Classical.byContradiction fun hno => ?_
    have hno : ∀ l ∈ ((lines t).map clear).map (unindent m), l ≠ [] → l.head? = some c := by
      intro l hl hne
      exact Classical.byContradiction fun h => hno ⟨l, hl, hne, h⟩
    have : m ++ [c] <+: m := by
      refine hmax _ ?_
      intro i hi
      obtain ⟨l, hl, he⟩ := List.mem_filterMap.1 hi
      by_cases hb : Blank l
      · rw [indent_blank hb] at he; cases he
      · rw [indent_text hb] at he
        cases he
        obtain ⟨r, rfl⟩ := hall l hl hb
        have hr : ¬ Blank r := fun hr => hb (blank_append.2 ⟨hblank, hr⟩)
        have hin := (stripped_mem hs r).2 ⟨hl, hr, hb⟩
        have := hno r hin.1 hin.2
        cases r with
        | nil => cases this
        | cons d r =>
          cases this
          refine prefix_takeWhile (blank_append.2 ⟨hblank, by simpa [Blank] using hc⟩) ?_
          exact ⟨r, by simp⟩
    have := this.length_le
    simp at this
    omega

theorem stripped_unique {m m' : Text} {ls ls1 ls2 : List Text} (hm' : Blank m') (h1 : Stripped m ls ls1) (h2 : Stripped m' ls ls2)
    (hle : m <+: m') (hf : Flush ls1) : ls1 = ls2 := by
  by_cases hn : ∃ l ∈ ls1, l ≠ []
  · have : m = m' := by
      obtain ⟨r, rfl⟩ := hle
      cases r with
      | nil => simp
      | cons c r =>
        exfalso
        have hc := (blank_append.1 hm').2 c (by simp)
        obtain ⟨l, hl, hne, hh⟩ := hf hn c hc
        have hin := (stripped_mem h1 l).1 ⟨hl, hne⟩
        -- the line is in `ls` and begins with the longer margin
        have key : ∀ {ls ls2}, Stripped (m ++ c :: r) ls ls2 → ∀ k ∈ ls, ¬ Blank k → (m ++ c :: r) <+: k := by
          intro ls ls2 h
          induction h with
          | nil => simp
          | blank hb _ ih =>
            intro k hk hkb
            rcases List.mem_cons.1 hk with rfl | hk
            · exact absurd hb hkb
            · exact ih k hk hkb
          | text _ _ ih =>
            intro k hk hkb
            rcases List.mem_cons.1 hk with rfl | hk
            · exact List.prefix_append ..
            · exact ih k hk hkb
        have := key h2 _ hin.1 hin.2.2
        rw [List.prefix_append_right_inj] at this
        obtain ⟨q, rfl⟩ := this
        exact hh rfl
    subst this
    clear hle hf hn
    induction h1 generalizing ls2 with
    | nil => cases h2; rfl
    | blank hb _ ih =>
      generalize hx : _ :: _ = x at h2
      cases h2 with
      | nil => cases hx
      | blank _ h2 => cases hx; rw [ih h2]
      | text hb' h2 => cases hx; exact absurd (blank_append.1 hb).2 hb'
    | text hb _ ih =>
      generalize hx : _ :: _ = x at h2
      cases h2 with
      | nil => cases hx
      | blank hb' h2 => cases hx; exact absurd (blank_append.1 hb').2 hb
      | text hb' h2 =>
        obtain ⟨e1, e2⟩ := List.cons.inj hx
        have := List.append_cancel_left e1
        subst this
        subst e2
        rw [ih h2]
  · have key : ∀ {m ls ls1 ls2}, Stripped m ls ls1 → (¬ ∃ l ∈ ls1, l ≠ []) → Stripped m' ls ls2 → ls1 = ls2 := by
      intro m ls ls1 ls2 h
      induction h generalizing ls2 with
      | nil => intro _ h; cases h; rfl
      | blank hb _ ih =>
        intro hn h2
        generalize hx : _ :: _ = x at h2
        cases h2 with
        | nil => cases hx
        | blank _ h2 => cases hx; rw [ih (fun ⟨l, hl, hne⟩ => hn ⟨l, by simp [hl], hne⟩) h2]
        | text hb' h2 => cases hx; exact absurd (blank_append.1 hb).2 hb'
      | text hb _ ih =>
        intro hn
        exact absurd ⟨_, List.mem_cons_self .., fun e => hb (e ▸ blank_nil)⟩ hn
    exact key h1 hn h2

/-- Both margins are prefixes of a line, or there is no line. -/
theorem stripped_both {m m' : Text} {ls ls1 ls2 : List Text} (h1 : Stripped m ls ls1) (h2 : Stripped m' ls ls2) :
    (m <+: m' ∨ m' <+: m) ∨ (∀ l ∈ ls, Blank l) := by
  by_cases h : ∀ l ∈ ls, Blank l
  · exact .inr h
  · left
    have ⟨l, hl, hb⟩ : ∃ l ∈ ls, ¬ Blank l := Classical.byContradiction fun hn => h fun l hl => Classical.byContradiction fun hb => hn ⟨l, hl, hb⟩
    have key : ∀ {m ls ls2}, Stripped m ls ls2 → ∀ k ∈ ls, ¬ Blank k → m <+: k := by
      intro m ls ls2 h
      induction h with
      | nil => simp
      | blank hb _ ih =>
        intro k hk hkb
        rcases List.mem_cons.1 hk with rfl | hk
        · exact absurd hb hkb
        · exact ih k hk hkb
      | text _ _ ih =>
        intro k hk hkb
        rcases List.mem_cons.1 hk with rfl | hk
        · exact List.prefix_append ..
        · exact ih k hk hkb
    exact List.prefix_or_prefix_of_prefix (key h1 l hl hb) (key h2 l hl hb)

theorem stripped_blank {m : Text} {ls ls1 : List Text} (h1 : Stripped m ls ls1) (h : ∀ l ∈ ls, Blank l) : ls1 = ls.map fun _ => [] := by
  induction h1 with
  | nil => rfl
  | blank _ _ ih => rw [ih fun l hl => h l (by simp [hl])]; rfl
  | text hb _ _ => exact absurd (blank_append.1 (h _ (List.mem_cons_self ..))).2 hb

theorem dedented_unique {t u v : Text} (h1 : Dedented t u) (h2 : Dedented t v) : u = v := by
  obtain ⟨m, ls, ls1, hm, ht, hu, hs, hf⟩ := h1
  obtain ⟨m', ls', ls2, hm', ht', hv, hs', hf'⟩ := h2
  have : ls = ls' := by rw [(lines_iff t ls).1 ht, (lines_iff t ls').1 ht']
  subst this
  have e : ls1 = ls2 := by
    rcases stripped_both hs hs' with (h | h) | h
    · exact stripped_unique hm' hs hs' h hf
    · exact (stripped_unique hm hs' hs h hf').symm
    · rw [stripped_blank hs h, stripped_blank hs' h]
  rw [hu.2.2, hv.2.2, e]

/-- `dedent` removes the common indentation of all lines that are not blank, nothing else, and what is on blank lines. -/
theorem C112_dedent (t u : Text) : dedent t = u ↔ Dedented t u :=
  ⟨fun h => h ▸ dedented_dedent t, fun h => dedented_unique (dedented_dedent t) h⟩

theorem stripped_indented {m w : Text} {ls ls' ls1 : List Text} (h : Indented w ls ls') (hs : Stripped m ls ls1) : Stripped (w ++ m) ls' ls1 := by
  induction h generalizing ls1 with
  | nil => cases hs; exact .nil
  | blank hb hb' _ ih =>
    generalize hx : _ :: _ = x at hs
    cases hs with
    | nil => cases hx
    | blank _ hs => cases hx; exact .blank hb' (ih hs)
    | text hn hs => cases hx; exact absurd (blank_append.1 hb).2 hn
  | text hb _ ih =>
    generalize hx : _ :: _ = x at hs
    cases hs with
    | nil => cases hx
    | blank hb' hs => cases hx; exact absurd hb' hb
    | text hn hs =>
      cases hx
      have := Stripped.text hn (ih hs)
      rwa [List.append_assoc] at this

/-- Indenting all lines of a docstring does not change the prompt: it does not depend on where in its module a template is defined. -/
theorem C112_indent (R : Conv) (E : PromptEnv) (t t' w : Text) (hw : Blank w) (ls ls' : List Text) (ht : Lines t ls) (ht' : Lines t' ls')
    (h : Indented w ls ls') : dedent t' = dedent t ∧ callDoc R E t' = callDoc R E t := by
  have : dedent t' = dedent t := by
    rw [C112_dedent]
    obtain ⟨m, ks, ls1, hm, hk, hu, hs, hf⟩ := dedented_dedent t
    have : ks = ls := by rw [(lines_iff t ks).1 hk, (lines_iff t ls).1 ht]
    subst this
    exact ⟨w ++ m, ls', ls1, blank_append.2 ⟨hw, hm⟩, ht', hu, stripped_indented h hs, hf⟩
  exact ⟨this, by rw [callDoc, callDoc, this]⟩

/-- A text without common indentation and without blanks on blank lines is left as it is. -/
theorem C112_keeps (t : Text) (ls : List Text) (ht : Lines t ls) (h : ∀ l ∈ ls, Blank l → l = []) (hf : Flush ls) : dedent t = t := by
  rw [C112_dedent]
  refine ⟨[], ls, ls, blank_nil, ht, ht, ?_, hf⟩
  clear ht hf
  induction ls with
  | nil => exact .nil
  | cons l ls ih =>
    have ih := ih fun k hk => h k (by simp [hk])
    by_cases hb : Blank l
    · have := h l (by simp) hb
      subst this
      exact .blank blank_nil ih
    · exact .text (m := []) hb ih

/-- A docstring that begins on the line of the quotes keeps the indentation of its other lines, whatever it is. -/
theorem C112_first_fails (c : Nat) (l : Text) (ls : List Text) (hc : ¬ (c = 32 ∨ c = 9)) (t : Text) (ht : Lines t ((c :: l) :: ls))
    (h : ∀ k ∈ ls, Blank k → k = []) : dedent t = t := by
  refine C112_keeps t _ ht ?_ ?_
  · intro k hk hb
    rcases List.mem_cons.1 hk with rfl | hk
    · exact absurd (hb c (by simp)) hc
    · exact h k hk hb
  · intro _ d hd
    exact ⟨c :: l, by simp, by simp, fun e => hc (by simp at e; subst e; exact hd)⟩

/-! ### Fields -/

/-- Blanks at the beginning of lines are left out; `b`: at the beginning of a line. -/
inductive Drop : Bool → Text → Text → Prop
  | nil {b} : Drop b [] []
  | keep {b c t u} : Drop (c == 10) t u → Drop b (c :: t) (c :: u)
  | skip {c t u} : c = 32 ∨ c = 9 → Drop true t u → Drop true (c :: t) u

theorem drop_refl (b : Bool) (t : Text) : Drop b t t := by
  induction t generalizing b with
  | nil => exact .nil
  | cons c t ih => exact .keep (ih _)

theorem drop_blank {m : Text} (hm : Blank m) {t u : Text} (h : Drop true t u) : Drop true (m ++ t) u := by
  induction m with
  | nil => exact h
  | cons c m ih => exact .skip (hm c (by simp)) (ih fun d hd => hm d (by simp [hd]))

theorem drop_pre {l : Text} (hl : 10 ∉ l) {t u : Text} (h : ∀ b, Drop b t u) (b : Bool) : Drop b (l ++ t) (l ++ u) := by
  induction l generalizing b with
  | nil => exact h b
  | cons c l ih => exact .keep (ih (fun hm => hl (by simp [hm])) _)

theorem drop_newline {t u : Text} (h : Drop true t u) (b : Bool) : Drop b (10 :: t) (10 :: u) := .keep h

theorem stripped_drop {m : Text} (hm : Blank m) {ls ls' : List Text} (h : Stripped m ls ls') (hl : ∀ l ∈ ls, 10 ∉ l) :
    Drop true (unlines ls) (unlines ls') := by
  have last : ∀ {l : Text}, Blank l → Drop true l [] := by
    intro l hb
    have := drop_blank hb (t := []) (u := []) .nil
    simpa using this
  induction h with
  | nil => exact .nil
  | @blank l ls ls' hb hs ih =>
    have ih := ih fun k hk => hl k (by simp [hk])
    cases ls with
    | nil => cases hs; exact last hb
    | cons k ls =>
      cases ls' with
      | nil => cases hs
      | cons k' ls' =>
        simp only [unlines, List.nil_append]
        exact drop_blank hb (drop_newline ih _)
  | @text l ls ls' hb hs ih =>
    have ih := ih fun k hk => hl k (by simp [hk])
    have h10 : 10 ∉ l := fun h => hl (m ++ l) (by simp) (by simp [h])
    cases ls with
    | nil => cases hs; exact drop_blank hm (drop_refl _ _)
    | cons k ls =>
      cases ls' with
      | nil => cases hs
      | cons k' ls' =>
        simp only [unlines, List.append_assoc]
        exact drop_blank hm (drop_pre h10 (drop_newline ih) _)

theorem drop_dedent (t : Text) : Drop true t (dedent t) := by
  obtain ⟨m, ls, ls', hm, ⟨_, hl, rfl⟩, ⟨_, _, hu⟩, hs, _⟩ := dedented_dedent t
  rw [hu, ← unlines_eq, ← unlines_eq]
  exact stripped_drop hm hs hl

/-- A text without newlines is kept if it is not at the beginning of a line. -/
theorem drop_line {l : Text} (hl : 10 ∉ l) {t u : Text} (h : Drop false (l ++ t) u) : ∃ u', u = l ++ u' ∧ Drop false t u' := by
  induction l generalizing u with
  | nil => exact ⟨u, rfl, h⟩
  | cons c l ih =>
    have hc : (c == 10) = false := by simpa using fun e : c = 10 => hl (by simp [e])
    generalize hx : (c :: l) ++ t = x at h
    cases h with
    | nil => cases hx
    | keep h =>
      cases hx
      rw [hc] at h
      obtain ⟨u', rfl, h'⟩ := ih (fun hm => hl (by simp [hm])) h
      exact ⟨u', rfl, h'⟩

/-- The characters of a prompt that are neither blank nor in fields. -/
def shown : List Item → Text
  | [] => []
  | .ch c :: is => if c = 32 ∨ c = 9 then shown is else c :: shown is
  | .field _ :: is => shown is

theorem drop_write (is : List Item) (hf : ∀ f ∈ fields is, 10 ∉ body f) (b : Bool) (u : Text) (h : Drop b (write is) u) :
    ∃ is', u = write is' ∧ fields is' = fields is ∧ shown is' = shown is := by
  induction is generalizing b u with
  | nil =>
    generalize hx : write [] = x at h
    cases h with
    | nil => exact ⟨[], rfl, rfl, rfl⟩
    | keep _ => cases hx
    | skip _ _ => cases hx
  | cons i is ih =>
    cases i with
    | field f =>
      have ih := ih fun g hg => hf g (by simp [fields, hg])
      rw [write] at h
      have hb := hf f (by simp [fields])
      generalize hx : 123 :: (body f ++ write is) = x at h
      cases h with
      | nil => cases hx
      | keep h =>
        cases hx
        obtain ⟨u', rfl, h'⟩ := drop_line hb h
        obtain ⟨is', rfl, e1, e2⟩ := ih _ _ h'
        exact ⟨.field f :: is', rfl, by simp [fields, e1], by simp [shown, e2]⟩
      | skip hc h => cases hx; omega
    | ch c =>
      have ih := ih hf
      rw [write] at h
      split at h
      · rename_i hc
        have h10 : (c == 10) = false := by rcases hc with rfl | rfl <;> rfl
        generalize hx : c :: c :: write is = x at h
        cases h with
        | nil => cases hx
        | keep h =>
          cases hx
          rw [h10] at h
          obtain ⟨u', rfl, h'⟩ := drop_line (l := [c]) (by simp; omega) h
          obtain ⟨is', rfl, e1, e2⟩ := ih _ _ h'
          exact ⟨.ch c :: is', by simp [write, hc], by simp [fields, e1], by simp [shown, e2]⟩
        | skip hk h => cases hx; omega
      · rename_i hc
        generalize hx : c :: write is = x at h
        cases h with
        | nil => cases hx
        | keep h =>
          cases hx
          obtain ⟨is', rfl, e1, e2⟩ := ih _ _ h
          exact ⟨.ch c :: is', by simp [write, hc], by simp [fields, e1], by simp [shown, e2]⟩
        | skip hk h =>
          cases hx
          obtain ⟨is', rfl, e1, e2⟩ := ih _ _ h
          exact ⟨is', rfl, by simp [fields, e1], by simp [shown, hk, e2]⟩

theorem mem_fields (is : List Item) (f : RawField) : f ∈ fields is ↔ .field f ∈ is := by
  induction is with
  | nil => simp [fields]
  | cons i is ih => cases i <;> simp [fields, ih]

/-- Fields that are on one line stay as they are, and so does the text apart from blanks; the message has the characters and values of
the dedented docstring. -/
theorem C112_content (R : Conv) (E : PromptEnv) (is : List Item) (hw : ∀ f, .field f ∈ is → Wf f ∧ 10 ∉ body f) :
    ∃ is', dedent (write is) = write is' ∧ fields is' = fields is ∧ shown is' = shown is ∧
      (∀ bs, callDoc R E (write is) = .ok bs → Content R E is' (stream bs)) ∧
      ((∃ x, Content R E is' x) ↔ ∃ bs, callDoc R E (write is) = .ok bs) := by
  obtain ⟨is', e, h1, h2⟩ := drop_write is (fun f hf => (hw f ((mem_fields is f).1 hf)).2) _ _ (drop_dedent _)
  have hw' : ∀ f, .field f ∈ is' → Wf f := by
    intro f hf
    rw [← mem_fields, h1, mem_fields] at hf
    exact (hw f hf).1
  have := C111_content R E is' hw'
  exact ⟨is', e, h1, h2, by rw [callDoc, e]; exact this.1, by rw [callDoc, e]; exact this.2⟩

/-- The docstring that is checked when a template is defined and the one that is used when it is called are accepted alike. -/
theorem C112_defined (R : Conv) (word : Nat → Bool) (hw : word 46 = false ∧ word 91 = false) (params context : List Text)
    (is : List Item) (hi : ∀ f, .field f ∈ is → Wf f ∧ Simple word f.name ∧ 10 ∉ body f) :
    defineText R word (params ++ context) (dedent (write is)) = defineText R word (params ++ context) (write is) := by
  obtain ⟨is', e, h1, _⟩ := drop_write is (fun f hf => (hi f ((mem_fields is f).1 hf)).2.2) _ _ (drop_dedent _)
  have hm : ∀ f, .field f ∈ is' ↔ .field f ∈ is := by
    intro f; rw [← mem_fields, h1, mem_fields]
  have a := C111_defined R word hw params context is (fun f hf => ⟨(hi f hf).1, (hi f hf).2.1⟩)
  have b := C111_defined R word hw params context is' (fun f hf => ⟨(hi f ((hm f).1 hf)).1, (hi f ((hm f).1 hf)).2.1⟩)
  rw [e, Bool.eq_iff_iff, a, b]
  simp only [hm]

/-! ## Examples -/

/-- Moving a template to the right, here by four spaces, changes its message if its docstring begins on the line of the quotes. -/
theorem C112_nesting_fails : ∃ (w : Text) (first second : Text) (R : Conv) (E : PromptEnv), Blank w ∧
    (callDoc R E (first ++ 10 :: (w ++ second))).toOption.map stream ≠ (callDoc R E (first ++ 10 :: (w ++ w ++ second))).toOption.map stream :=
  ⟨[32, 32, 32, 32], [97], [98], quotes, env, by simp [Blank], by
    intro h
    have := congrArg (fun x => x.map List.length) h
    revert this
    decide +kernel⟩

/-- A docstring that begins after the quotes: `"\n    a\n      {n}\n    "`. -/
example : dedent ([10] ++ [32, 32, 32, 32, 97, 10] ++ [32, 32, 32, 32, 32, 32, 123, 110, 125, 10] ++ [32, 32, 32, 32]) =
    [10, 97, 10, 32, 32, 123, 110, 125, 10] := rfl
/-- Tabs and spaces differ. -/
example : dedent [32, 9, 97, 10, 32, 32, 98] = [9, 97, 10, 32, 98] := rfl
example : Lines [10, 97] [[], [97]] := ⟨by simp, by simp, rfl⟩
example : Indented [32] [[], [97]] [[32], [32, 97]] := .blank blank_nil (by simp [Blank]) (.text (by simp [Blank]) .nil)
example : Flush [[97], [32, 98]] := fun _ c hc => ⟨[97], by simp, by simp, by intro e; simp at e; omega⟩
example : Dedented [32, 97] [97] :=
  ⟨[32], [[32, 97]], [[97]], by simp [Blank], ⟨by simp, by simp, rfl⟩, ⟨by simp, by simp, rfl⟩, .text (m := [32]) (by simp [Blank]) .nil,
    fun _ c hc => ⟨[97], by simp, by simp, by intro e; simp at e; omega⟩⟩

end Verif.Llm.Dedent
