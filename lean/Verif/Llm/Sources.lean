/-!
# C65: the source of decoded code

Model of how the sources of decoded code objects and synthesized functions are kept and found again: `parse` of the eval
providers (`handlers/llm/evaluation.py` 431-442, 502-511), the codec of `types.CodeType` (`handlers/llm/encoding.py`
211-270) and `_validate`, `_serialize` of `_pydantic_callable` (584-586, 641-651).

* Text is a list of code points. `str.splitlines` breaks after the characters of `seps`; the lines that Python counts
  (`co_firstlineno`) end with `"\n"`. Carriage returns are left out.
* `linecache` entries without a modification time are never dropped or reloaded.
* Decoding makes an object for the encoded function, at an address that no live object has; `keep` says whether anything
  refers to it afterwards (it does if the caller passed in the object). An object is decoded once.
* `inspect.getsource` gives the lines from the first line of the function to the end: the function is the last statement
  (C64), and there is nothing after it. `textwrap.dedent` changes nothing as the function is not indented.
-/

namespace Verif.Sources

abbrev Text := List Nat

/-- `"\n"`. -/
def newline : Nat := 10

/-- Splitting after each character that satisfies `p`; the separators are kept. -/
def splitAfter (p : Nat → Bool) : Text → List Text
  | [] => []
  | c :: cs =>
    if p c then [c] :: splitAfter p cs
    else
      match splitAfter p cs with
      | [] => [[c]]
      | l :: ls => (c :: l) :: ls

/-- The line separators of `str.splitlines`. -/
def seps : List Nat := [10, 11, 12, 28, 29, 30, 133, 8232, 8233]

/-- `source.splitlines(True)`. -/
def splitlines (t : Text) : List Text := splitAfter (fun c => seps.contains c) t

/-- A filename: `<exec_code-…>` or `<synthesis:…>`. -/
inductive File where
  | code (uuid : Nat)
  | synthesis (address : Nat)
deriving DecidableEq

/-- The state: `linecache.cache`, live encoded functions, uuids so far, code objects (`co_filename`) and functions
(`co_filename` and number of lines before the function). -/
structure St where
  cache : File → Option (List Text)
  live : List Nat
  uuids : Nat
  codes : List File
  fns : List (File × Nat)

def St.init : St := ⟨fun _ => none, [], 0, [], []⟩

/-- `linecache.cache[filename] = …`. -/
def St.store (s : St) (f : File) (t : Text) : St :=
  { s with cache := fun g => if g = f then some (splitlines t) else s.cache g }

/-- What happens: a code object is decoded; a function whose source is `before ++ body` is decoded; a kept encoded function
is freed. -/
inductive Event where
  | code (t : Text)
  | fn (before body : Text) (address : Nat) (keep : Bool)
  | free (address : Nat)

/-- The number of lines of the text before a function. -/
def lineCount (t : Text) : Nat := t.count newline

/-- A step, if it is possible. -/
def step (s : St) : Event → Option St
  | .code t =>
    let f := File.code s.uuids
    some { s.store f t with uuids := s.uuids + 1, codes := s.codes ++ [f] }
  | .fn before body a keep =>
    if a ∈ s.live then none
    else
      let f := File.synthesis a
      some { s.store f (before ++ body) with
        fns := s.fns ++ [(f, lineCount before)], live := if keep then a :: s.live else s.live }
  | .free a => if a ∈ s.live then some { s with live := s.live.erase a } else none

def steps (s : St) : List Event → Option St
  | [] => some s
  | e :: es =>
    match step s e with
    | none => none
    | some s' => steps s' es

/-- Encoding the `i`-th code object: `"".join(linecache.getlines(value.co_filename))`. -/
def encodeCode (s : St) (i : Nat) : Option Text :=
  match s.codes[i]? with
  | none => none
  | some f =>
    match s.cache f with
    | none => some []
    | some ls => some ls.flatten

/-- Encoding the `i`-th function: `inspect.getsource(value)`; `none` if there are no such lines. -/
def encodeFn (s : St) (i : Nat) : Option Text :=
  match s.fns[i]? with
  | none => none
  | some (f, n) =>
    match s.cache f with
    | none => none
    | some ls => if n < ls.length then some (ls.drop n).flatten else none

/-! ## What is stated -/

/-- The sources of the code objects decoded in a history, in order. -/
def codeSources : List Event → List Text
  | [] => []
  | .code t :: es => t :: codeSources es
  | _ :: es => codeSources es

/-- The functions decoded in a history, in order: the text before, the text, the address. -/
def fnSources : List Event → List (Text × Text × Nat)
  | [] => []
  | .fn b t a _ :: es => (b, t, a) :: fnSources es
  | _ :: es => fnSources es

/-- Something decodes a function at this address. -/
def Uses (a : Nat) : Event → Prop
  | .fn _ _ b _ => b = a
  | _ => False

/-- Before a function: whole lines that end with newlines and no other separators. -/
def WholeLines (t : Text) : Prop := (∀ c ∈ t, c ∈ seps → c = newline) ∧ (t = [] ∨ ∃ u, t = u ++ [newline])

/-! ## Proofs -/

theorem flatten_splitAfter (p : Nat → Bool) (t : Text) : (splitAfter p t).flatten = t := by
  induction t with
  | nil => rfl
  | cons c cs ih =>
    rw [splitAfter]
    split
    · simp [ih]
    · cases h : splitAfter p cs with
      | nil => rw [h] at ih; simp at ih; simp [ih]
      | cons l ls => rw [h] at ih; simp at ih ⊢; rw [ih]

theorem splitAfter_append (p : Nat → Bool) (u : Text) (c : Nat) (hc : p c = true) (t : Text) :
    splitAfter p (u ++ c :: t) = splitAfter p (u ++ [c]) ++ splitAfter p t := by
  induction u with
  | nil => simp [splitAfter, hc]
  | cons d u ih =>
    simp only [List.cons_append]
    rw [splitAfter, splitAfter]
    split
    · rw [ih]; simp
    · rw [ih]
      cases h : splitAfter p (u ++ [c]) with
      | nil =>
        have := flatten_splitAfter p (u ++ [c])
        rw [h] at this
        simp at this
      | cons l ls => simp

/-- A text of whole lines has as many lines as newlines. -/
theorem length_splitAfter (t : Text) (h : WholeLines t) : (splitlines t).length = lineCount t := by
  obtain ⟨h1, h2⟩ := h
  have key : ∀ u : Text, (∀ c ∈ u, c ∈ seps → c = newline) →
      (splitAfter (fun c => seps.contains c) (u ++ [newline])).length = lineCount (u ++ [newline]) := by
    intro u
    induction u with
    | nil => intro _; decide
    | cons d u ih =>
      intro hu
      have ih := ih fun c hc => hu c (by simp [hc])
      simp only [List.cons_append]
      rw [splitAfter]
      by_cases hd : d ∈ seps
      · have := hu d (by simp) hd
        subst this
        have hn : seps.contains newline = true := by decide
        rw [if_pos hn, List.length_cons, ih]
        simp [lineCount]
      · have hn : ¬ seps.contains d = true := by simpa using hd
        have hne : d ≠ newline := fun e => hd (e ▸ by decide)
        rw [if_neg hn]
        cases hs : splitAfter (fun c => seps.contains c) (u ++ [newline]) with
        | nil =>
          have := flatten_splitAfter (fun c => seps.contains c) (u ++ [newline])
          rw [hs] at this
          simp at this
        | cons l ls =>
          rw [hs] at ih
          simp only [List.length_cons] at ih ⊢
          rw [ih]
          simp [lineCount, hne]
  rcases h2 with rfl | ⟨u, rfl⟩
  · rfl
  · exact key u fun c hc => h1 c (by simp [hc])

theorem drop_splitlines (b t : Text) (h : WholeLines b) :
    (splitlines (b ++ t)).drop (lineCount b) = splitlines t := by
  have hl := length_splitAfter b h
  rcases h.2 with rfl | ⟨u, rfl⟩
  · rfl
  · rw [splitlines, List.append_assoc, List.singleton_append, splitAfter_append _ u newline (by decide) t, ← splitlines, ← splitlines,
      ← hl, List.drop_left]

/-- Code objects have the filenames of their uuids, and these hold their sources. -/
structure Inv (s : St) (l : List Event) : Prop where
  count : s.uuids = (codeSources l).length
  codes : s.codes = (List.range (codeSources l).length).map File.code
  cache : ∀ (i : Nat) t, (codeSources l)[i]? = some t → s.cache (.code i) = some (splitlines t)
  fns : s.fns = (fnSources l).map fun x => (File.synthesis x.2.2, lineCount x.1)

theorem codeSources_append (l m : List Event) : codeSources (l ++ m) = codeSources l ++ codeSources m := by
  induction l with
  | nil => rfl
  | cons e l ih => cases e <;> simp [codeSources, ih]

theorem fnSources_append (l m : List Event) : fnSources (l ++ m) = fnSources l ++ fnSources m := by
  induction l with
  | nil => rfl
  | cons e l ih => cases e <;> simp [fnSources, ih]

theorem inv_step {s s' : St} {l : List Event} {e : Event} (h : Inv s l) (hs : step s e = some s') : Inv s' (l ++ [e]) := by
  obtain ⟨h1, h2, h3, h4⟩ := h
  cases e with
  | code t =>
    simp only [step, Option.some.injEq] at hs
    subst hs
    refine ⟨?_, ?_, ?_, ?_⟩
    · simp [codeSources_append, codeSources, h1]
    · simp [codeSources_append, codeSources, h2, List.range_succ, h1]
    · intro i u hu
      rw [codeSources_append] at hu
      simp only [St.store]
      by_cases hi : i < (codeSources l).length
      · rw [List.getElem?_append_left hi] at hu
        rw [if_neg (by rw [h1]; simp; exact Nat.ne_of_lt hi)]
        exact h3 i u hu
      · rw [List.getElem?_append_right (Nat.le_of_not_lt hi)] at hu
        have : i = (codeSources l).length := by
          cases hd : i - (codeSources l).length with
          | zero => omega
          | succ k => rw [hd] at hu; simp [codeSources] at hu
        subst this
        simp [codeSources] at hu
        rw [if_pos (by rw [h1]), hu]
    · simp [fnSources_append, fnSources, St.store, h4]
  | fn b t a k =>
    simp only [step] at hs
    split at hs
    · cases hs
    · simp only [Option.some.injEq] at hs
      subst hs
      refine ⟨?_, ?_, ?_, ?_⟩
      · simpa [codeSources_append, codeSources, St.store] using h1
      · simpa [codeSources_append, codeSources, St.store] using h2
      · intro i u hu
        simp [codeSources_append, codeSources] at hu
        simpa [St.store] using h3 i u hu
      · simp [fnSources_append, fnSources, h4]
  | free a =>
    simp only [step] at hs
    split at hs
    · simp only [Option.some.injEq] at hs
      subst hs
      refine ⟨?_, ?_, ?_, ?_⟩
      · simpa [codeSources_append, codeSources] using h1
      · simpa [codeSources_append, codeSources] using h2
      · intro i u hu
        simp [codeSources_append, codeSources] at hu
        exact h3 i u hu
      · simp [fnSources_append, fnSources, h4]
    · cases hs

theorem inv_steps {s s' : St} {l m : List Event} (h : Inv s l) (hs : steps s m = some s') : Inv s' (l ++ m) := by
  induction m generalizing s l with
  | nil => simp [steps] at hs; subst hs; simpa using h
  | cons e m ih =>
    rw [steps] at hs
    cases he : step s e with
    | none => simp [he] at hs
    | some s1 =>
      simp only [he] at hs
      have := ih (inv_step h he) hs
      simpa using this

theorem inv_init : Inv St.init [] := ⟨rfl, rfl, by simp [codeSources], rfl⟩

theorem steps_append (s : St) (l m : List Event) :
    steps s (l ++ m) = match steps s l with | none => none | some s' => steps s' m := by
  induction l generalizing s with
  | nil => rfl
  | cons e l ih =>
    rw [List.cons_append, steps, steps]
    cases step s e with
    | none => rfl
    | some s' => exact ih s'

/-- The entry of an address changes only when the address is used. -/
theorem cache_unused {s s' : St} {a : Nat} {m : List Event} (hs : steps s m = some s') (hm : ∀ e ∈ m, ¬ Uses a e) :
    s'.cache (.synthesis a) = s.cache (.synthesis a) := by
  induction m generalizing s with
  | nil => simp [steps] at hs; subst hs; rfl
  | cons e m ih =>
    rw [steps] at hs
    cases he : step s e with
    | none => simp [he] at hs
    | some s1 =>
      simp only [he] at hs
      rw [ih hs fun x hx => hm x (by simp [hx])]
      cases e with
      | code t => simp only [step, Option.some.injEq] at he; subst he; simp [St.store]
      | fn b t c k =>
        simp only [step] at he
        split at he
        · cases he
        · simp only [Option.some.injEq] at he
          subst he
          have : c ≠ a := fun e => hm (.fn b t c k) List.mem_cons_self e
          simp [St.store, Ne.symm this]
      | free c =>
        simp only [step] at he
        split at he
        · simp only [Option.some.injEq] at he; subst he; rfl
        · cases he

/-- The address of a live object stays live, and so is not used, until it is freed. -/
theorem unused_while_live {s s' : St} {a : Nat} {m : List Event} (hs : steps s m = some s') (ha : a ∈ s.live)
    (hf : ∀ e ∈ m, e ≠ .free a) : ∀ e ∈ m, ¬ Uses a e := by
  induction m generalizing s with
  | nil => simp
  | cons e m ih =>
    rw [steps] at hs
    cases he : step s e with
    | none => simp [he] at hs
    | some s1 =>
      simp only [he] at hs
      have h1 : a ∈ s1.live ∧ ¬ Uses a e := by
        cases e with
        | code t => simp only [step, Option.some.injEq] at he; subst he; exact ⟨ha, id⟩
        | fn b t c k =>
          simp only [step] at he
          split at he
          · cases he
          · rename_i hc
            simp only [Option.some.injEq] at he
            subst he
            refine ⟨?_, fun e => hc (by cases e; exact ha)⟩
            cases k <;> simp [ha]
        | free c =>
          simp only [step] at he
          split at he
          · simp only [Option.some.injEq] at he
            subst he
            have : a ≠ c := fun e => hf (.free c) List.mem_cons_self (by rw [e])
            exact ⟨(List.mem_erase_of_ne this).2 ha, id⟩
          · cases he
      intro x hx
      rcases List.mem_cons.1 hx with rfl | hx
      · exact h1.2
      · exact ih hs h1.1 (fun y hy => hf y (by simp [hy])) x hx

/-! ## Theorems -/

/-- Whatever is decoded in between, a decoded code object is encoded as the source it was decoded from. -/
theorem C65_code (l : List Event) (s : St) (h : steps St.init l = some s) (i : Nat) (t : Text)
    (ht : (codeSources l)[i]? = some t) : encodeCode s i = some t := by
  have inv := inv_steps inv_init h
  simp only [List.nil_append] at inv
  have hi : i < (codeSources l).length := (List.getElem?_eq_some_iff.1 ht).1
  simp only [encodeCode, inv.codes, List.getElem?_map, List.getElem?_range hi, Option.map_some, inv.cache i t ht,
    splitlines, flatten_splitAfter]

/-- The source of a function can be found as long as its address is not used again. -/
theorem C65_function_partial (l m : List Event) (b t : Text) (a : Nat) (keep : Bool) (s : St)
    (h : steps St.init (l ++ .fn b t a keep :: m) = some s) (hm : ∀ e ∈ m, ¬ Uses a e) (hb : WholeLines b) (ht : t ≠ []) :
    encodeFn s (fnSources l).length = some t := by
  have inv := inv_steps inv_init h
  simp only [List.nil_append] at inv
  rw [steps_append] at h
  cases h1 : steps St.init l with
  | none => simp [h1] at h
  | some s1 =>
    simp only [h1, steps] at h
    cases h2 : step s1 (.fn b t a keep) with
    | none => simp [h2] at h
    | some s2 =>
      simp only [h2] at h
      have hc := cache_unused h hm
      have hc2 : s2.cache (.synthesis a) = some (splitlines (b ++ t)) := by
        simp only [step] at h2
        split at h2
        · cases h2
        · simp only [Option.some.injEq] at h2
          subst h2
          simp [St.store]
      have hf : s.fns[(fnSources l).length]? = some (.synthesis a, lineCount b) := by
        rw [inv.fns, fnSources_append]
        simp [fnSources]
      have hd := drop_splitlines b t hb
      have hlen : lineCount b < (splitlines (b ++ t)).length := by
        refine Nat.lt_of_not_le fun hle => ht ?_
        rw [List.drop_eq_nil_of_le hle] at hd
        have := flatten_splitAfter (fun c => seps.contains c) t
        rw [← splitlines, ← hd] at this
        exact this.symm
      simp only [encodeFn, hf, hc, hc2, hlen, if_true, hd]
      simp [splitlines, flatten_splitAfter]

/-- In particular as long as the encoded function is alive. -/
theorem C65_alive_partial (l m : List Event) (b t : Text) (a : Nat) (s : St)
    (h : steps St.init (l ++ .fn b t a true :: m) = some s) (hm : ∀ e ∈ m, e ≠ .free a) (hb : WholeLines b) (ht : t ≠ []) :
    encodeFn s (fnSources l).length = some t := by
  refine C65_function_partial l m b t a true s h ?_ hb ht
  rw [steps_append] at h
  cases h1 : steps St.init l with
  | none => simp [h1] at h
  | some s1 =>
    simp only [h1, steps] at h
    cases h2 : step s1 (.fn b t a true) with
    | none => simp [h2] at h
    | some s2 =>
      simp only [h2] at h
      refine unused_while_live h ?_ hm
      simp only [step] at h2
      split at h2
      · cases h2
      · simp only [Option.some.injEq] at h2
        subst h2
        simp

example : ∃ s, steps St.init [.code [1, 10, 2], .fn [5, 10] [6] 3 true, .code [7], .fn [] [8] 4 false] = some s ∧
    encodeCode s 0 = some [1, 10, 2] ∧ encodeCode s 1 = some [7] ∧ encodeFn s 0 = some [6] ∧ encodeFn s 1 = some [8] :=
  ⟨_, rfl, rfl, rfl, rfl, rfl⟩

example : WholeLines [5, 10] := ⟨by decide, .inr ⟨[5], rfl⟩⟩

/-- When the encoded function of a decoded function is gone, another may get its address, and the first function then has
the source of the second. -/
theorem C65_reused_fails : ∃ (a : Nat) (t u : Text) (s : St), t ≠ u ∧
    steps St.init [.fn [] t a false, .fn [] u a false] = some s ∧ encodeFn s 0 = some u :=
  ⟨0, [1], [2], _, by decide, rfl, rfl⟩

/-- What comes before a function is not encoded with it. -/
theorem C65_before_fails : ∃ (b t : Text) (s : St), WholeLines b ∧ steps St.init [.fn b t 0 true] = some s ∧
    encodeFn s 0 ≠ some (b ++ t) :=
  ⟨[5, 10], [6], _, ⟨by decide, .inr ⟨[5], rfl⟩⟩, rfl, by decide⟩

/-- A form feed or another separator in the text before makes the encoding start too early. -/
theorem C65_separator_fails : ∃ (b t : Text) (s : St), (∃ u, b = u ++ [newline]) ∧ steps St.init [.fn b t 0 true] = some s ∧
    encodeFn s 0 ≠ some t :=
  ⟨[5, 12, 7, 10], [6], _, ⟨[5, 12, 7], rfl⟩, rfl, by decide⟩

end Verif.Sources
