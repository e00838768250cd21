import Verif.Objects.Str

/-!
# C108: pretty printing of terms

Model of `pretty_term` (`ops/types.py` 681-695), the printer of terms for the library prettyprinter. The library prints
containers and other values, lays out the text, and visits the arguments of a call in order with the context that it is
given; how it writes calls, containers and other values is left open (`Layout`). Limits on the depth and the length of
what is printed are left out.
-/

namespace Verif.Objects.Pretty

open Verif.Terms

/-! ## Model -/

/-- How values are written: `str(op)`; a call, from its name, the keywords and the texts of the arguments; a container, from
the texts of its elements; an operation that is a value; and other values. -/
structure Layout where
  names : Op → List Nat
  call : List Nat → List Slot → List (List Nat) → List Nat
  box : Tag → List (List Nat) → List Nat
  op : Op → List Nat
  atom : Atom → List Nat

/-- The name of the operation of a term (`ops/types.py` 683-694), with the dict `fresh_by_name` of the context. -/
def opName (L : Layout) (o : Op) (byName : Fresh) : List Nat × Fresh :=
  let name := L.names o
  let fresh := (byName.lookup name).getD []
  let byName := byName.set name fresh
  let ctr := (fresh.lookup o).getD fresh.length
  let fresh := if (fresh.lookup o).isSome then fresh else fresh ++ [(o, ctr)]
  (name ++ (if ctr > 0 then txt "!" ++ dec ctr else []), byName.set name fresh)

mutual
/-- Printing with a context that has `fresh_by_name`: inside of a term. The name is found before the arguments are printed
(`ops/types.py` 694-695). -/
def inside (L : Layout) : Expr → Fresh → List Nat × Fresh
  | .node (.term o sl) xs, fr =>
    let r := opName L o fr
    let rs := insides L xs r.2
    (L.call r.1 sl rs.1, rs.2)
  | .node t xs, fr =>
    let rs := insides L xs fr
    (L.box t rs.1, rs.2)
  | .op o, fr => (L.op o, fr)
  | .atom a, fr => (L.atom a, fr)
termination_by structural x => x
def insides (L : Layout) : List Expr → Fresh → List (List Nat) × Fresh
  | [], fr => ([], fr)
  | x :: xs, fr =>
    let r := inside L x fr
    let rs := insides L xs r.2
    (r.1 :: rs.1, rs.2)
termination_by structural x => x
end

mutual
/-- Printing: a term outside of terms has no `fresh_by_name` in its context, and makes one (`ops/types.py`
685-686). -/
def pretty (L : Layout) : Expr → List Nat
  | .node (.term o sl) xs => (inside L (.node (.term o sl) xs) []).1
  | .node t xs => L.box t (pretties L xs)
  | .op o => L.op o
  | .atom a => L.atom a
termination_by structural x => x
def pretties (L : Layout) : List Expr → List (List Nat)
  | [] => []
  | x :: xs => pretty L x :: pretties L xs
termination_by structural x => x
end

/-! ## What is stated -/

mutual
/-- The operations that are called in an expression, from left to right. -/
def calls : Expr → List Op
  | .node (.term o _) xs => o :: callsL xs
  | .node _ xs => callsL xs
  | _ => []
termination_by structural x => x
def callsL : List Expr → List Op
  | [] => []
  | x :: xs => calls x ++ callsL xs
termination_by structural x => x
end

mutual
/-- The text of an expression where operations that are called have the given names. -/
def write (L : Layout) (N : Op → List Nat) : Expr → List Nat
  | .node (.term o sl) xs => L.call (N o) sl (writes L N xs)
  | .node t xs => L.box t (writes L N xs)
  | .op o => L.op o
  | .atom a => L.atom a
termination_by structural x => x
def writes (L : Layout) (N : Op → List Nat) : List Expr → List (List Nat)
  | [] => []
  | x :: xs => write L N x :: writes L N xs
termination_by structural x => x
end

/-- A list without repetitions: each element at its first place. -/
def firsts (l : List Op) : List Op := l.foldl (fun acc o => if o ∈ acc then acc else acc ++ [o]) []

/-- The number of other operations with the same name that are called before the operation is called first. -/
def before (names : Op → List Nat) (os : List Op) (o : Op) : Nat :=
  (firsts (os.filter fun p => names p = names o)).idxOf o

/-- The name of an operation among operations that are called. -/
def nameIn (names : Op → List Nat) (os : List Op) (o : Op) : List Nat :=
  if before names os o = 0 then names o else names o ++ txt "!" ++ dec (before names os o)

/-! ## The table -/

theorem firsts_append (l : List Op) (o : Op) :
    firsts (l ++ [o]) = if o ∈ firsts l then firsts l else firsts l ++ [o] := by
  rw [firsts, List.foldl_append]
  rfl

theorem mem_firsts (l : List Op) (o : Op) : o ∈ firsts l ↔ o ∈ l := by
  induction l using List.reverseRecOn with
  | nil => simp [firsts]
  | append_singleton l a ih =>
    rw [firsts_append]
    split
    · rename_i h
      rw [ih, List.mem_append, List.mem_singleton]
      refine ⟨Or.inl, fun hh => hh.elim id fun e => ?_⟩
      subst e
      exact ih.1 h
    · simp [ih]

theorem firsts_nodup (l : List Op) : (firsts l).Nodup := by
  induction l using List.reverseRecOn with
  | nil => simp [firsts]
  | append_singleton l a ih =>
    rw [firsts_append]
    split
    · exact ih
    · rename_i h
      rw [List.nodup_append]
      exact ⟨ih, by simp, by simp; intro b hb e; subst e; exact h hb⟩

theorem firsts_prefix (l m : List Op) : ∃ r, firsts (l ++ m) = firsts l ++ r := by
  induction m using List.reverseRecOn with
  | nil => exact ⟨[], by simp⟩
  | append_singleton m a ih =>
    obtain ⟨r, hr⟩ := ih
    rw [← List.append_assoc, firsts_append]
    split
    · exact ⟨r, hr⟩
    · exact ⟨r ++ [a], by rw [hr]; simp⟩

theorem before_stable (names : Op → List Nat) (os ps : List Op) (o : Op) (h : o ∈ os) :
    before names (os ++ ps) o = before names os o := by
  unfold before
  rw [List.filter_append]
  obtain ⟨r, hr⟩ := firsts_prefix (os.filter fun p => names p = names o) (ps.filter fun p => names p = names o)
  rw [hr, List.idxOf_append, if_pos]
  rw [mem_firsts]
  simp [h]

theorem nameIn_stable (names : Op → List Nat) (os ps : List Op) (o : Op) (h : o ∈ os) :
    nameIn names (os ++ ps) o = nameIn names os o := by
  unfold nameIn
  rw [before_stable names os ps o h]

/-- The table holds the operations called so far, by name, numbered in order. -/
def Rep (L : Layout) (fr : Fresh) (os : List Op) : Prop :=
  ∀ name, (fr.lookup name).getD [] = (firsts (os.filter fun p => L.names p = name)).zipIdx

theorem lookup_zipIdx (o : Op) : ∀ (l : List Op) (k : Nat),
    (l.zipIdx k).lookup o = if o ∈ l then some (k + l.idxOf o) else none
  | [], k => rfl
  | a :: l, k => by
    rw [List.zipIdx_cons, List.lookup]
    by_cases h : o = a
    · subst h; simp
    · have h' : (o == a) = false := by simpa using h
      have h'' : (a == o) = false := by simpa using fun e => h e.symm
      simp only [h', lookup_zipIdx o l (k + 1), List.mem_cons, h, false_or, List.idxOf_cons, h'', cond_false]
      split
      · congr 1; omega
      · rfl

theorem opName_spec (L : Layout) (o : Op) (fr : Fresh) (os : List Op) (h : Rep L fr os) :
    (opName L o fr).1 = nameIn L.names (os ++ [o]) o ∧ Rep L (opName L o fr).2 (os ++ [o]) := by
  have hl : (((fr.lookup (L.names o)).getD []).lookup o) =
      if o ∈ firsts (os.filter fun p => L.names p = L.names o) then
        some ((firsts (os.filter fun p => L.names p = L.names o)).idxOf o) else none := by
    rw [h, lookup_zipIdx]; simp
  have hfa : (os ++ [o]).filter (fun p => L.names p = L.names o) = (os.filter fun p => L.names p = L.names o) ++ [o] := by
    simp
  have hlen : ((fr.lookup (L.names o)).getD []).length = (firsts (os.filter fun p => L.names p = L.names o)).length := by
    rw [h]; simp
  have hb : before L.names (os ++ [o]) o = ((((fr.lookup (L.names o)).getD []).lookup o)).getD
      ((fr.lookup (L.names o)).getD []).length := by
    unfold before
    rw [hl, hfa, firsts_append, hlen]
    split
    · rfl
    · rename_i hn
      rw [List.idxOf_append, if_neg hn]
      simp
  constructor
  · simp only [opName, nameIn, hb]
    split
    · rename_i hpos
      rw [if_neg (by omega)]; simp
    · rename_i hpos
      rw [if_pos (by omega)]; simp
  · intro name
    simp only [opName]
    rw [lookup_set, lookup_set]
    by_cases hn : name = L.names o
    · rw [if_pos hn, hn, hfa, firsts_append]
      by_cases hm : o ∈ firsts (os.filter fun p => L.names p = L.names o)
      · rw [if_pos hm] at hl
        simp only [hl, if_pos hm, Option.isSome_some, if_true, Option.getD_some]
        exact h _
      · rw [if_neg hm] at hl
        simp only [hl, if_neg hm, Option.isSome_none, Bool.false_eq_true, if_false, Option.getD_some, Option.getD_none]
        rw [h, List.zipIdx_append]
        simp
    · rw [if_neg hn, if_neg hn, h]
      congr 2
      rw [List.filter_append]
      have : ¬ L.names o = name := fun e => hn e.symm
      simp [this]

mutual
theorem inside_spec (L : Layout) : ∀ (e : Expr) (fr : Fresh) (os : List Op), Rep L fr os →
    Rep L (inside L e fr).2 (os ++ calls e) ∧
      ∀ ps, (inside L e fr).1 = write L (nameIn L.names (os ++ calls e ++ ps)) e
  | .node (.term o sl) xs, fr, os, h => by
    obtain ⟨h1, h2⟩ := opName_spec L o fr os h
    obtain ⟨h3, h4⟩ := insides_spec L xs _ _ h2
    simp only [inside, calls, write]
    rw [List.append_assoc, List.singleton_append] at h3 h4
    refine ⟨h3, fun ps => ?_⟩
    rw [h4 ps, h1]
    congr 1
    have e : os ++ o :: callsL xs ++ ps = (os ++ [o]) ++ (callsL xs ++ ps) := by simp
    rw [e, nameIn_stable L.names (os ++ [o]) _ o (by simp)]
  | .node (.seq k) xs, fr, os, h => by
    obtain ⟨h3, h4⟩ := insides_spec L xs fr os h
    simp only [inside, calls, write]
    exact ⟨h3, fun ps => by rw [h4 ps]⟩
  | .node (.map k) xs, fr, os, h => by
    obtain ⟨h3, h4⟩ := insides_spec L xs fr os h
    simp only [inside, calls, write]
    exact ⟨h3, fun ps => by rw [h4 ps]⟩
  | .node .set xs, fr, os, h => by
    obtain ⟨h3, h4⟩ := insides_spec L xs fr os h
    simp only [inside, calls, write]
    exact ⟨h3, fun ps => by rw [h4 ps]⟩
  | .node (.named c fs) xs, fr, os, h => by
    obtain ⟨h3, h4⟩ := insides_spec L xs fr os h
    simp only [inside, calls, write]
    exact ⟨h3, fun ps => by rw [h4 ps]⟩
  | .node (.data c fs) xs, fr, os, h => by
    obtain ⟨h3, h4⟩ := insides_spec L xs fr os h
    simp only [inside, calls, write]
    exact ⟨h3, fun ps => by rw [h4 ps]⟩
  | .op o, fr, os, h => by
    simp only [inside, calls, write, List.append_nil]
    exact ⟨h, fun _ => trivial⟩
  | .atom a, fr, os, h => by
    simp only [inside, calls, write, List.append_nil]
    exact ⟨h, fun _ => trivial⟩
termination_by structural x => x
theorem insides_spec (L : Layout) : ∀ (xs : List Expr) (fr : Fresh) (os : List Op), Rep L fr os →
    Rep L (insides L xs fr).2 (os ++ callsL xs) ∧
      ∀ ps, (insides L xs fr).1 = writes L (nameIn L.names (os ++ callsL xs ++ ps)) xs
  | [], fr, os, h => by
    simp only [insides, callsL, writes, List.append_nil]
    exact ⟨h, fun _ => trivial⟩
  | x :: xs, fr, os, h => by
    obtain ⟨h1, h2⟩ := inside_spec L x fr os h
    obtain ⟨h3, h4⟩ := insides_spec L xs _ _ h1
    simp only [insides, callsL, writes]
    refine ⟨by rw [← List.append_assoc]; exact h3, fun ps => ?_⟩
    rw [h4 ps, h2 (callsL xs ++ ps)]
    simp
termination_by structural x => x
end

theorem rep_nil (L : Layout) : Rep L [] [] := fun _ => rfl

/-! ## C108 -/

/-- **C108.** In the text of a term each operation that is called has its name and, if other operations of this name are
called first, an exclamation mark and their number; operations that are values are written as they are. -/
theorem C108_names (L : Layout) (o : Op) (sl : List Slot) (xs : List Expr) :
    pretty L (.node (.term o sl) xs) =
      write L (nameIn L.names (calls (.node (.term o sl) xs))) (.node (.term o sl) xs) := by
  have := (inside_spec L (.node (.term o sl) xs) [] [] (rep_nil L)).2 []
  simp only [List.nil_append, List.append_nil] at this
  rw [pretty, this]

/-- **C108.** Operations that are called in a term have different names in its text, if they have the same name or no name
has an exclamation mark. -/
theorem C108_distinct (names : Op → List Nat) (os : List Op) (a b : Op) (ha : a ∈ os) (hb : b ∈ os)
    (h : names a = names b ∨ (33 ∉ names a ∧ 33 ∉ names b)) (e : nameIn names os a = nameIn names os b) : a = b := by
  have key : names a = names b ∧ before names os a = before names os b := by
    have hnum : ∀ o, nameIn names os o = numbered (names o) (before names os o) := fun o => rfl
    rw [hnum, hnum] at e
    rcases h with h | h
    · refine ⟨h, ?_⟩
      unfold numbered at e
      rw [h] at e
      have hx : txt "!" = [33] := by decide
      rw [hx] at e
      by_cases h1 : before names os a = 0 <;> by_cases h2 : before names os b = 0
      · omega
      · simp [h1, h2] at e
      · simp [h1, h2] at e
      · simp only [h1, h2, if_false, List.append_assoc, List.append_cancel_left_eq] at e
        exact dec_inj _ _ (by simpa using e)
    · exact numbered_inj h.1 h.2 e
  obtain ⟨h1, h2⟩ := key
  unfold before at h2
  rw [h1] at h2
  have ma : a ∈ firsts (os.filter fun p => names p = names b) := by rw [mem_firsts]; simp [ha, h1]
  have mb : b ∈ firsts (os.filter fun p => names p = names b) := by rw [mem_firsts]; simp [hb]
  have la := List.idxOf_lt_length_of_mem ma
  have lb := List.idxOf_lt_length_of_mem mb
  generalize firsts (os.filter fun p => names p = names b) = l at *
  have ga := List.getElem_idxOf la
  have gb := List.getElem_idxOf lb
  rw [← ga, ← gb]
  congr 1

/-- A layout as in Python, on one line. -/
def exLayout : Layout where
  names := exPrinter.names
  call f _ ts := f ++ txt "(" ++ join ts ++ txt ")"
  box _ ts := txt "[" ++ join ts ++ txt "]"
  op o := exPrinter.names o
  atom _ := txt "1"

/-- `f(x(), x'())` is printed as `f(x(), x!1())`. -/
example : pretty exLayout (.node (.term ⟨3, 0⟩ [.pos, .pos]) [v 0, v 1]) = txt "f(x(), x!1())" := by decide +kernel

example : nameIn exPrinter.names [⟨3, 0⟩, ⟨0, 0⟩, ⟨1, 0⟩] ⟨1, 0⟩ = txt "x!1" := by decide +kernel

/-- An operation that is the only one of its name has its plain name. -/
theorem C108_unique (names : Op → List Nat) (os : List Op) (o : Op) (ho : o ∈ os)
    (h : ∀ p ∈ os, names p = names o → p = o) : nameIn names os o = names o := by
  have hall : ∀ p ∈ firsts (os.filter fun p => names p = names o), p = o := fun p hp => by
    rw [mem_firsts, List.mem_filter] at hp
    exact h p hp.1 (by simpa using hp.2)
  have hm : o ∈ firsts (os.filter fun p => names p = names o) := by rw [mem_firsts]; simp [ho]
  have h0 : before names os o = 0 := by
    unfold before
    generalize firsts (os.filter fun p => names p = names o) = l at *
    cases l with
    | nil => cases hm
    | cons a l => rw [hall a (by simp)]; simp
  simp [nameIn, h0]

example : ∀ p ∈ [(⟨3, 0⟩ : Op), ⟨0, 0⟩, ⟨1, 0⟩], exPrinter.names p = exPrinter.names ⟨3, 0⟩ → p = ⟨3, 0⟩ := by
  decide +kernel

/-- The numbers are not those of `str`, which numbers the operations of the arguments first: `x(x'())` is `x(x!1())` here and
`x!1(x())` there. -/
theorem C108_str_fails :
    let t : Expr := .node (.term ⟨0, 0⟩ [.pos]) [v 1]
    pretty exLayout t = txt "x(x!1())" ∧ strOf exPrinter t = .ok (.atom (.str (txt "x!1(x())"))) := by
  refine ⟨by decide +kernel, by decide +kernel⟩

/-- C108 fails with an exclamation mark in a name: with operations named `x`, `x` and `x!1`, `f(x(), x'(), x'())` and
`f(x(), x'(), z())` are printed alike. -/
theorem C108_mark_fails :
    ∃ (L : Layout) (o : Op) (sl : List Slot) (xs ys : List Expr),
      (∀ c sl ts c' sl' ts', L.call c sl ts = L.call c' sl' ts' → ts.length = 0 → ts'.length = 0 → c = c') ∧
      Expr.node (.term o sl) xs ≠ .node (.term o sl) ys ∧
      pretty L (.node (.term o sl) xs) = pretty L (.node (.term o sl) ys) := by
  refine ⟨exLayout, ⟨3, 0⟩, [.pos, .pos, .pos], [v 0, v 1, v 1], [v 0, v 1, v 2], ?_, by decide, by decide +kernel⟩
  intro c sl ts c' sl' ts' h h1 h2
  obtain rfl := List.eq_nil_of_length_eq_zero h1
  obtain rfl := List.eq_nil_of_length_eq_zero h2
  simpa [exLayout, join] using h

/-- C108 fails for operations that are values, such as bound variables: the text of an operation shows its name and
signature but no number, so that for two variables with the same text `lam(x, lam(x', x()))` and `lam(x', lam(x, x()))`,
where the call is of another binder, are printed alike, whatever the layout. -/
theorem C108_value_fails (L : Layout) (lam x x' : Op) (h : L.op x = L.op x') :
    let t := fun a b : Op => Expr.node (.term lam [.pos, .pos])
      [.op a, .node (.term lam [.pos, .pos]) [.op b, .node (.term x []) []]]
    pretty L (t x x') = pretty L (t x' x) ∧ (x ≠ x' → t x x' ≠ t x' x) := by
  refine ⟨by simp [pretty, inside, insides, h], fun hne e => ?_⟩
  simp only [Expr.node.injEq, List.cons.injEq, Expr.op.injEq] at e
  exact hne e.2.1

/-- C108 fails outside of terms: each term of a list has numbers of its own, so that a list of two different variables with
the same name is printed like a list of one variable twice. -/
theorem C108_list_fails (L : Layout) (x x' : Op) (h : L.names x = L.names x') :
    let t := fun a b : Op => Expr.node (.seq .list) [.node (.term a []) [], .node (.term b []) []]
    pretty L (t x x') = pretty L (t x x) ∧ (x ≠ x' → t x x' ≠ t x x) := by
  refine ⟨by simp [pretty, pretties, inside, insides, opName, h], fun hne e => ?_⟩
  simp only [Expr.node.injEq, List.cons.injEq, Tag.term.injEq] at e
  exact hne e.2.2.1.1.1.symm

example : exLayout.op ⟨0, 0⟩ = exLayout.op ⟨1, 0⟩ ∧ exLayout.names ⟨0, 0⟩ = exLayout.names ⟨1, 0⟩ ∧
    (⟨0, 0⟩ : Op) ≠ ⟨1, 0⟩ := by decide +kernel

end Verif.Objects.Pretty
