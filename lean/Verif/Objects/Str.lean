import Verif.Terms.Beta

/-!
# Printing of terms

Model of `Term.__str__` (`ops/types.py` 622-673). Text is a list of code points.
-/

namespace Verif.Objects

open Verif.Terms
open Verif.Scoped (Err)

/-- The last digits of a number, at most as many as the first argument. -/
def digits : Nat → Nat → List Nat
  | 0, _ => []
  | f + 1, n => if n < 10 then [48 + n] else digits f (n / 10) ++ [48 + n % 10]

/-- Decimal digits of a number (`f"{n}"`). -/
def dec (n : Nat) : List Nat := digits (n + 1) n

/-- The text of a string literal. -/
def txt (s : String) : List Nat := s.toList.map Char.toNat

/-- `", ".join(ss)`. -/
def join : List (List Nat) → List Nat
  | [] => []
  | [s] => s
  | s :: ss => s ++ txt ", " ++ join ss

/-- `fresh: dict[str, dict[Operation, int]]` (`ops/types.py` 626). -/
abbrev Fresh := List (List Nat × List (Op × Nat))

/-- `fresh[name] = m`. -/
def Fresh.set (name : List Nat) (m : List (Op × Nat)) : Fresh → Fresh
  | [] => [(name, m)]
  | (k, m') :: fr => if k = name then (k, m) :: fr else (k, m') :: Fresh.set name m fr

/-- What printing depends on: `op.__name__` for each operation, and `str(value)` for values that are
no strings and that `term_str` does not enter. -/
structure Printer where
  names : Op → List Nat
  other : Expr → List Nat

/-- `name` or `f"{name}!{n}"` (`ops/types.py` 637-639). -/
def numbered (name : List Nat) (n : Nat) : List Nat :=
  if n = 0 then name else name ++ txt "!" ++ dec n

/-- `op_str(op)` (`ops/types.py` 628-639). -/
def opStr (P : Printer) (o : Op) (fr : Fresh) : List Nat × Fresh :=
  let name := P.names o
  let fr1 := if fr.lookup name = none then Fresh.set name [(o, 0)] fr else fr
  let m1 := (fr1.lookup name).getD []
  let fr2 := if m1.lookup o = none then Fresh.set name (m1 ++ [(o, m1.length)]) fr1 else fr1
  let n := (((fr2.lookup name).getD []).lookup o).getD 0
  (numbered name n, fr2)

/-- `k:v` for the pairs of a dict (`ops/types.py` 648-655). -/
def pairTexts : List (List Nat) → List (List Nat)
  | k :: v :: rest => (k ++ txt ":" ++ v) :: pairTexts rest
  | _ => []

mutual

/-- `term_str(term)` (`ops/types.py` 641-656). Named tuples are tuples. -/
def termStr (P : Printer) : Expr → Fresh → List Nat × Fresh
  | .op o, fr => opStr P o fr
  | .node (.seq .list) xs, fr =>
    let r := termStrs P xs fr
    (txt "[" ++ join r.1 ++ txt "]", r.2)
  | .node (.seq .tuple) xs, fr =>
    let r := termStrs P xs fr
    (txt "(" ++ join r.1 ++ txt ")", r.2)
  | .node (.named _ _) xs, fr =>
    let r := termStrs P xs fr
    (txt "(" ++ join r.1 ++ txt ")", r.2)
  | .node (.map .dict) xs, fr =>
    let r := termStrs P xs fr
    (txt "{" ++ join (pairTexts r.1) ++ txt "}", r.2)
  | .atom (.str s), fr => (s, fr)
  | e, fr => (P.other e, fr)
termination_by structural x => x

/-- `map(term_str, terms)`. -/
def termStrs (P : Printer) : List Expr → Fresh → List (List Nat) × Fresh
  | [], fr => ([], fr)
  | x :: xs, fr =>
    let r := termStr P x fr
    let rs := termStrs P xs r.2
    (r.1 :: rs.1, rs.2)
termination_by structural x => x

end

/-- `_apply(op, *args, **kwargs)` (`ops/types.py` 658-670). -/
def applyStr (P : Printer) (o : Op) (sl : List Slot) (ys : List Expr) (fr : Fresh) :
    List Nat × Fresh :=
  let args := posArgs sl ys
  let kwargs := kwArgs sl ys
  let r1 := termStrs P args fr
  let r2 := termStrs P (kwargs.map Prod.snd) r1.2
  let kw := List.zipWith (fun k v => txt k ++ txt "=" ++ v) (kwargs.map Prod.fst) r2.1
  let r3 := opStr P o r2.2
  let ret := r3.1 ++ txt "(" ++ join r1.1
  let ret := if kwargs = [] then ret else ret ++ (if args = [] then [] else txt ", ")
  (ret ++ join kw ++ txt ")", r3.2)

/-- Evaluation under `interpreter({apply: _apply})`: each call returns a string. -/
def strCtx (P : Printer) : Ctx Fresh where
  callOp o sl ys fr := let r := applyStr P o sl ys fr; (.ok (.atom (.str r.1)), r.2)
  opVal := id

/-- `str(t)` for a term (`ops/types.py` 622-673). -/
def strOf (P : Printer) (t : Expr) : Except Err Expr := (evaluate (strCtx P) t []).1

/-! ## Specification -/

/-- `key:value` for the texts of the keys and values of a dict, which are at the even and the odd positions. -/
def dictTexts (l : List (List Nat)) : List (List Nat) :=
  (List.range (l.length / 2)).map fun i => l.getD (2 * i) [] ++ txt ":" ++ l.getD (2 * i + 1) []

mutual

/-- The text of an expression in which each operation has the name given by `N`. -/
def render (N : Op → List Nat) (other : Expr → List Nat) : Expr → List Nat
  | .op o => N o
  | .atom (.str s) => s
  | .atom a => other (.atom a)
  | .node (.term o sl) xs => N o ++ txt "(" ++ join (renderArgs N other sl xs) ++ txt ")"
  | .node (.seq .list) xs => txt "[" ++ join (renders N other xs) ++ txt "]"
  | .node (.seq .tuple) xs => txt "(" ++ join (renders N other xs) ++ txt ")"
  | .node (.named _ _) xs => txt "(" ++ join (renders N other xs) ++ txt ")"
  | .node (.map .dict) xs => txt "{" ++ join (dictTexts (renders N other xs)) ++ txt "}"
  | .node t xs => other (.node t xs)
termination_by structural x => x

def renders (N : Op → List Nat) (other : Expr → List Nat) : List Expr → List (List Nat)
  | [] => []
  | x :: xs => render N other x :: renders N other xs
termination_by structural x => x

/-- Arguments, each with its keyword if it has one. -/
def renderArgs (N : Op → List Nat) (other : Expr → List Nat) (sl : List Slot) :
    List Expr → List (List Nat)
  | [] => []
  | x :: xs =>
    match sl with
    | .kw k :: sl => (txt k ++ txt "=" ++ render N other x) :: renderArgs N other sl xs
    | .pos :: sl => render N other x :: renderArgs N other sl xs
    | [] => []
termination_by structural x => x

end

/-- Positional arguments come first. -/
def PosFirst (sl : List Slot) : Prop :=
  ∃ (n : Nat) (ks : List String), sl = List.replicate n .pos ++ ks.map .kw

/-- An operation or a value that is neither term nor container. -/
def Leaf : Expr → Prop
  | .node _ _ => False
  | _ => True

/-- The expressions whose text is determined by the names of the operations: terms, lists, tuples and
dicts; keys of dicts are different and contain no terms. -/
inductive Printable : Expr → Prop where
  | atom (a : Atom) : Printable (.atom a)
  | op (o : Op) : Printable (.op o)
  | term {o : Op} {sl : List Slot} {xs : List Expr} : PosFirst sl → sl.length = xs.length →
      (∀ x ∈ xs, Printable x) → Printable (.node (.term o sl) xs)
  | list {xs : List Expr} : (∀ x ∈ xs, Printable x) → Printable (.node (.seq .list) xs)
  | tuple {xs : List Expr} : (∀ x ∈ xs, Printable x) → Printable (.node (.seq .tuple) xs)
  | named {c : Nat} {fs : List String} {xs : List Expr} : (∀ x ∈ xs, Printable x) →
      Printable (.node (.named c fs) xs)
  | dict {xs : List Expr} : Pairs xs → (keys xs).Nodup → (∀ k ∈ keys xs, Leaf k) →
      (∀ x ∈ xs, Printable x) → Printable (.node (.map .dict) xs)

theorem pairTexts_eq : ∀ l : List (List Nat), pairTexts l = dictTexts l
  | [] => rfl
  | [_] => by simp [pairTexts, dictTexts]
  | k :: v :: rest => by
    have e : (k :: v :: rest).length / 2 = rest.length / 2 + 1 := by simp only [List.length_cons]; omega
    rw [pairTexts, pairTexts_eq rest, dictTexts, dictTexts, e, List.range_succ_eq_map]
    simp only [List.map_cons, List.map_map]
    congr 1

/-! ## The table of names -/

theorem digits_fuel : ∀ (f g n : Nat), n < f → n < g → digits f n = digits g n := by
  intro f
  induction f with
  | zero => intro g n h; omega
  | succ f ih =>
    intro g n h hg
    cases g with
    | zero => omega
    | succ g =>
      simp only [digits]
      split
      · rfl
      · rw [ih g (n / 10) (by omega) (by omega)]

theorem dec_eq (n : Nat) :
    dec n = if n < 10 then [48 + n] else dec (n / 10) ++ [48 + n % 10] := by
  rw [dec, digits]
  split
  · rfl
  · rw [dec, digits_fuel n (n / 10 + 1) (n / 10) (by omega) (by omega)]

theorem dec_ne_nil (n : Nat) : dec n ≠ [] := by
  rw [dec_eq]; split <;> simp

theorem dec_inj : ∀ m n : Nat, dec m = dec n → m = n := by
  intro m
  induction m using Nat.strongRecOn with
  | _ m ih =>
    intro n h
    rw [dec_eq, dec_eq n] at h
    by_cases hm : m < 10 <;> by_cases hn : n < 10
    · simp [hm, hn] at h; omega
    · simp only [hm, hn, if_true, if_false] at h
      have := congrArg List.length h
      have h2 := List.length_pos_iff.2 (dec_ne_nil (n / 10))
      simp only [List.length_append, List.length_singleton] at this; omega
    · simp only [hm, hn, if_true, if_false] at h
      have := congrArg List.length h
      have h2 := List.length_pos_iff.2 (dec_ne_nil (m / 10))
      simp only [List.length_append, List.length_singleton] at this; omega
    · simp only [hm, hn, if_false] at h
      have h1 := List.append_inj_left' h rfl
      have h2 := List.append_inj_right' h rfl
      have := ih (m / 10) (by omega) (n / 10) h1
      simp at h2
      omega

theorem dec_digit : ∀ (n : Nat), ∀ c ∈ dec n, 48 ≤ c := by
  intro n
  induction n using Nat.strongRecOn with
  | _ n ih =>
    intro c hc
    rw [dec_eq] at hc
    split at hc
    · simp at hc; omega
    · simp only [List.mem_append, List.mem_singleton] at hc
      rcases hc with hc | hc
      · exact ih (n / 10) (by omega) c hc
      · omega

/-- Different numbers give different texts, and texts with different base names are different if the
base names have no exclamation mark. -/
theorem numbered_inj {a b : List Nat} {m n : Nat} (ha : 33 ∉ a) (hb : 33 ∉ b)
    (h : numbered a m = numbered b n) : a = b ∧ m = n := by
  have hs : txt "!" = [33] := by decide
  have hd : ∀ k, 33 ∉ dec k := fun k hk => by have := dec_digit k _ hk; omega
  unfold numbered at h
  rw [hs] at h
  by_cases hm : m = 0 <;> by_cases hn : n = 0
  · simp [hm, hn] at h; exact ⟨h, by omega⟩
  · simp only [hm, hn, if_true, if_false] at h
    exact absurd (h ▸ (by simp : 33 ∈ b ++ [33] ++ dec n)) ha
  · simp only [hm, hn, if_true, if_false] at h
    exact absurd (h.symm ▸ (by simp : 33 ∈ a ++ [33] ++ dec m)) hb
  · simp only [hm, hn, if_false, List.append_assoc] at h
    have key : ∀ (a b x y : List Nat), 33 ∉ a → 33 ∉ b → a ++ 33 :: x = b ++ 33 :: y →
        a = b ∧ x = y := by
      intro a
      induction a with
      | nil =>
        intro b x y _ hb e
        cases b with
        | nil => simpa using e
        | cons c b => simp at e; simp [e.1] at hb
      | cons c a ih =>
        intro b x y ha hb e
        cases b with
        | nil => simp at e; simp [e.1] at ha
        | cons d b =>
          simp only [List.cons_append, List.cons.injEq] at e
          simp only [List.mem_cons, not_or] at ha hb
          obtain ⟨h1, h2⟩ := ih b x y ha.2 hb.2 e.2
          exact ⟨by rw [e.1, h1], h2⟩
    obtain ⟨h1, h2⟩ := key a b _ _ ha hb (by simpa using h)
    exact ⟨h1, dec_inj _ _ h2⟩

/-- The number of an operation in the table. -/
def number (P : Printer) (fr : Fresh) (o : Op) : Option Nat :=
  ((fr.lookup (P.names o)).getD []).lookup o

/-- Numbers of the operations of one name. -/
structure Ok (P : Printer) (fr : Fresh) : Prop where
  lt : ∀ o n, number P fr o = some n → n < ((fr.lookup (P.names o)).getD []).length
  inj : ∀ o o' n, P.names o = P.names o' → number P fr o = some n → number P fr o' = some n → o = o'
  name : ∀ name m, fr.lookup name = some m → ∀ e ∈ m, P.names e.1 = name
  zero : ∀ o n, number P fr o = some n → ∃ o', P.names o' = P.names o ∧ number P fr o' = some 0

/-- Later tables keep the numbers. -/
def Ext (P : Printer) (fr fr' : Fresh) : Prop :=
  ∀ o n, number P fr o = some n → number P fr' o = some n

theorem Ext.refl (P : Printer) (fr : Fresh) : Ext P fr fr := fun _ _ h => h

theorem Ext.trans {P : Printer} {a b c : Fresh} (h : Ext P a b) (h' : Ext P b c) : Ext P a c :=
  fun o n e => h' o n (h o n e)

theorem lookup_set (name name' : List Nat) (m : List (Op × Nat)) (fr : Fresh) :
    (Fresh.set name m fr).lookup name' = if name' = name then some m else fr.lookup name' := by
  induction fr with
  | nil =>
    by_cases h : name' = name <;> simp [Fresh.set, h, List.lookup]
    simp [beq_eq_false_iff_ne.2 h]
  | cons e fr ih =>
    obtain ⟨k, m'⟩ := e
    by_cases hk : k = name
    · subst hk
      by_cases h : name' = k
      · simp [Fresh.set, h]
      · simp [Fresh.set, h, List.lookup, beq_eq_false_iff_ne.2 h]
    · simp only [Fresh.set, if_neg hk, List.lookup]
      by_cases h : name' = k
      · subst h; simp [hk]
      · simp only [beq_eq_false_iff_ne.2 h, ih]

/-- The table after printing the name of an operation. -/
theorem opStr_table (P : Printer) (o : Op) (fr : Fresh) :
    (opStr P o fr).2 =
      if number P fr o = none then
        Fresh.set (P.names o) (((fr.lookup (P.names o)).getD []) ++
          [(o, ((fr.lookup (P.names o)).getD []).length)]) fr
      else fr := by
  unfold opStr number
  by_cases h : fr.lookup (P.names o) = none
  · simp [h, lookup_set]
  · simp only [h, if_false]

theorem number_opStr (P : Printer) (o o' : Op) (fr : Fresh) :
    number P (opStr P o fr).2 o' =
      if o' = o then some ((number P fr o).getD ((fr.lookup (P.names o)).getD []).length)
      else number P fr o' := by
  rw [opStr_table]
  by_cases h : number P fr o = none
  · rw [if_pos h]
    by_cases e : o' = o
    · subst e
      simp only [number, lookup_set, if_true, Option.getD_some] at h ⊢
      rw [h]
      simp [List.lookup_append, h]
    · rw [if_neg e]
      unfold number
      rw [lookup_set]
      by_cases en : P.names o' = P.names o
      · rw [if_pos en, en]
        simp [List.lookup_append, List.lookup, beq_eq_false_iff_ne.2 e]
      · rw [if_neg en]
  · rw [if_neg h]
    by_cases e : o' = o
    · subst e
      rw [if_pos rfl]
      obtain ⟨n, hn⟩ := Option.ne_none_iff_exists'.1 h
      simp [hn]
    · rw [if_neg e]

theorem opStr_text (P : Printer) (o : Op) (fr : Fresh) :
    (opStr P o fr).1 = numbered (P.names o) ((number P (opStr P o fr).2 o).getD 0) := rfl

theorem opStr_ext (P : Printer) (o : Op) (fr : Fresh) : Ext P fr (opStr P o fr).2 := by
  intro o' n h
  rw [number_opStr]
  by_cases e : o' = o
  · subst e; simp [h]
  · simp [e, h]

theorem opStr_known (P : Printer) (o : Op) (fr : Fresh) :
    (number P (opStr P o fr).2 o).isSome := by
  rw [number_opStr]; simp

theorem opStr_ok (P : Printer) (o : Op) (fr : Fresh) (h : Ok P fr) : Ok P (opStr P o fr).2 := by
  by_cases hn : number P fr o = none
  · have hl : ∀ name', (opStr P o fr).2.lookup name' = if name' = P.names o then
        some (((fr.lookup (P.names o)).getD []) ++
          [(o, ((fr.lookup (P.names o)).getD []).length)]) else fr.lookup name' := by
      intro name'
      rw [opStr_table, if_pos hn, lookup_set]
    refine ⟨?_, ?_, ?_, ?_⟩
    · intro o' n hn'
      rw [number_opStr] at hn'
      rw [hl]
      by_cases e : o' = o
      · subst e
        simp only [if_true, Option.some.injEq, hn, Option.getD_none] at hn'
        simp [← hn']
      · rw [if_neg e] at hn'
        have := h.lt o' n hn'
        by_cases en : P.names o' = P.names o
        · rw [if_pos en]; rw [en] at this; simp; omega
        · rw [if_neg en]; exact this
    · intro a b n hab ha hb
      rw [number_opStr, hn] at ha hb
      by_cases ea : a = o <;> by_cases eb : b = o
      · rw [ea, eb]
      · simp only [ea, eb, if_true, if_false, Option.getD_none, Option.some.injEq] at ha hb
        have := h.lt b n hb
        rw [← hab, ea] at this; omega
      · simp only [ea, eb, if_true, if_false, Option.getD_none, Option.some.injEq] at ha hb
        have := h.lt a n ha
        rw [hab, eb] at this; omega
      · simp only [ea, eb, if_false] at ha hb
        exact h.inj a b n hab ha hb
    · intro name m hm e he
      rw [hl] at hm
      by_cases en : name = P.names o
      · rw [if_pos en, Option.some.injEq] at hm
        rw [← hm, List.mem_append, List.mem_singleton] at he
        rcases he with he | rfl
        · cases hf : fr.lookup (P.names o) with
          | none => rw [hf] at he; simp at he
          | some m' => rw [hf] at he; rw [en]; exact h.name _ m' hf e he
        · exact en.symm
      · rw [if_neg en] at hm
        exact h.name name m hm e he
    · intro a n ha
      by_cases hz : ∃ o', P.names o' = P.names a ∧ number P fr o' = some 0
      · obtain ⟨o', h1, h2⟩ := hz
        exact ⟨o', h1, opStr_ext P o fr o' 0 h2⟩
      · have hnone : ∀ b, P.names b = P.names a → number P fr b = none := by
          intro b hb
          cases hnb : number P fr b with
          | none => rfl
          | some k =>
            obtain ⟨o', h1, h2⟩ := h.zero b k hnb
            exact absurd ⟨o', h1.trans hb, h2⟩ hz
        have ea : a = o := by
          by_contra hne
          rw [number_opStr, if_neg hne, hnone a rfl] at ha
          cases ha
        subst ea
        refine ⟨a, rfl, ?_⟩
        rw [number_opStr, if_pos rfl, hn, Option.getD_none]
        cases hf : fr.lookup (P.names a) with
        | none => rfl
        | some m =>
          cases m with
          | nil => rfl
          | cons e m =>
            have he := h.name _ _ hf e List.mem_cons_self
            have := hnone e.1 he
            simp [number, he, hf, List.lookup] at this
  · rw [opStr_table, if_neg hn]; exact h

theorem ok_nil (P : Printer) : Ok P [] := by
  refine ⟨?_, ?_, ?_, ?_⟩ <;> simp [number]

/-! ## Printing -/

/-- The names that a table gives to operations. -/
def namesIn (P : Printer) (fr : Fresh) (o : Op) : List Nat :=
  numbered (P.names o) ((number P fr o).getD 0)

/-- A step of printing: the text is the rendering under the table at the end and all later tables,
and the operations in question are in the table. -/
structure Step {α : Type} (P : Printer) (fr : Fresh) (r : α × Fresh)
    (spec : (Op → List Nat) → α) (os : Op → Prop) : Prop where
  ext : Ext P fr r.2
  ok : Ok P fr → Ok P r.2
  text : ∀ fr', Ext P r.2 fr' → r.1 = spec (namesIn P fr')
  known : ∀ o, os o → (number P r.2 o).isSome
  only : ∀ o, (number P r.2 o).isSome → (number P fr o).isSome ∨ os o

theorem known_ext {P : Printer} {fr fr' : Fresh} {o : Op} (h : Ext P fr fr')
    (hk : (number P fr o).isSome) : (number P fr' o).isSome := by
  obtain ⟨n, hn⟩ := Option.isSome_iff_exists.1 hk
  rw [h o n hn]; rfl

theorem namesIn_ext {P : Printer} {fr fr' : Fresh} {o : Op} (h : Ext P fr fr')
    (hk : (number P fr o).isSome) : namesIn P fr' o = namesIn P fr o := by
  obtain ⟨n, hn⟩ := Option.isSome_iff_exists.1 hk
  simp [namesIn, hn, h o n hn]

theorem step_op (P : Printer) (o : Op) (fr : Fresh) :
    Step P fr (opStr P o fr) (fun N => N o) (fun o' => o' = o) where
  ext := opStr_ext P o fr
  ok := opStr_ok P o fr
  text fr' h := by rw [opStr_text]; exact (namesIn_ext h (opStr_known P o fr)).symm
  known o' e := by subst e; exact opStr_known P o' fr
  only o' h := by
    by_cases e : o' = o
    · exact .inr e
    · rw [number_opStr, if_neg e] at h; exact .inl h

/-- Expressions after evaluation: terms have become strings. -/
inductive Plain : Expr → Prop where
  | atom (a : Atom) : Plain (.atom a)
  | op (o : Op) : Plain (.op o)
  | list {xs : List Expr} : (∀ x ∈ xs, Plain x) → Plain (.node (.seq .list) xs)
  | tuple {xs : List Expr} : (∀ x ∈ xs, Plain x) → Plain (.node (.seq .tuple) xs)
  | named {c : Nat} {fs : List String} {xs : List Expr} : (∀ x ∈ xs, Plain x) →
      Plain (.node (.named c fs) xs)
  | dict {xs : List Expr} : (∀ x ∈ xs, Plain x) → Plain (.node (.map .dict) xs)

theorem step_list (P : Printer) (xs : List Expr) (fr : Fresh)
    (ih : ∀ x ∈ xs, ∀ fr, Step P fr (termStr P x fr) (fun N => render N P.other x) (· ∈ x.ops)) :
    Step P fr (termStrs P xs fr) (fun N => renders N P.other xs) (· ∈ Expr.opsL xs) := by
  induction xs generalizing fr with
  | nil => exact ⟨Ext.refl _ _, id, fun _ _ => rfl, by simp [Expr.opsL], fun _ h => .inl h⟩
  | cons x xs ihx =>
    have h1 := ih x List.mem_cons_self fr
    have h2 := ihx (termStr P x fr).2 (fun y hy => ih y (List.mem_cons_of_mem _ hy))
    refine ⟨h1.ext.trans h2.ext, fun h => h2.ok (h1.ok h), ?_, ?_, ?_⟩
    · intro fr' he
      simp only [termStrs, renders]
      rw [h1.text fr' (h2.ext.trans he), h2.text fr' he]
    · intro o ho
      simp only [Expr.opsL, List.mem_append] at ho
      rcases ho with ho | ho
      · exact known_ext h2.ext (h1.known o ho)
      · exact h2.known o ho
    · intro o ho
      simp only [Expr.opsL, List.mem_append]
      rcases h2.only o ho with h | h
      · exact (h1.only o h).imp_right .inl
      · exact .inr (.inr h)

theorem step_plain (P : Printer) (e : Expr) (he : Plain e) : ∀ fr : Fresh,
    Step P fr (termStr P e fr) (fun N => render N P.other e) (· ∈ e.ops) := by
  induction he with
  | atom a =>
    intro fr
    refine ⟨?_, ?_, ?_, ?_, ?_⟩ <;> cases a <;> simp [termStr, render, Ext.refl, Expr.ops]
  | op o =>
    intro fr
    have h := step_op P o fr
    exact ⟨h.ext, h.ok, h.text, fun o' ho => h.known o' (by simpa [Expr.ops] using ho),
      fun o' ho => by simpa [Expr.ops] using h.only o' ho⟩
  | list _ ih =>
    intro fr
    have h := step_list P _ fr ih
    exact ⟨h.ext, h.ok, fun fr' he => by simp only [termStr, render]; rw [h.text fr' he], h.known,
      h.only⟩
  | tuple _ ih =>
    intro fr
    have h := step_list P _ fr ih
    exact ⟨h.ext, h.ok, fun fr' he => by simp only [termStr, render]; rw [h.text fr' he], h.known,
      h.only⟩
  | named _ ih =>
    intro fr
    have h := step_list P _ fr ih
    exact ⟨h.ext, h.ok, fun fr' he => by simp only [termStr, render]; rw [h.text fr' he], h.known,
      h.only⟩
  | dict _ ih =>
    intro fr
    have h := step_list P _ fr ih
    exact ⟨h.ext, h.ok, fun fr' he => by simp only [termStr, render, pairTexts_eq]; rw [h.text fr' he], h.known,
      h.only⟩

/-- `evaluate` replaces the outermost terms by their text. -/
def printed (N : Op → List Nat) (other : Expr → List Nat) : Expr → Expr
  | .node (.term o sl) xs => .atom (.str (render N other (.node (.term o sl) xs)))
  | .node t xs => .node t (xs.map (printed N other))
  | e => e

/-- Operations that are printed when the terms in an expression are printed. -/
def opsIn : Expr → List Op
  | .node (.term o sl) xs => (Expr.node (.term o sl) xs).ops
  | .node _ xs => xs.flatMap opsIn
  | _ => []

theorem renders_eq (N : Op → List Nat) (other : Expr → List Nat) (xs : List Expr) :
    renders N other xs = xs.map (render N other) := by
  induction xs with
  | nil => rfl
  | cons x xs ih => simp [renders, ih]

theorem render_printed (N : Op → List Nat) (other : Expr → List Nat) (e : Expr)
    (he : Printable e) : render N other (printed N other e) = render N other e := by
  induction he with
  | atom a => simp [printed]
  | op o => simp [printed]
  | term _ _ _ _ => simp [printed, render]
  | list _ ih =>
    simp only [printed, render, renders_eq, List.map_map]
    rw [List.map_congr_left (f := render N other ∘ printed N other)
      (g := render N other) (fun x hx => ih x hx)]
  | tuple _ ih =>
    simp only [printed, render, renders_eq, List.map_map]
    rw [List.map_congr_left (f := render N other ∘ printed N other)
      (g := render N other) (fun x hx => ih x hx)]
  | named _ ih =>
    simp only [printed, render, renders_eq, List.map_map]
    rw [List.map_congr_left (f := render N other ∘ printed N other)
      (g := render N other) (fun x hx => ih x hx)]
  | dict _ _ _ _ ih =>
    simp only [printed, render, renders_eq, List.map_map]
    rw [List.map_congr_left (f := render N other ∘ printed N other)
      (g := render N other) (fun x hx => ih x hx)]

theorem plain_printed (N : Op → List Nat) (other : Expr → List Nat) (e : Expr)
    (he : Printable e) : Plain (printed N other e) := by
  induction he with
  | atom a => simp only [printed]; exact .atom a
  | op o => simp only [printed]; exact .op o
  | term _ _ _ _ => simp only [printed]; exact .atom _
  | list _ ih => simp only [printed]; exact .list (by simpa using ih)
  | tuple _ ih => simp only [printed]; exact .tuple (by simpa using ih)
  | named _ ih => simp only [printed]; exact .named (by simpa using ih)
  | dict _ _ _ _ ih => simp only [printed]; exact .dict (by simpa using ih)

theorem ops_printed (N : Op → List Nat) (other : Expr → List Nat) (e : Expr) (he : Printable e)
    (o : Op) (ho : o ∈ e.ops) : o ∈ opsIn e ∨ o ∈ (printed N other e).ops := by
  have go : ∀ (t : Tag) (xs : List Expr), (∀ sl, t ≠ .term o sl) →
      (∀ x ∈ xs, o ∈ x.ops → o ∈ opsIn x ∨ o ∈ (printed N other x).ops) →
      o ∈ (Expr.node t xs).ops →
      o ∈ xs.flatMap opsIn ∨ o ∈ (Expr.node t (xs.map (printed N other))).ops := by
    intro t xs ht ih ho
    rcases Expr.mem_ops_node.1 ho with ⟨sl, e⟩ | ⟨x, hx, hox⟩
    · exact absurd e (ht sl)
    · rcases ih x hx hox with h | h
      · exact .inl (List.mem_flatMap.2 ⟨x, hx, h⟩)
      · exact .inr (Expr.mem_ops_node.2 (.inr ⟨_, List.mem_map_of_mem hx, h⟩))
  induction he with
  | atom a => simp [Expr.ops] at ho
  | op o' => right; simpa [printed] using ho
  | term _ _ _ _ => left; simpa only [opsIn] using ho
  | list _ ih => simp only [opsIn, printed]; exact go _ _ (by simp) ih ho
  | tuple _ ih => simp only [opsIn, printed]; exact go _ _ (by simp) ih ho
  | named _ ih => simp only [opsIn, printed]; exact go _ _ (by simp) ih ho
  | dict _ _ _ _ ih => simp only [opsIn, printed]; exact go _ _ (by simp) ih ho

theorem opsIn_sub (e : Expr) : ∀ o ∈ opsIn e, o ∈ e.ops := by
  induction e using Expr.ind with
  | atom a => simp [opsIn]
  | op o => simp [opsIn]
  | node t xs ih =>
    intro o ho
    have go : o ∈ xs.flatMap opsIn → o ∈ (Expr.node t xs).ops := by
      intro h
      obtain ⟨x, hx, hox⟩ := List.mem_flatMap.1 h
      exact Expr.mem_ops_node.2 (.inr ⟨x, hx, ih x hx o hox⟩)
    cases t with
    | term o' sl => simpa only [opsIn] using ho
    | _ => exact go (by simpa only [opsIn] using ho)

theorem printed_sub (N : Op → List Nat) (other : Expr → List Nat) (e : Expr) :
    ∀ o ∈ (printed N other e).ops, o ∈ e.ops := by
  induction e using Expr.ind with
  | atom a => simp [printed]
  | op o => simp [printed]
  | node t xs ih =>
    intro o ho
    have go : (∀ sl, t ≠ .term o sl) → o ∈ (Expr.node t (xs.map (printed N other))).ops →
        o ∈ (Expr.node t xs).ops := by
      intro ht h
      rcases Expr.mem_ops_node.1 h with ⟨sl, e⟩ | ⟨y, hy, hoy⟩
      · exact absurd e (ht sl)
      · obtain ⟨x, hx, rfl⟩ := List.mem_map.1 hy
        exact Expr.mem_ops_node.2 (.inr ⟨x, hx, ih x hx o hoy⟩)
    cases t with
    | term o' sl => simp [printed, Expr.ops] at ho
    | _ => exact go (by simp) (by simpa only [printed] using ho)

theorem render_congr (N N' : Op → List Nat) (other : Expr → List Nat) (e : Expr)
    (h : ∀ o ∈ e.ops, N o = N' o) : render N other e = render N' other e := by
  induction e using Expr.ind with
  | atom a => cases a <;> simp [render]
  | op o => exact h o (by simp [Expr.ops])
  | node t xs ih =>
    have hx : ∀ x ∈ xs, render N other x = render N' other x := fun x hx =>
      ih x hx (fun o ho => h o (Expr.mem_ops_node.2 (.inr ⟨x, hx, ho⟩)))
    have hr : renders N other xs = renders N' other xs := by
      rw [renders_eq, renders_eq]; exact List.map_congr_left hx
    have ha : ∀ sl, renderArgs N other sl xs = renderArgs N' other sl xs := by
      clear hr h ih
      induction xs with
      | nil => intro sl; rfl
      | cons x xs ih =>
        intro sl
        have h1 := hx x List.mem_cons_self
        have h2 := ih (fun y hy => hx y (List.mem_cons_of_mem _ hy))
        cases sl with
        | nil => simp [renderArgs]
        | cons s sl => cases s <;> simp [renderArgs, h1, h2]
    cases t with
    | term o sl =>
      simp only [render, ha]
      rw [h o (by simp [Expr.ops])]
    | seq k => cases k <;> simp [render, hr]
    | map k => cases k <;> simp [render, hr]
    | set => simp [render]
    | named _ _ => simp [render, hr]
    | data _ _ => simp [render]

theorem step_printed (P : Printer) (xs : List Expr) (fr : Fresh)
    (ih : ∀ x ∈ xs, ∀ fr, ∃ r : Expr × Fresh, evaluate (strCtx P) x fr = (.ok r.1, r.2) ∧
      Step P fr r (fun N => printed N P.other x) (· ∈ opsIn x)) :
    ∃ r : List Expr × Fresh, evaluates (strCtx P) xs fr = (.ok r.1, r.2) ∧
      Step P fr r (fun N => xs.map (printed N P.other)) (· ∈ xs.flatMap opsIn) := by
  induction xs generalizing fr with
  | nil => exact ⟨([], fr), rfl, Ext.refl _ _, id, fun _ _ => rfl, by simp, fun _ h => .inl h⟩
  | cons x xs ihx =>
    obtain ⟨r1, e1, h1⟩ := ih x List.mem_cons_self fr
    obtain ⟨r2, e2, h2⟩ := ihx r1.2 (fun y hy => ih y (List.mem_cons_of_mem _ hy))
    refine ⟨(r1.1 :: r2.1, r2.2), ?_, h1.ext.trans h2.ext, fun h => h2.ok (h1.ok h), ?_, ?_, ?_⟩
    · simp only [evaluates, e1, e2]
    · intro fr' he
      simp only [List.map_cons]
      rw [← h1.text fr' (h2.ext.trans he), ← h2.text fr' he]
    · intro o ho
      simp only [List.flatMap_cons, List.mem_append] at ho
      rcases ho with ho | ho
      · exact known_ext h2.ext (h1.known o ho)
      · exact h2.known o ho
    · intro o ho
      simp only [List.flatMap_cons, List.mem_append]
      rcases h2.only o ho with h | h
      · exact (h1.only o h).imp_right .inl
      · exact .inr (.inr h)

theorem join_append (A B : List (List Nat)) :
    join (A ++ B) = join A ++ (if B = [] then [] else if A = [] then [] else txt ", ") ++ join B := by
  induction A with
  | nil => by_cases h : B = [] <;> simp [h, join]
  | cons a A ih =>
    cases A with
    | nil =>
      cases B with
      | nil => simp [join]
      | cons b B => simp [join]
    | cons a' A =>
      have hj : ∀ (a b : List Nat) (l : List (List Nat)),
          join (a :: b :: l) = a ++ txt ", " ++ join (b :: l) := fun _ _ _ => rfl
      rw [List.cons_append, List.cons_append, hj, ← List.cons_append, ih, hj]
      simp

theorem posArgs_map (f : Expr → Expr) (sl : List Slot) (xs : List Expr) :
    posArgs sl (xs.map f) = (posArgs sl xs).map f := by
  induction sl generalizing xs with
  | nil => simp [posArgs]
  | cons s sl ih =>
    cases xs with
    | nil => cases s <;> simp [posArgs]
    | cons x xs => cases s <;> simp [posArgs, ih]

theorem kwArgs_map (f : Expr → Expr) (sl : List Slot) (xs : List Expr) :
    kwArgs sl (xs.map f) = (kwArgs sl xs).map (fun p => (p.1, f p.2)) := by
  induction sl generalizing xs with
  | nil => simp [kwArgs]
  | cons s sl ih =>
    cases xs with
    | nil => cases s <;> simp [kwArgs]
    | cons x xs => cases s <;> simp [kwArgs, ih]

theorem mem_posArgs {sl : List Slot} {xs : List Expr} {x : Expr} (h : x ∈ posArgs sl xs) :
    x ∈ xs := by
  induction sl generalizing xs with
  | nil => simp [posArgs] at h
  | cons s sl ih =>
    cases xs with
    | nil => cases s <;> simp [posArgs] at h
    | cons y xs =>
      cases s <;> simp only [posArgs, List.mem_cons] at h ⊢
      · exact h.imp_right ih
      · exact .inr (ih h)

theorem mem_kwArgs {sl : List Slot} {xs : List Expr} {p : String × Expr} (h : p ∈ kwArgs sl xs) :
    p.2 ∈ xs := by
  induction sl generalizing xs with
  | nil => simp [kwArgs] at h
  | cons s sl ih =>
    cases xs with
    | nil => cases s <;> simp [kwArgs] at h
    | cons y xs =>
      cases s <;> simp only [kwArgs, List.mem_cons] at h ⊢
      · exact .inr (ih h)
      · rcases h with rfl | h
        · exact .inl rfl
        · exact .inr (ih h)

theorem mem_args {sl : List Slot} {xs : List Expr} {x : Expr} (hl : sl.length = xs.length)
    (h : x ∈ xs) : x ∈ posArgs sl xs ∨ ∃ k, (k, x) ∈ kwArgs sl xs := by
  induction sl generalizing xs with
  | nil =>
    cases xs with
    | nil => cases h
    | cons => simp at hl
  | cons s sl ih =>
    cases xs with
    | nil => cases h
    | cons y xs =>
      rw [List.mem_cons] at h
      have ih := fun h => ih (xs := xs) (by simpa using hl) h
      cases s with
      | pos =>
        simp only [posArgs, kwArgs, List.mem_cons]
        rcases h with h | h
        · exact .inl (.inl h)
        · exact (ih h).imp_left .inr
      | kw k =>
        simp only [posArgs, kwArgs, List.mem_cons]
        rcases h with h | h
        · exact .inr ⟨k, .inl (by rw [h])⟩
        · exact (ih h).imp_right (fun ⟨k', h'⟩ => ⟨k', .inr h'⟩)

/-- The arguments in order are the positional ones followed by the keyword ones. -/
theorem renderArgs_eq (N : Op → List Nat) (other : Expr → List Nat) (sl : List Slot)
    (xs : List Expr) (h : PosFirst sl) :
    renderArgs N other sl xs = (posArgs sl xs).map (render N other) ++
      (kwArgs sl xs).map (fun p => txt p.1 ++ txt "=" ++ render N other p.2) := by
  obtain ⟨n, ks, rfl⟩ := h
  induction n generalizing xs with
  | zero =>
    simp only [List.replicate_zero, List.nil_append]
    induction ks generalizing xs with
    | nil => cases xs <;> simp [renderArgs, posArgs, kwArgs]
    | cons k ks ih =>
      have hp : ∀ (ks : List String) (xs : List Expr), posArgs (ks.map .kw) xs = [] := by
        intro ks
        induction ks with
        | nil => intro xs; simp [posArgs]
        | cons k ks ih => intro xs; cases xs <;> simp [posArgs, ih]
      cases xs with
      | nil => simp [renderArgs, posArgs, kwArgs]
      | cons x xs =>
        have := ih xs
        rw [hp] at this
        simp only [List.map_nil, List.nil_append] at this
        simp [renderArgs, posArgs, kwArgs, this, hp]
  | succ n ih =>
    cases xs with
    | nil => simp [renderArgs, posArgs, kwArgs, List.replicate_succ]
    | cons x xs => simp [renderArgs, posArgs, kwArgs, List.replicate_succ, ih xs]

/-- The text of a call. -/
theorem step_apply (P : Printer) (o : Op) (sl : List Slot) (ys : List Expr) (fr : Fresh)
    (hs : PosFirst sl) (hl : sl.length = ys.length) (hy : ∀ y ∈ ys, Plain y) :
    Step P fr (applyStr P o sl ys fr)
      (fun N => N o ++ txt "(" ++ join (renderArgs N P.other sl ys) ++ txt ")")
      (fun o' => o' = o ∨ o' ∈ Expr.opsL ys) := by
  have h1 := step_list P (posArgs sl ys) fr (fun x hx => step_plain P x (hy x (mem_posArgs hx)))
  have h2 := step_list P ((kwArgs sl ys).map Prod.snd) (termStrs P (posArgs sl ys) fr).2
    (fun x hx => by
      obtain ⟨p, hp, rfl⟩ := List.mem_map.1 hx
      exact step_plain P _ (hy _ (mem_kwArgs hp)))
  have h3 := step_op P o (termStrs P ((kwArgs sl ys).map Prod.snd)
    (termStrs P (posArgs sl ys) fr).2).2
  refine ⟨h1.ext.trans (h2.ext.trans h3.ext), fun h => h3.ok (h2.ok (h1.ok h)), ?_, ?_, ?_⟩
  · intro fr' he
    have t3 := h3.text fr' he
    have t2 := h2.text fr' (h3.ext.trans he)
    have t1 := h1.text fr' (h2.ext.trans (h3.ext.trans he))
    simp only [applyStr]
    rw [t1, t2, t3, renderArgs_eq _ _ _ _ hs, join_append]
    rw [renders_eq, renders_eq]
    have hz : ∀ (l : List (String × Expr)), List.zipWith (fun k v => txt k ++ txt "=" ++ v)
        (l.map Prod.fst) ((l.map Prod.snd).map (render (namesIn P fr') P.other)) =
        l.map (fun p => txt p.1 ++ txt "=" ++ render (namesIn P fr') P.other p.2) := by
      intro l
      induction l with
      | nil => rfl
      | cons p l ih => simp only [List.map_cons, List.zipWith_cons_cons, ih]
    rw [hz]
    by_cases hk : kwArgs sl ys = []
    · simp [hk, join]
    · by_cases ha : posArgs sl ys = [] <;> simp [hk, ha, join]
  · intro o' ho
    rcases ho with rfl | ho
    · exact h3.known o' rfl
    · obtain ⟨y, hyy, hoy⟩ := Expr.mem_opsL.1 ho
      rcases mem_args hl hyy with h | ⟨k, h⟩
      · exact known_ext (h2.ext.trans h3.ext) (h1.known o' (Expr.mem_opsL.2 ⟨y, h, hoy⟩))
      · exact known_ext h3.ext (h2.known o' (Expr.mem_opsL.2
          ⟨y, List.mem_map.2 ⟨(k, y), h, rfl⟩, hoy⟩))
  · intro o' ho
    rcases h3.only o' ho with h | h
    · rcases h2.only o' h with h | h
      · refine (h1.only o' h).imp_right fun h => .inr ?_
        obtain ⟨y, hy', hoy⟩ := Expr.mem_opsL.1 h
        exact Expr.mem_opsL.2 ⟨y, mem_posArgs hy', hoy⟩
      · refine .inr (.inr ?_)
        obtain ⟨y, hy', hoy⟩ := Expr.mem_opsL.1 h
        obtain ⟨p, hp, rfl⟩ := List.mem_map.1 hy'
        exact Expr.mem_opsL.2 ⟨p.2, mem_kwArgs hp, hoy⟩
    · exact .inr (.inl h)

theorem render_args_printed (N : Op → List Nat) (other : Expr → List Nat) (sl : List Slot)
    (xs : List Expr) (h : ∀ x ∈ xs, render N other (printed N other x) = render N other x) :
    renderArgs N other sl (xs.map (printed N other)) = renderArgs N other sl xs := by
  induction xs generalizing sl with
  | nil => rfl
  | cons x xs ih =>
    have h1 := h x List.mem_cons_self
    have h2 := fun sl => ih sl (fun y hy => h y (List.mem_cons_of_mem _ hy))
    cases sl with
    | nil => simp [renderArgs]
    | cons s sl => cases s <;> simp [renderArgs, h1, h2]

theorem keys_map (f : Expr → Expr) {xs : List Expr} (h : Pairs xs) :
    keys (xs.map f) = (keys xs).map f := by
  induction h with
  | nil => rfl
  | cons _ ih => simp [keys, ih]

theorem pairs_map (f : Expr → Expr) {xs : List Expr} (h : Pairs xs) : Pairs (xs.map f) := by
  induction h with
  | nil => exact .nil
  | cons _ ih => exact .cons ih

/-- Printing evaluates an expression to the values whose text is the rendering. -/
theorem step_eval (P : Printer) (e : Expr) (he : Printable e) : ∀ fr : Fresh,
    ∃ r : Expr × Fresh, evaluate (strCtx P) e fr = (.ok r.1, r.2) ∧
      Step P fr r (fun N => printed N P.other e) (· ∈ opsIn e) := by
  induction he with
  | atom a =>
    intro fr
    exact ⟨(.atom a, fr), rfl, Ext.refl _ _, id, fun _ _ => by simp [printed], by simp [opsIn],
      fun _ h => .inl h⟩
  | op o =>
    intro fr
    exact ⟨(.op o, fr), rfl, Ext.refl _ _, id, fun _ _ => by simp [printed], by simp [opsIn],
      fun _ h => .inl h⟩
  | @term o sl xs hs hl hp ih =>
    intro fr
    obtain ⟨r1, e1, h1⟩ := step_printed P xs fr ih
    have hr1 := h1.text r1.2 (Ext.refl _ _)
    have hl' : sl.length = r1.1.length := by rw [hr1, List.length_map, hl]
    have hy : ∀ y ∈ r1.1, Plain y := by
      rw [hr1]
      intro y hy
      obtain ⟨x, hx, rfl⟩ := List.mem_map.1 hy
      exact plain_printed _ _ x (hp x hx)
    have h2 := step_apply P o sl r1.1 r1.2 hs hl' hy
    refine ⟨(.atom (.str (applyStr P o sl r1.1 r1.2).1), (applyStr P o sl r1.1 r1.2).2), ?_, ?_⟩
    · simp only [evaluate, e1]; rfl
    · refine ⟨h1.ext.trans h2.ext, fun h => h2.ok (h1.ok h), ?_, ?_, ?_⟩
      · intro fr' hf
        have hr := h1.text fr' (h2.ext.trans hf)
        simp only [printed, render]
        rw [h2.text fr' hf]
        rw [hr, render_args_printed _ _ _ _ (fun x hx => render_printed _ _ x (hp x hx))]
      · intro o' ho
        simp only [opsIn, Expr.ops, List.mem_cons] at ho
        rcases ho with rfl | ho
        · exact h2.known o' (.inl rfl)
        · obtain ⟨x, hx, hox⟩ := Expr.mem_opsL.1 ho
          rcases ops_printed (namesIn P r1.2) P.other x (hp x hx) o' hox with h | h
          · exact known_ext h2.ext (h1.known o' (List.mem_flatMap.2 ⟨x, hx, h⟩))
          · exact h2.known o' (.inr (Expr.mem_opsL.2
              ⟨_, by rw [hr1]; exact List.mem_map_of_mem hx, h⟩))
      · intro o' ho
        simp only [opsIn, Expr.ops, List.mem_cons]
        rcases h2.only o' ho with h | rfl | h
        · refine (h1.only o' h).imp_right fun h => .inr ?_
          obtain ⟨x, hx, hox⟩ := List.mem_flatMap.1 h
          exact Expr.mem_opsL.2 ⟨x, hx, opsIn_sub x o' hox⟩
        · exact .inr (.inl rfl)
        · refine .inr (.inr ?_)
          obtain ⟨y, hy', hoy⟩ := Expr.mem_opsL.1 h
          rw [hr1] at hy'
          obtain ⟨x, hx, rfl⟩ := List.mem_map.1 hy'
          exact Expr.mem_opsL.2 ⟨x, hx, printed_sub _ _ x o' hoy⟩
  | @list xs _ ih =>
    intro fr
    obtain ⟨r, e, h⟩ := step_printed P xs fr ih
    refine ⟨(.node (.seq .list) r.1, r.2), by simp [evaluate, e, build], h.ext, h.ok, ?_, ?_, ?_⟩
    · intro fr' hf; simp only [printed]; rw [← h.text fr' hf]
    · intro o ho; exact h.known o (by simpa only [opsIn] using ho)
    · intro o ho; simpa only [opsIn] using h.only o ho
  | @tuple xs _ ih =>
    intro fr
    obtain ⟨r, e, h⟩ := step_printed P xs fr ih
    refine ⟨(.node (.seq .tuple) r.1, r.2), by simp [evaluate, e, build], h.ext, h.ok, ?_, ?_, ?_⟩
    · intro fr' hf; simp only [printed]; rw [← h.text fr' hf]
    · intro o ho; exact h.known o (by simpa only [opsIn] using ho)
    · intro o ho; simpa only [opsIn] using h.only o ho
  | @named c fs xs _ ih =>
    intro fr
    obtain ⟨r, e, h⟩ := step_printed P xs fr ih
    refine ⟨(.node (.named c fs) r.1, r.2), by simp [evaluate, e, build], h.ext, h.ok, ?_, ?_, ?_⟩
    · intro fr' hf; simp only [printed]; rw [← h.text fr' hf]
    · intro o ho; exact h.known o (by simpa only [opsIn] using ho)
    · intro o ho; simpa only [opsIn] using h.only o ho
  | @dict xs hpairs hn hleaf _ ih =>
    intro fr
    obtain ⟨r, e, h⟩ := step_printed P xs fr ih
    have hr := h.text r.2 (Ext.refl _ _)
    have hk : keys r.1 = keys xs := by
      rw [hr, keys_map _ hpairs]
      refine (List.map_congr_left (g := id) ?_).trans (List.map_id _)
      intro k hk
      have := hleaf k hk
      cases k with
      | node _ _ => exact absurd this (by simp [Leaf])
      | atom a => simp [printed]
      | op o => simp [printed]
    have hpr : Pairs r.1 := by rw [hr]; exact pairs_map _ hpairs
    have hd : dictLoop [] r.1 = r.1 := by
      rw [dictLoop_nodup .nil hpr (by simpa [keys, hk] using hn)]; rfl
    refine ⟨(.node (.map .dict) r.1, r.2), by simp [evaluate, e, build, hd], h.ext, h.ok, ?_, ?_, ?_⟩
    · intro fr' hf; simp only [printed]; rw [← h.text fr' hf]
    · intro o ho; exact h.known o (by simpa only [opsIn] using ho)
    · intro o ho; simpa only [opsIn] using h.only o ho

/-! ## C24 -/

/-- C24: `str(t)` is the text of the term under a naming of its operations; each operation is named by
its own name, or by its own name, an exclamation mark and a number, and one operation of each name has
the plain name. Operations with the same name get different texts; all operations get different texts
if no name contains an exclamation mark. (Terms, lists, tuples and dicts with different keys that
contain no terms.) -/
theorem C24_names_distinct_partial (P : Printer) (o : Op) (sl : List Slot) (xs : List Expr)
    (h : Printable (.node (.term o sl) xs)) :
    ∃ N : Op → List Nat,
      strOf P (.node (.term o sl) xs) =
        .ok (.atom (.str (render N P.other (.node (.term o sl) xs)))) ∧
      (∀ a ∈ (Expr.node (.term o sl) xs).ops,
        N a = P.names a ∨ ∃ k > 0, N a = P.names a ++ txt "!" ++ dec k) ∧
      (∀ a ∈ (Expr.node (.term o sl) xs).ops, ∃ b ∈ (Expr.node (.term o sl) xs).ops,
        P.names b = P.names a ∧ N b = P.names a) ∧
      (∀ a ∈ (Expr.node (.term o sl) xs).ops, ∀ b ∈ (Expr.node (.term o sl) xs).ops,
        P.names a = P.names b → N a = N b → a = b) ∧
      ((∀ a ∈ (Expr.node (.term o sl) xs).ops, 33 ∉ P.names a) →
        ∀ a ∈ (Expr.node (.term o sl) xs).ops, ∀ b ∈ (Expr.node (.term o sl) xs).ops,
          N a = N b → a = b) := by
  obtain ⟨r, e, hs⟩ := step_eval P _ h []
  have hok := hs.ok (ok_nil P)
  have hknown := fun a ha => Option.isSome_iff_exists.1
    (hs.known a (by simpa only [opsIn] using ha))
  have same : ∀ a ∈ (Expr.node (.term o sl) xs).ops, ∀ b ∈ (Expr.node (.term o sl) xs).ops,
      P.names a = P.names b → (number P r.2 a).getD 0 = (number P r.2 b).getD 0 → a = b := by
    intro a ha b hb hn he
    obtain ⟨m, hm⟩ := hknown a ha
    obtain ⟨n, hn'⟩ := hknown b hb
    simp only [hm, hn', Option.getD_some] at he
    exact hok.inj a b m hn hm (by rw [hn', he])
  refine ⟨namesIn P r.2, ?_, ?_, ?_, ?_, ?_⟩
  · simp only [strOf, e, hs.text r.2 (Ext.refl _ _), printed]
  · intro a _
    unfold namesIn numbered
    split
    · exact .inl rfl
    · rename_i hne; exact .inr ⟨_, Nat.pos_of_ne_zero hne, rfl⟩
  · intro a ha
    obtain ⟨n, hn⟩ := hknown a ha
    obtain ⟨b, hb, hz⟩ := hok.zero a n hn
    refine ⟨b, ?_, hb, by simp [namesIn, hz, numbered, hb]⟩
    rcases hs.only b (by rw [hz]; rfl) with h' | h'
    · simp [number] at h'
    · simpa only [opsIn] using h'
  · intro a ha b hb hn he
    refine same a ha b hb hn ?_
    unfold namesIn numbered at he
    rw [hn] at he
    split at he <;> split at he
    · rename_i h1 h2; rw [h1, h2]
    · exact absurd (congrArg List.length he) (by simp [txt])
    · exact absurd (congrArg List.length he) (by simp [txt])
    · exact dec_inj _ _ (List.append_cancel_left he)
  · intro hb a ha b hb' he
    obtain ⟨h1, h2⟩ := numbered_inj (hb a ha) (hb b hb') he
    exact same a ha b hb' h1 h2

/-- C24: if no two operations of a term share a name, then each is printed with its name. -/
theorem C24_unique_name_plain (P : Printer) (o : Op) (sl : List Slot) (xs : List Expr)
    (h : Printable (.node (.term o sl) xs))
    (hu : ∀ a ∈ (Expr.node (.term o sl) xs).ops, ∀ b ∈ (Expr.node (.term o sl) xs).ops,
      P.names a = P.names b → a = b) :
    strOf P (.node (.term o sl) xs) =
      .ok (.atom (.str (render P.names P.other (.node (.term o sl) xs)))) := by
  obtain ⟨N, h1, _, h3, _⟩ := C24_names_distinct_partial P o sl xs h
  rw [h1, render_congr N P.names]
  intro a ha
  obtain ⟨b, hb, hn, hN⟩ := h3 a ha
  rw [← hu b hb a ha hn, hN, hn]

/-! ### Examples -/

/-- Three operations named `x`, `x` and `x!1`, and `f`, `g`. -/
def exPrinter : Printer where
  names o := if o.id ≤ 1 then txt "x" else if o.id = 2 then txt "x!1" else if o.id = 3 then txt "f"
    else txt "g"
  other _ := txt "?"

def v (n : Nat) : Expr := .node (.term ⟨n, 0⟩ []) []

/-- `f(x(), [x, x'], k=g(x'(), {"k": x'}))`. -/
def exTerm : Expr :=
  .node (.term ⟨3, 0⟩ [.pos, .pos, .kw "k"])
    [v 0, .node (.seq .list) [.op ⟨0, 0⟩, .op ⟨1, 0⟩],
     .node (.term ⟨4, 0⟩ [.pos, .pos]) [v 1, .node (.map .dict) [.atom (.str (txt "k")), .op ⟨1, 0⟩]]]

example : strOf exPrinter exTerm =
    .ok (.atom (.str (txt "f(x(), [x, x!1], k=g(x!1(), {k:x!1}))"))) := by decide

theorem exTerm_printable : Printable exTerm := by
  have hv : ∀ n, Printable (v n) := fun n => .term ⟨0, [], rfl⟩ rfl (by simp)
  refine .term ⟨2, ["k"], rfl⟩ rfl ?_
  simp only [List.mem_cons, List.not_mem_nil, or_false, forall_eq_or_imp, forall_eq]
  refine ⟨hv 0, .list ?_, .term ⟨2, [], rfl⟩ rfl ?_⟩
  · simp only [List.mem_cons, List.not_mem_nil, or_false, forall_eq_or_imp, forall_eq]
    exact ⟨.op _, .op _⟩
  · simp only [List.mem_cons, List.not_mem_nil, or_false, forall_eq_or_imp, forall_eq]
    refine ⟨hv 1, .dict (.cons .nil) (by simp [keys]) (by simp [keys, Leaf]) ?_⟩
    simp only [List.mem_cons, List.not_mem_nil, or_false, forall_eq_or_imp, forall_eq]
    exact ⟨.atom _, .op _⟩

example : Printable exTerm ∧ ∀ a ∈ exTerm.ops, 33 ∉ exPrinter.names a :=
  ⟨exTerm_printable, by decide⟩

/-- C24 fails: with operations named `x`, `x` and `x!1`, the different terms `f(x(), x'(), x'())` and
`f(x(), x'(), z())` are printed alike, so the same text stands for two operations. -/
theorem C24_names_distinct_fails :
    ∃ (P : Printer) (t u : Expr), Printable t ∧ Printable u ∧ t ≠ u ∧
      strOf P t = strOf P u ∧ ∃ s, strOf P t = .ok (.atom (.str s)) := by
  refine ⟨exPrinter, .node (.term ⟨3, 0⟩ [.pos, .pos, .pos]) [v 0, v 1, v 1],
    .node (.term ⟨3, 0⟩ [.pos, .pos, .pos]) [v 0, v 1, v 2], ?_, ?_, by decide, by decide,
    txt "f(x(), x!1(), x!1())", by decide⟩
  all_goals
    have hv : ∀ n, Printable (v n) := fun n => .term ⟨0, [], rfl⟩ rfl (by simp)
    refine .term ⟨3, [], rfl⟩ rfl ?_
    simp only [List.mem_cons, List.not_mem_nil, or_false, forall_eq_or_imp, forall_eq]
    exact ⟨hv _, hv _, hv _⟩

/-- C24 fails for operations inside values that are printed by their own `repr`, such as instances of
dataclasses: `repr` of an operation shows name and signature only (`ops/types.py` 453), so two
operations may have the same text there, and then `f(D(a))` and `f(D(b))` are printed alike. -/
theorem C24_opaque_fails (P : Printer) (f a b : Op)
    (h : P.other (.node (.data 0 [("a", true)]) [.op a]) =
      P.other (.node (.data 0 [("a", true)]) [.op b])) :
    strOf P (.node (.term f [.pos]) [.node (.data 0 [("a", true)]) [.op a]]) =
      strOf P (.node (.term f [.pos]) [.node (.data 0 [("a", true)]) [.op b]]) := by
  simp [strOf, evaluate, evaluates, strCtx, build, applyStr, posArgs, kwArgs, termStrs, termStr, h]

/-- The hypothesis holds for two operations with equal names. -/
example : ∃ (P : Printer) (a b : Op), a ≠ b ∧
    P.other (.node (.data 0 [("a", true)]) [.op a]) =
      P.other (.node (.data 0 [("a", true)]) [.op b]) :=
  ⟨exPrinter, ⟨0, 0⟩, ⟨1, 0⟩, by decide, rfl⟩

end Verif.Objects
