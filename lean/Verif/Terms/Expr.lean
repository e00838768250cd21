/-!
# Expressions

Values that `evaluate`, `defdata`, `fvsof` and `Scoped.analyze` traverse.
-/

namespace Verif.Terms

/-- Operations. They are compared by identity (`ops/types.py` 110-113, 135); `id` numbers them in
order of creation. `kind` stands for the signature, which `defop(op)` copies
(`ops/types.py` 283-291). -/
structure Op where
  id : Nat
  kind : Nat
  deriving DecidableEq, Repr

/-- Leaves that are neither operations nor terms nor containers. -/
inductive Atom : Type where
  | str (s : List Nat)
  | bytes (b : List Nat)
  | val (n : Nat)
  deriving DecidableEq, Repr

/-- How an argument is passed: by position or by keyword. -/
inductive Slot : Type where
  | pos
  | kw (name : String)
  deriving DecidableEq, Repr

/-- Sequence types. `other n b`: another `collections.abc.Sequence`, whose constructor accepts an
iterator iff `b` (for `range` it does not). -/
inductive SeqKind : Type where
  | list
  | tuple
  | other (n : Nat) (fromIter : Bool)
  deriving DecidableEq, Repr

/-- Mapping types: `dict` and its subclasses, or other `collections.abc.Mapping`s (mapping
proxies). -/
inductive MapKind : Type where
  | dict
  | other (n : Nat)
  deriving DecidableEq, Repr

/-- What a compound value is. -/
inductive Tag : Type where
  /-- a term: operation and the way each argument is passed (positional ones first) -/
  | term (o : Op) (slots : List Slot)
  | seq (k : SeqKind)
  | set
  /-- the children are the keys and values, alternating -/
  | map (k : MapKind)
  /-- an instance of a named tuple class -/
  | named (cls : Nat) (fields : List String)
  /-- an instance of a dataclass; the flag is `field.init` -/
  | data (cls : Nat) (fields : List (String × Bool))
  deriving DecidableEq, Repr

/-- Expressions (`Expr` in `ops/types.py`). -/
inductive Expr : Type where
  | atom (a : Atom)
  | op (o : Op)
  | node (t : Tag) (xs : List Expr)
  deriving Repr

/-- First occurrences of each element: a set as a list. -/
def uniq : List Op → List Op
  | [] => []
  | x :: xs => x :: (uniq xs).filter (· ≠ x)

theorem mem_uniq {v : Op} {xs : List Op} : v ∈ uniq xs ↔ v ∈ xs := by
  induction xs with
  | nil => simp [uniq]
  | cons x xs ih =>
    simp only [uniq, List.mem_cons, List.mem_filter, ih, decide_eq_true_eq, ne_eq]
    by_cases h : v = x <;> simp [h]

theorem nodup_uniq (xs : List Op) : (uniq xs).Nodup := by
  induction xs with
  | nil => simp [uniq]
  | cons x xs ih =>
    simp only [uniq, List.nodup_cons, List.mem_filter]
    exact ⟨by simp, ih.filter _⟩

theorem uniq_map (r : Op → Op) (xs : List Op)
    (h : ∀ a ∈ xs, ∀ b ∈ xs, r a = r b → a = b) : uniq (xs.map r) = (uniq xs).map r := by
  induction xs with
  | nil => rfl
  | cons x xs ih =>
    simp only [List.map_cons, uniq]
    rw [ih (fun a ha b hb => h a (List.mem_cons_of_mem _ ha) b (List.mem_cons_of_mem _ hb)),
      List.filter_map]
    congr 2
    apply List.filter_congr
    intro y hy
    rw [mem_uniq] at hy
    by_cases e : y = x
    · simp [e]
    · have : r y ≠ r x := fun e' => e (h y (List.mem_cons_of_mem _ hy) x List.mem_cons_self e')
      simp [e, this]

namespace Expr

/-- Induction with the hypothesis for all children. -/
theorem ind {P : Expr → Prop} (atom : ∀ a, P (.atom a)) (op : ∀ o, P (.op o))
    (node : ∀ t xs, (∀ x ∈ xs, P x) → P (.node t xs)) : ∀ e, P e := by
  intro e
  refine Expr.rec (motive_1 := P) (motive_2 := fun xs => ∀ x ∈ xs, P x) atom op ?_ ?_ ?_ e
  · exact node
  · intro x hx; cases hx
  · intro x xs hx hxs y hy
    cases hy with
    | head => exact hx
    | tail _ h => exact hxs y h

mutual

/-- Equality of expressions is decidable. -/
def decEq : (a b : Expr) → Decidable (a = b)
  | .atom a, .atom b =>
    if h : a = b then isTrue (by rw [h]) else isFalse (by simpa using h)
  | .op a, .op b => if h : a = b then isTrue (by rw [h]) else isFalse (by simpa using h)
  | .node t xs, .node u ys =>
    if h : t = u then
      match decEqs xs ys with
      | isTrue h' => isTrue (by rw [h, h'])
      | isFalse h' => isFalse (by intro e; cases e; exact h' rfl)
    else isFalse (by intro e; cases e; exact h rfl)
  | .atom _, .op _ => isFalse (by intro e; cases e)
  | .atom _, .node _ _ => isFalse (by intro e; cases e)
  | .op _, .atom _ => isFalse (by intro e; cases e)
  | .op _, .node _ _ => isFalse (by intro e; cases e)
  | .node _ _, .atom _ => isFalse (by intro e; cases e)
  | .node _ _, .op _ => isFalse (by intro e; cases e)

/-- Equality of lists of expressions is decidable. -/
def decEqs : (a b : List Expr) → Decidable (a = b)
  | [], [] => isTrue rfl
  | [], _ :: _ => isFalse (by intro e; cases e)
  | _ :: _, [] => isFalse (by intro e; cases e)
  | x :: xs, y :: ys =>
    match decEq x y, decEqs xs ys with
    | isTrue h, isTrue h' => isTrue (by rw [h, h'])
    | isFalse h, _ => isFalse (by intro e; cases e; exact h rfl)
    | _, isFalse h' => isFalse (by intro e; cases e; exact h' rfl)

end

instance : DecidableEq Expr := decEq

mutual

/-- All operations occurring in an expression: values, and operations of terms. -/
def ops : Expr → List Op
  | .atom _ => []
  | .op o => [o]
  | .node (.term o _) xs => o :: opsL xs
  | .node _ xs => opsL xs

def opsL : List Expr → List Op
  | [] => []
  | x :: xs => x.ops ++ opsL xs

end

theorem mem_opsL {o : Op} {xs : List Expr} : o ∈ opsL xs ↔ ∃ x ∈ xs, o ∈ x.ops := by
  induction xs with
  | nil => simp [opsL]
  | cons x xs ih => simp [opsL, ih]

theorem mem_ops_node {o : Op} {t : Tag} {xs : List Expr} :
    o ∈ (Expr.node t xs).ops ↔ (∃ sl, t = .term o sl) ∨ ∃ x ∈ xs, o ∈ x.ops := by
  cases t <;> simp [ops, mem_opsL, eq_comm]

mutual

/-- `extract_operations(obj)` (`ops/syntax.py` 364-375): the operations in nested dicts, lists,
sets and tuples (named tuples are tuples), in order of traversal. It does not look into terms,
dataclasses and other mappings or sequences. -/
def extract : Expr → List Op
  | .op o => [o]
  | .node (.seq .list) xs => extractL xs
  | .node (.seq .tuple) xs => extractL xs
  | .node .set xs => extractL xs
  | .node (.map .dict) xs => extractL xs
  | .node (.named _ _) xs => extractL xs
  | _ => []

def extractL : List Expr → List Op
  | [] => []
  | x :: xs => x.extract ++ extractL xs

end

/-- The containers that `extract` enters. -/
def Tag.entered : Tag → Bool
  | .seq .list => true
  | .seq .tuple => true
  | .set => true
  | .map .dict => true
  | .named _ _ => true
  | _ => false

theorem extract_node (t : Tag) (xs : List Expr) :
    (Expr.node t xs).extract = if Tag.entered t then extractL xs else [] := by
  cases t with
  | seq k => cases k <;> simp [extract, Tag.entered]
  | map k => cases k <;> simp [extract, Tag.entered]
  | _ => simp [extract, Tag.entered]

theorem extractL_eq (xs : List Expr) : extractL xs = xs.flatMap extract := by
  induction xs with
  | nil => simp [extractL]
  | cons x xs ih => simp [extractL, ih]

theorem extract_sub_ops (e : Expr) : ∀ o ∈ e.extract, o ∈ e.ops := by
  induction e using ind with
  | atom a => simp [extract]
  | op o => simp [extract, ops]
  | node t xs ih =>
    intro o ho
    rw [extract_node] at ho
    split at ho
    · rw [extractL_eq, List.mem_flatMap] at ho
      obtain ⟨x, hx, hox⟩ := ho
      exact mem_ops_node.2 (.inr ⟨x, hx, ih x hx o hox⟩)
    · cases ho

end Expr

end Verif.Terms
