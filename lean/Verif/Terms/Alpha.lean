import Verif.Terms.EvalProps

/-!
# Alpha-equivalence

The specification of binding used for C15-C18: a nameless form in which bound variables are
replaced by their position.  Two expressions are alpha-equivalent iff their nameless forms are
equal.
-/

namespace Verif.Terms

open Verif.Scoped (Sig Err TyVar)

/-- A variable in nameless form: bound by the `i`-th enclosing argument position, `j`-th variable
there; or free. -/
inductive DVar : Type where
  | bound (i j kind : Nat)
  | free (o : Op)
  deriving DecidableEq

/-- Nameless expressions. -/
inductive DExpr : Type where
  | atom (a : Atom)
  | op (v : DVar)
  | term (v : DVar) (sl : List Slot) (xs : List DExpr)
  | node (t : Tag) (xs : List DExpr)

def DVar.shift : DVar → DVar
  | .bound i j k => .bound (i + 1) j k
  | .free o => .free o

/-- Position of an operation in a list of scopes, innermost first. -/
def look : List (List Op) → Op → DVar
  | [], o => .free o
  | B :: E, o => if o ∈ B then .bound 0 (B.idxOf o) o.kind else (look E o).shift

/-- The variables bound in each argument; none if the call is rejected. -/
def Sigs.bound (G : Sigs) (o : Op) (sl : List Slot) (xs : List Expr) : List (List Op) :=
  match G.bounds o sl xs with
  | .ok Bs => Bs
  | .error _ => []

mutual

/-- The nameless form of an expression inside the scopes `E`. -/
def toDB (G : Sigs) (E : List (List Op)) : Expr → DExpr
  | .atom a => .atom a
  | .op o => .op (look E o)
  | .node (.term o sl) xs => .term (look E o) sl (toDBs G E (G.bound o sl xs) xs)
  | .node t xs => .node t (toDBn G E xs)

/-- The arguments of a term: each is inside one more scope. -/
def toDBs (G : Sigs) (E : List (List Op)) : List (List Op) → List Expr → List DExpr
  | B :: Bs, x :: xs => toDB G (B :: E) x :: toDBs G E Bs xs
  | [], x :: xs => toDB G ([] :: E) x :: toDBs G E [] xs
  | _, [] => []

/-- The parts of a container. -/
def toDBn (G : Sigs) (E : List (List Op)) : List Expr → List DExpr
  | [] => []
  | x :: xs => toDB G E x :: toDBn G E xs

end

theorem toDBs_eq (G : Sigs) (E Bs : List (List Op)) (xs : List Expr) :
    toDBs G E Bs xs = xs.zipIdx.map (fun e => toDB G (Bs.getD e.2 [] :: E) e.1) := by
  suffices ∀ k, (∀ i, Bs.getD i [] = Bs.getD i []) →
      toDBs G E (Bs.drop k) xs = (xs.zipIdx k).map (fun e => toDB G (Bs.getD e.2 [] :: E) e.1) by
    simpa using this 0 (fun _ => rfl)
  induction xs with
  | nil => intro k _; cases Bs.drop k <;> simp [toDBs]
  | cons x xs ih =>
    intro k h
    simp only [List.zipIdx_cons, List.map_cons]
    rw [← ih (k + 1) h]
    by_cases hk : k < Bs.length
    · rw [List.drop_eq_getElem_cons hk, toDBs]
      congr 2
      simp [List.getD, List.getElem?_eq_getElem hk]
    · rw [List.drop_eq_nil_of_le (by omega), List.drop_eq_nil_of_le (by omega), toDBs]
      congr 2
      simp [List.getD, List.getElem?_eq_none (Nat.le_of_not_lt hk)]

theorem toDBn_eq (G : Sigs) (E : List (List Op)) (xs : List Expr) :
    toDBn G E xs = xs.map (toDB G E) := by
  induction xs with
  | nil => simp [toDBn]
  | cons x xs ih => simp [toDBn, ih]

/-- A tag that is no term. -/
def Tag.isTerm : Tag → Bool
  | .term _ _ => true
  | _ => false

theorem toDB_node (G : Sigs) (E : List (List Op)) (t : Tag) (xs : List Expr)
    (h : Tag.isTerm t = false) : toDB G E (.node t xs) = .node t (xs.map (toDB G E)) := by
  rw [← toDBn_eq]
  cases t <;> first | (simp [Tag.isTerm] at h; done) | simp only [toDB]

theorem toDB_term (G : Sigs) (E : List (List Op)) (o : Op) (sl : List Slot) (xs : List Expr) :
    toDB G E (.node (.term o sl) xs) = .term (look E o) sl
      (xs.zipIdx.map (fun e => toDB G ((G.bound o sl xs).getD e.2 [] :: E) e.1)) := by
  rw [toDB, toDBs_eq]

/-- Alpha-equivalence. -/
def Alpha (G : Sigs) (a b : Expr) : Prop := toDB G [] a = toDB G [] b

/-! ## Renaming of all operations -/

mutual

/-- Replace each operation `o` by `r o`, everywhere. -/
def rename (r : Op → Op) : Expr → Expr
  | .atom a => .atom a
  | .op o => .op (r o)
  | .node (.term o sl) xs => .node (.term (r o) sl) (renames r xs)
  | .node t xs => .node t (renames r xs)

def renames (r : Op → Op) : List Expr → List Expr
  | [] => []
  | x :: xs => rename r x :: renames r xs

end

theorem renames_eq (r : Op → Op) (xs : List Expr) : renames r xs = xs.map (rename r) := by
  induction xs with
  | nil => simp [renames]
  | cons x xs ih => simp [renames, ih]

theorem rename_node (r : Op → Op) (t : Tag) (xs : List Expr) (h : Tag.isTerm t = false) :
    rename r (.node t xs) = .node t (xs.map (rename r)) := by
  rw [← renames_eq]
  cases t <;> first | (simp [Tag.isTerm] at h; done) | simp only [rename]

theorem rename_term (r : Op → Op) (o : Op) (sl : List Slot) (xs : List Expr) :
    rename r (.node (.term o sl) xs) = .node (.term (r o) sl) (xs.map (rename r)) := by
  rw [rename, renames_eq]

theorem rename_congr {r r' : Op → Op} (e : Expr) (h : ∀ o ∈ e.ops, r o = r' o) :
    rename r e = rename r' e := by
  induction e using Expr.ind with
  | atom a => simp [rename]
  | op o => simp [rename, h o (by simp [Expr.ops])]
  | node t xs ih =>
    have hx : xs.map (rename r) = xs.map (rename r') :=
      List.map_congr_left (fun x hx => ih x hx (fun o ho =>
        h o (Expr.mem_ops_node.2 (.inr ⟨x, hx, ho⟩))))
    cases ht : Tag.isTerm t with
    | false => rw [rename_node _ _ _ ht, rename_node _ _ _ ht, hx]
    | true =>
      cases t <;> simp [Tag.isTerm] at ht
      rw [rename_term, rename_term, hx, h _ (Expr.mem_ops_node.2 (.inl ⟨_, rfl⟩))]

theorem rename_id (e : Expr) : rename id e = e := by
  induction e using Expr.ind with
  | atom a => simp [rename]
  | op o => simp [rename]
  | node t xs ih =>
    have hx : xs.map (rename id) = xs := by
      conv_rhs => rw [← List.map_id xs]
      exact List.map_congr_left (fun x hx => ih x hx)
    cases ht : Tag.isTerm t with
    | false => rw [rename_node _ _ _ ht, hx]
    | true =>
      cases t <;> simp [Tag.isTerm] at ht
      rw [rename_term, hx]; rfl

theorem rename_self {r : Op → Op} (e : Expr) (h : ∀ o ∈ e.ops, r o = o) : rename r e = e := by
  rw [rename_congr e (r' := id) h, rename_id]

theorem ops_rename (r : Op → Op) (e : Expr) : (rename r e).ops = e.ops.map r := by
  have opsL_eq : ∀ xs, Expr.opsL xs = xs.flatMap Expr.ops := by
    intro xs; induction xs with
    | nil => simp [Expr.opsL]
    | cons x xs ih => simp [Expr.opsL, ih]
  induction e using Expr.ind with
  | atom a => simp [rename, Expr.ops]
  | op o => simp [rename, Expr.ops]
  | node t xs ih =>
    have hx : Expr.opsL (xs.map (rename r)) = (Expr.opsL xs).map r := by
      rw [opsL_eq, opsL_eq, List.flatMap_map, List.map_flatMap]
      exact List.flatMap_congr (fun x hx => ih x hx)
    cases ht : Tag.isTerm t with
    | false =>
      rw [rename_node _ _ _ ht]
      cases t <;> simp [Tag.isTerm] at ht <;> simp [Expr.ops, hx]
    | true =>
      cases t <;> simp [Tag.isTerm] at ht
      rw [rename_term]; simp [Expr.ops, hx]

theorem extract_rename (r : Op → Op) (e : Expr) : (rename r e).extract = e.extract.map r := by
  induction e using Expr.ind with
  | atom a => simp [rename, Expr.extract]
  | op o => simp [rename, Expr.extract]
  | node t xs ih =>
    have hx : Expr.extractL (xs.map (rename r)) = (Expr.extractL xs).map r := by
      rw [Expr.extractL_eq, Expr.extractL_eq, List.flatMap_map, List.map_flatMap]
      exact List.flatMap_congr (fun x hx => ih x hx)
    cases ht : Tag.isTerm t with
    | false =>
      rw [rename_node _ _ _ ht, Expr.extract_node, Expr.extract_node, hx]
      split <;> simp
    | true =>
      cases t <;> simp [Tag.isTerm] at ht
      rw [rename_term]; simp [Expr.extract]

theorem mem_ops_rename {r : Op → Op} {e : Expr} {o : Op} :
    o ∈ (rename r e).ops ↔ ∃ o' ∈ e.ops, r o' = o := by
  rw [ops_rename, List.mem_map]

/-- Injective on a list. -/
def InjOn (r : Op → Op) (p : Op → Prop) : Prop := ∀ a b, p a → p b → r a = r b → a = b

theorem InjOn.mono {r : Op → Op} {p q : Op → Prop} (h : InjOn r p) (hq : ∀ o, q o → p o) :
    InjOn r q := fun a b ha hb e => h a b (hq a ha) (hq b hb) e

theorem rename_inj {r : Op → Op} {a b : Expr} (h : InjOn r (fun o => o ∈ a.ops ∨ o ∈ b.ops))
    (e : rename r a = rename r b) : a = b := by
  induction a using Expr.ind generalizing b with
  | atom a =>
    cases b with
    | atom b => simpa [rename] using e
    | op b => simp [rename] at e
    | node t xs =>
      cases ht : Tag.isTerm t with
      | false => rw [rename_node _ _ _ ht] at e; simp [rename] at e
      | true => cases t <;> simp [Tag.isTerm] at ht; simp [rename] at e
  | op o =>
    cases b with
    | atom b => simp [rename] at e
    | op b =>
      simp only [rename, Expr.op.injEq] at e
      rw [h o b (.inl (by simp [Expr.ops])) (.inr (by simp [Expr.ops])) e]
    | node t xs =>
      cases ht : Tag.isTerm t with
      | false => rw [rename_node _ _ _ ht] at e; simp [rename] at e
      | true => cases t <;> simp [Tag.isTerm] at ht; simp [rename] at e
  | node t xs ih =>
    have key : ∀ ys : List Expr, (∀ x ∈ xs, ∀ o ∈ x.ops, o ∈ (Expr.node t xs).ops) →
        (∀ y ∈ ys, ∀ o ∈ y.ops, o ∈ b.ops) → xs.map (rename r) = ys.map (rename r) → xs = ys := by
      intro ys hxs hys hm
      have hl : xs.length = ys.length := by simpa using congrArg List.length hm
      apply List.ext_getElem hl
      intro i h1 h2
      apply ih xs[i] (List.getElem_mem h1)
      · intro o o' ho ho'
        apply h
        · exact ho.imp (hxs _ (List.getElem_mem h1) o) (hys _ (List.getElem_mem h2) o)
        · exact ho'.imp (hxs _ (List.getElem_mem h1) o') (hys _ (List.getElem_mem h2) o')
      · have := congrArg (fun l => l[i]?) hm
        simpa [List.getElem?_map, List.getElem?_eq_getElem h1, List.getElem?_eq_getElem h2]
          using this
    have hxs : ∀ x ∈ xs, ∀ o ∈ x.ops, o ∈ (Expr.node t xs).ops :=
      fun x hx o ho => Expr.mem_ops_node.2 (.inr ⟨x, hx, ho⟩)
    cases b with
    | atom b =>
      cases ht : Tag.isTerm t with
      | false => rw [rename_node _ _ _ ht] at e; simp [rename] at e
      | true => cases t <;> simp [Tag.isTerm] at ht; simp [rename] at e
    | op b =>
      cases ht : Tag.isTerm t with
      | false => rw [rename_node _ _ _ ht] at e; simp [rename] at e
      | true => cases t <;> simp [Tag.isTerm] at ht; simp [rename] at e
    | node u ys =>
      have hys : ∀ y ∈ ys, ∀ o ∈ y.ops, o ∈ (Expr.node u ys).ops :=
        fun x hx o ho => Expr.mem_ops_node.2 (.inr ⟨x, hx, ho⟩)
      cases ht : Tag.isTerm t with
      | false =>
        rw [rename_node _ _ _ ht] at e
        cases hu : Tag.isTerm u with
        | false =>
          rw [rename_node _ _ _ hu] at e
          simp only [Expr.node.injEq] at e
          obtain ⟨rfl, e⟩ := e
          rw [key ys hxs hys e]
        | true =>
          cases u <;> simp [Tag.isTerm] at hu
          rw [rename_term] at e
          simp only [Expr.node.injEq] at e
          rw [e.1] at ht
          simp [Tag.isTerm] at ht
      | true =>
        cases t <;> simp [Tag.isTerm] at ht
        rw [rename_term] at e
        cases hu : Tag.isTerm u with
        | false =>
          rw [rename_node _ _ _ hu] at e
          simp only [Expr.node.injEq] at e
          rw [← e.1] at hu
          simp [Tag.isTerm] at hu
        | true =>
          cases u <;> simp [Tag.isTerm] at hu
          rw [rename_term] at e
          simp only [Expr.node.injEq, Tag.term.injEq] at e
          obtain ⟨⟨e1, rfl⟩, e2⟩ := e
          rw [key ys hxs hys e2, h _ _ (.inl (Expr.mem_ops_node.2 (.inl ⟨_, rfl⟩)))
            (.inr (Expr.mem_ops_node.2 (.inl ⟨_, rfl⟩))) e1]

end Verif.Terms
