import Verif.Terms.Defdata

/-!
# Evaluation with handlers for variables is substitution
-/

namespace Verif.Terms

open Verif.Scoped (Sig Err TyVar Ext)

/-! ## Specification -/

mutual

/-- Substitution in nameless form: a call of a free variable without arguments is replaced. The
replacements are closed nameless forms, so nothing can be captured. -/
def DExpr.subst (τ : Op → Option DExpr) : DExpr → DExpr
  | .atom a => .atom a
  | .op v => .op v
  | .term (.free v) sl [] =>
    match τ v with
    | some d => d
    | none => .term (.free v) sl []
  | .term v sl xs => .term v sl (DExpr.substs τ xs)
  | .node t xs => .node t (DExpr.substs τ xs)

def DExpr.substs (τ : Op → Option DExpr) : List DExpr → List DExpr
  | [] => []
  | x :: xs => DExpr.subst τ x :: DExpr.substs τ xs

end

theorem substs_eq (τ : Op → Option DExpr) (xs : List DExpr) :
    DExpr.substs τ xs = xs.map (DExpr.subst τ) := by
  induction xs with
  | nil => simp [DExpr.substs]
  | cons x xs ih => simp [DExpr.substs, ih]

/-- The nameless forms of the replacements. -/
def Subs.db (G : Sigs) (σ : Subs) (v : Op) : Option DExpr := (σ.lookup v).map (toDB G [])

/-- `v` is bound somewhere inside the expression. -/
inductive BoundIn (G : Sigs) (v : Op) : Expr → Prop where
  | here {o sl xs Bs B} : G.bounds o sl xs = .ok Bs → B ∈ Bs → v ∈ B →
      BoundIn G v (.node (.term o sl) xs)
  | part {t xs} {x : Expr} : x ∈ xs → BoundIn G v x → BoundIn G v (.node t xs)

/-- The variables of `σ` are called without arguments only. -/
inductive Nullary (σ : Subs) : Expr → Prop where
  | atom (a : Atom) : Nullary σ (.atom a)
  | op (o : Op) : Nullary σ (.op o)
  | term {o sl xs} : (σ.lookup o ≠ none → xs = []) → (∀ x ∈ xs, Nullary σ x) →
      Nullary σ (.node (.term o sl) xs)
  | node {t xs} : Tag.isTerm t = false → (∀ x ∈ xs, Nullary σ x) → Nullary σ (.node t xs)

/-- The replacements are well-formed, existed before `n`, and are neither operations nor containers
of operations. -/
structure Subs.Ok (G : Sigs) (σ : Subs) (n : Nat) : Prop where
  wf : ∀ v a, σ.lookup v = some a → Wf G a
  ids : ∀ v a, σ.lookup v = some a → ∀ o ∈ a.ops, o.id < n
  extract : ∀ v a, σ.lookup v = some a → a.extract = []

/-- `B` captures nothing: it contains neither a variable of `σ` nor a free variable of a
replacement. -/
def Subs.Avoids (G : Sigs) (σ : Subs) (p : Op → Prop) : Prop :=
  ∀ v, p v → σ.lookup v = none ∧ ∀ u a, σ.lookup u = some a → ¬ FreeOp G v a

/-! ## Proof -/

theorem evaluates_rel {c : Ctx Nat} {P : Nat → Expr → Expr → Prop} {xs : List Expr}
    (mono : ∀ n m x y, n ≤ m → P n x y → P m x y) (n0 : Nat)
    (h : ∀ x ∈ xs, ∀ n, n0 ≤ n → ∃ y n', evaluate c x n = (.ok y, n') ∧ n ≤ n' ∧ P n' x y) :
    ∀ n, n0 ≤ n → ∃ ys n', evaluates c xs n = (.ok ys, n') ∧ n ≤ n' ∧
      List.Forall₂ (P n') xs ys := by
  induction xs with
  | nil => intro n _; exact ⟨[], n, rfl, Nat.le_refl _, .nil⟩
  | cons x xs ih =>
    intro n hn
    obtain ⟨y, n1, h1, h2, h3⟩ := h x List.mem_cons_self n hn
    obtain ⟨ys, n2, k1, k2, k3⟩ := ih (fun x hx => h x (List.mem_cons_of_mem _ hx)) n1 (by omega)
    refine ⟨y :: ys, n2, ?_, by omega, .cons (mono _ _ _ _ k2 h3) k3⟩
    rw [evaluates, h1]
    simp only
    rw [k1]

theorem evaluates_id {S : Type} {c : Ctx S} {xs : List Expr} {s : S}
    (h : ∀ x ∈ xs, evaluate c x s = (.ok x, s)) : evaluates c xs s = (.ok xs, s) := by
  induction xs with
  | nil => rfl
  | cons x xs ih =>
    rw [evaluates, h x List.mem_cons_self]
    simp only
    rw [ih (fun x hx => h x (List.mem_cons_of_mem _ hx))]

theorem evaluate_plain_id {S : Type} {c : Ctx S} (hc : ∀ o, c.opVal o = o) {G : Sigs} {e : Expr}
    (h : Wf G e) (hp : e.plain = true) (s : S) : evaluate c e s = (.ok e, s) := by
  induction h with
  | atom a => simp [evaluate]
  | op o => simp [evaluate, hc]
  | term => simp [Expr.plain, Tag.isTerm] at hp
  | @node t xs ht hs hw ih =>
    simp only [Expr.plain, Bool.and_eq_true, plainL_iff] at hp
    have := evaluates_id (c := c) (s := s) (fun x hx => ih x hx (hp.2 x hx))
    by_cases hpl : Tag.plain t = true
    · rw [evaluate_plain _ _ _ _ hpl, this]
      simp only
      rw [build_sane ht hs]
    · rcases not_plain (by simpa using hpl) with ⟨o, sl, rfl⟩ | rfl | ⟨m, rfl⟩
      · simp [Tag.isTerm] at ht
      · rw [evaluate]
      · cases hs

theorem plain_of_no_ops {e : Expr} (h : e.ops = []) : e.plain = true := by
  induction e using Expr.ind with
  | atom a => rfl
  | op o => rfl
  | node t xs ih =>
    have hx : ∀ x ∈ xs, x.ops = [] := by
      intro x hx
      rw [List.eq_nil_iff_forall_not_mem]
      intro o ho
      have : o ∈ (Expr.node t xs).ops := Expr.mem_ops_node.2 (.inr ⟨x, hx, ho⟩)
      rw [h] at this
      cases this
    simp only [Expr.plain, Bool.and_eq_true, plainL_iff]
    refine ⟨?_, fun x hx' => ih x hx' (hx x hx')⟩
    cases t with
    | term o sl => simp [Expr.ops] at h
    | _ => rfl

theorem subst_plain {G : Sigs} {τ : Op → Option DExpr} {e : Expr} (h : e.plain = true)
    (E : List (List Op)) : (toDB G E e).subst τ = toDB G E e := by
  induction e using Expr.ind with
  | atom a => simp [toDB, DExpr.subst]
  | op o => simp [toDB, DExpr.subst]
  | node t xs ih =>
    simp only [Expr.plain, Bool.and_eq_true, plainL_iff, Bool.not_eq_true'] at h
    rw [toDB_node _ _ _ _ h.1, DExpr.subst, substs_eq, List.map_map]
    congr 1
    exact List.map_congr_left (fun x hx => ih x hx (h.2 x hx))

theorem forall2_get {P : Expr → Expr → Prop} {xs ys : List Expr} (h : List.Forall₂ P xs ys)
    {k : Nat} {x y : Expr} (hx : xs[k]? = some x) (hy : ys[k]? = some y) : P x y := by
  induction h generalizing k with
  | nil => simp at hx
  | cons h1 _ ih =>
    cases k with
    | zero =>
      simp only [List.getElem?_cons_zero, Option.some.injEq] at hx hy
      subst hx hy; exact h1
    | succ k => exact ih (by simpa using hx) (by simpa using hy)

theorem forall2_map_eq {α : Type} {P : Expr → Expr → Prop} {xs ys : List Expr}
    (h : List.Forall₂ P xs ys)
    {f g : Expr → α} (hfg : ∀ x y, x ∈ xs → P x y → f y = g x) : ys.map f = xs.map g := by
  induction h with
  | nil => rfl
  | cons h1 _ ih =>
    rw [List.map_cons, List.map_cons, hfg _ _ List.mem_cons_self h1,
      ih (fun x y hx => hfg x y (List.mem_cons_of_mem _ hx))]

theorem forall2_mem {P : Expr → Expr → Prop} {xs ys : List Expr} (h : List.Forall₂ P xs ys)
    {y : Expr} (hy : y ∈ ys) : ∃ x ∈ xs, P x y := by
  induction h with
  | nil => cases hy
  | cons h1 _ ih =>
    rcases List.mem_cons.1 hy with rfl | hy
    · exact ⟨_, List.mem_cons_self, h1⟩
    · obtain ⟨x, hx, hp⟩ := ih hy
      exact ⟨x, List.mem_cons_of_mem _ hx, hp⟩

theorem keys_forall2 {P : Expr → Expr → Prop} : ∀ {xs ys : List Expr}, List.Forall₂ P xs ys →
    (∀ x y, x ∈ keys xs → P x y → y = x) → keys ys = keys xs
  | _, _, .nil, _ => rfl
  | _, _, .cons _ .nil, _ => rfl
  | _, _, .cons (a := k) h1 (.cons _ h3), h => by
    simp only [keys]
    rw [h _ _ (by simp [keys]) h1,
      keys_forall2 h3 (fun x y hx => h x y (by simp [keys, hx]))]

/-- The relation between an expression and its value. -/
structure Rel (G : Sigs) (σ : Subs) (n : Nat) (x y : Expr) : Prop where
  wf : Wf G y
  ids : ∀ o ∈ y.ops, o.id < n
  ext : Ext id x y
  plain : x.plain = true → y = x
  db : ∀ E : List (List Op), σ.Avoids G (fun v => ∃ B ∈ E, v ∈ B) →
    toDB G E y = (toDB G E x).subst (σ.db G)

theorem Rel.mono {G : Sigs} {σ : Subs} {n m : Nat} {x y : Expr} (h : n ≤ m) (r : Rel G σ n x y) :
    Rel G σ m x y :=
  ⟨r.wf, fun o ho => Nat.lt_of_lt_of_le (r.ids o ho) h, r.ext, r.plain, r.db⟩

theorem look_avoid {E : List (List Op)} {v : Op} (h : ∀ B ∈ E, v ∉ B) : look E v = .free v := by
  induction E with
  | nil => rfl
  | cons B E ih =>
    rw [look_cons_free]
    exact ⟨h B List.mem_cons_self, ih (fun B hB => h B (List.mem_cons_of_mem _ hB))⟩

theorem subst_term_ne {τ : Op → Option DExpr} {v : DVar} {sl : List Slot} {xs : List DExpr}
    (h : ∀ o, v = .free o → τ o = none) :
    (DExpr.term v sl xs).subst τ = .term v sl (xs.map (DExpr.subst τ)) := by
  rw [← substs_eq]
  cases v with
  | bound i j k => simp [DExpr.subst]
  | free o =>
    cases xs with
    | nil => simp [DExpr.subst, h o rfl, DExpr.substs]
    | cons x xs => simp [DExpr.subst]

theorem forall2_length {P : Expr → Expr → Prop} {xs ys : List Expr} (h : List.Forall₂ P xs ys) :
    xs.length = ys.length := by
  induction h with
  | nil => rfl
  | cons _ _ ih => simp [ih]

theorem bounds_ext {G : Sigs} {o : Op} {sl : List Slot} {xs ys : List Expr} {Bs : List (List Op)}
    (hb : G.bounds o sl xs = .ok Bs) (h : List.Forall₂ (Ext id) xs ys) :
    G.bounds o sl ys = .ok Bs := by
  have := Verif.Scoped.fvsRule_map (r := id) hb (forall2_length h)
    (fun k x y B hx hy _ _ => forall2_get h hx hy) (fun a b _ _ e => e)
  unfold Sigs.bounds
  rw [this]
  simp

theorem forall2_imp {P Q : Expr → Expr → Prop} {xs ys : List Expr} (h : List.Forall₂ P xs ys)
    (hpq : ∀ x y, P x y → Q x y) : List.Forall₂ Q xs ys := by
  induction h with
  | nil => exact .nil
  | cons h1 _ ih => exact .cons (hpq _ _ h1) ih

/-- Evaluation with handlers for variables. -/
theorem evaluate_subst {G : Sigs} {σ : Subs} {n0 : Nat} (hσ : σ.Ok G n0) {e : Expr} (h : Wf G e)
    (hn : Nullary σ e) (hid : ∀ o ∈ e.ops, o.id < n0)
    (hb : σ.Avoids G (fun v => BoundIn G v e)) : ∀ n, n0 ≤ n →
    ∃ r n', evaluate (subCtx G σ) e n = (.ok r, n') ∧ n ≤ n' ∧ Rel G σ n' e r := by
  induction h with
  | atom a =>
    intro n h
    exact ⟨.atom a, n, by simp [evaluate], Nat.le_refl _, .atom a,
      fun o ho => by simp [Expr.ops] at ho, ⟨by simp [Expr.extract], fun o e => by cases e⟩,
      fun _ => rfl, fun E _ => by simp [toDB, DExpr.subst]⟩
  | op o =>
    intro n h
    refine ⟨.op o, n, by simp [evaluate, subCtx], Nat.le_refl _, .op o, ?_,
      ⟨by simp [Expr.extract], fun o' e => by cases e; rfl⟩,
      fun _ => rfl, fun E _ => by simp [toDB, DExpr.subst]⟩
    intro v hv
    have := hid v hv
    omega
  | @term o sl xs Bs hbd hlen hw ih =>
    intro n h
    have hnx : ∀ x ∈ xs, Nullary σ x := by
      cases hn with
      | term _ h => exact h
      | node ht => simp [Tag.isTerm] at ht
    have hn0 : σ.lookup o ≠ none → xs = [] := by
      cases hn with
      | term h _ => exact h
      | node ht => simp [Tag.isTerm] at ht
    obtain ⟨ys, n1, h1, h2, h3⟩ := evaluates_rel (P := Rel G σ) (fun _ _ _ _ h r => r.mono h) n0
      (fun x hx => ih x hx (hnx x hx)
        (fun v hv => hid v (Expr.mem_ops_node.2 (.inr ⟨x, hx, hv⟩)))
        (fun v hv => hb v (.part hx hv))) n h
    cases ho : σ.lookup o with
    | some a =>
      have hxs : xs = [] := hn0 (by rw [ho]; simp)
      subst hxs
      cases h3
      refine ⟨a, n1, ?_, h2, hσ.wf o a ho, ?_, ⟨?_, ?_⟩, ?_, ?_⟩
      · rw [evaluate, h1]
        simp [subCtx, ho]
      · intro v hv
        have := hσ.ids o a ho v hv
        omega
      · rw [hσ.extract o a ho]; simp [Expr.extract]
      · intro v e; cases e
      · intro hp; simp [Expr.plain, Tag.isTerm] at hp
      · intro E hE
        have hl : look E o = .free o := by
          apply look_avoid
          intro B hB hoB
          have := (hE o ⟨B, hB, hoB⟩).1
          rw [ho] at this; cases this
        rw [toDB_term, hl]
        simp only [List.zipIdx_nil, List.map_nil, DExpr.subst, Subs.db, ho, Option.map_some]
        apply toDB_congr (hσ.wf o a ho)
        intro v hv
        rw [look_avoid]
        · rfl
        · intro B hB hvB
          exact (hE v ⟨B, hB, hvB⟩).2 o a ho hv
    | none =>
      have hbd' : G.bounds o sl ys = .ok Bs := bounds_ext hbd (forall2_imp h3 (fun _ _ r => r.ext))
      have hlen' : sl.length = ys.length := by rw [hlen, forall2_length h3]
      have hwy : ∀ y ∈ ys, Wf G y := by
        intro y hy
        obtain ⟨x, _, r⟩ := forall2_mem h3 hy
        exact r.wf
      have hidy : ∀ y ∈ ys, ∀ v ∈ y.ops, v.id < n1 := by
        intro y hy
        obtain ⟨x, _, r⟩ := forall2_mem h3 hy
        exact r.ids
      obtain ⟨ρ, n2, k1, k2, k3, k4, k5⟩ := defdata_spec hbd' hlen' hwy hidy
      have bt := built hbd' hlen' hwy hidy k1 k3 k4 k5
      generalize hz : Expr.node (.term o sl) (List.zipWith (renameIn ρ) ys Bs) = z at k2 bt
      refine ⟨z, n2, ?_, by omega, bt.wf, ?_, ⟨?_, ?_⟩, ?_, ?_⟩
      · rw [evaluate, h1]
        simp only [subCtx, ho, callDefdata, id, k2]
      · intro v hv
        rcases bt.ids v hv with rfl | h'
        · have := hid v (Expr.mem_ops_node.2 (.inl ⟨_, rfl⟩))
          omega
        · exact h'
      · rw [← hz]; simp [Expr.extract]
      · intro v e; cases e
      · intro hp; simp [Expr.plain, Tag.isTerm] at hp
      · intro E hE
        rw [bt.db, toDB_term, toDB_term, bound_ok hbd, bound_ok hbd', subst_term_ne]
        · congr 1
          rw [List.map_map]
          apply List.ext_getElem?
          intro k
          simp only [List.getElem?_map, List.getElem?_zipIdx, Nat.zero_add]
          cases hx : xs[k]? with
          | none =>
            have : ys[k]? = none := by
              rw [List.getElem?_eq_none_iff] at hx ⊢
              rw [← forall2_length h3]; exact hx
            rw [this]; rfl
          | some x =>
            have hkl : k < xs.length := by
              rw [List.getElem?_eq_some_iff] at hx; exact hx.1
            have hy : ys[k]? = some (ys[k]'(by rw [← forall2_length h3]; exact hkl)) :=
              List.getElem?_eq_getElem _
            generalize ys[k]'(by rw [← forall2_length h3]; exact hkl) = y at hy
            rw [hy]
            simp only [Option.map_some, Option.some.injEq, Function.comp]
            refine (forall2_get h3 hx hy).db _ ?_
            rintro v ⟨B, hB, hvB⟩
            rcases List.mem_cons.1 hB with rfl | hB
            · rw [List.getD_eq_getElem?_getD] at hvB
              cases hBk : Bs[k]? with
              | none => rw [hBk] at hvB; cases hvB
              | some B =>
                rw [hBk] at hvB
                exact hb v (.here hbd (List.mem_of_getElem? hBk) hvB)
            · exact hE v ⟨B, hB, hvB⟩
        · intro v hv
          have := look_free hv
          subst this
          simp [Subs.db, ho]
  | @node t xs ht hs hw ih =>
    intro n h
    have hnx : ∀ x ∈ xs, Nullary σ x := by
      cases hn with
      | term => simp [Tag.isTerm] at ht
      | node _ h => exact h
    obtain ⟨ys, n1, h1, h2, h3⟩ := evaluates_rel (P := Rel G σ) (fun _ _ _ _ h r => r.mono h) n0
      (fun x hx => ih x hx (hnx x hx)
        (fun v hv => hid v (Expr.mem_ops_node.2 (.inr ⟨x, hx, hv⟩)))
        (fun v hv => hb v (.part hx hv))) n h
    by_cases hpl : Tag.plain t = true
    · have hsy : Tag.Sane t ys := by
        cases t with
        | term o sl => simp [Tag.isTerm] at ht
        | seq k => cases k <;> exact hs
        | set => simp [Tag.plain] at hpl
        | map k =>
          obtain ⟨a, b, c⟩ := hs
          have hk : keys ys = keys xs := keys_forall2 h3 (fun x y hx r => r.plain (c x hx))
          exact ⟨pairs_of_length rfl (forall2_length h3) a, by rw [hk]; exact b,
            by rw [hk]; exact c⟩
        | named c fs => trivial
        | data c fs => exact hs
      refine ⟨.node t ys, n1, ?_, h2, .node ht hsy ?_, ?_, ⟨?_, ?_⟩, ?_, ?_⟩
      · rw [evaluate_plain _ _ _ _ hpl, h1]
        simp only
        rw [build_sane ht hsy]
      · intro y hy
        obtain ⟨x, _, r⟩ := forall2_mem h3 hy
        exact r.wf
      · intro v hv
        rcases Expr.mem_ops_node.1 hv with ⟨sl, rfl⟩ | ⟨y, hy, hv⟩
        · simp [Tag.isTerm] at ht
        · obtain ⟨x, _, r⟩ := forall2_mem h3 hy
          exact r.ids v hv
      · rw [Expr.extract_node, Expr.extract_node]
        have : Expr.extractL ys = Expr.extractL xs := by
          rw [Expr.extractL_eq, Expr.extractL_eq, List.flatMap_def, List.flatMap_def]
          congr 1
          exact forall2_map_eq h3 (fun x y _ r => by rw [r.ext.extract]; simp)
        rw [this]; simp
      · intro v e; cases e
      · intro hp
        simp only [Expr.plain, Bool.and_eq_true, plainL_iff] at hp
        congr 1
        have := forall2_map_eq (f := id) (g := id) h3 (fun x y hx r => r.plain (hp.2 x hx))
        simpa using this
      · intro E hE
        rw [toDB_node _ _ _ _ ht, toDB_node _ _ _ _ ht, DExpr.subst, substs_eq, List.map_map]
        congr 1
        exact forall2_map_eq h3 (fun x y _ r => r.db E hE)
    · rcases not_plain (by simpa using hpl) with ⟨o, sl, rfl⟩ | rfl | ⟨m, rfl⟩
      · simp [Tag.isTerm] at ht
      · have hop : (Expr.node .set xs).ops = [] := by simp only [Expr.ops]; exact hs
        refine ⟨.node .set xs, n, by rw [evaluate], Nat.le_refl _, .node ht hs hw, ?_, ⟨?_, ?_⟩,
          fun _ => rfl, fun E _ => (subst_plain (plain_of_no_ops hop) E).symm⟩
        · intro v hv; rw [hop] at hv; cases hv
        · simp
        · intro v e; cases e
      · cases hs

/-- Nothing is replaced. -/
theorem subst_none (d : DExpr) : d.subst (fun _ => none) = d := by
  refine DExpr.rec (motive_1 := fun d => d.subst (fun _ => none) = d)
    (motive_2 := fun ds => ds.map (DExpr.subst (fun _ => none)) = ds) ?_ ?_ ?_ ?_ ?_ ?_ d
  · intro a; simp [DExpr.subst]
  · intro v; simp [DExpr.subst]
  · intro v sl xs ih
    rw [subst_term_ne (fun _ _ => rfl), ih]
  · intro t xs ih
    rw [DExpr.subst, substs_eq, ih]
  · rfl
  · intro x xs hx hxs
    rw [List.map_cons, hx, hxs]

end Verif.Terms
