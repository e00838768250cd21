import Verif.Terms.BindProps

/-!
# Handling variables in stages

`with handler({x: ...}): u = evaluate(t)` followed by `with handler({y: ...}): evaluate(u)`
(`ops/semantics.py` 106-115, 118-148, 169-215): when the two stages together are one
substitution, when they are one evaluation with both handlers, and when their order does not matter.
The model of evaluation under handlers for variables is `subCtx` of `Model.lean`.
-/

namespace Verif.Terms

open Verif.Scoped (Sig Err TyVar Ext)

/-! ## Specification -/

/-- First replace by `τ`, then by `τ'`. -/
def thenSubst (τ τ' : Op → Option DExpr) (v : Op) : Option DExpr :=
  match τ v with
  | some d => some (d.subst τ')
  | none => τ' v

/-- Every operation handled by `σ` existed before `n`. -/
def Subs.Old (σ : Subs) (n : Nat) : Prop := ∀ v, σ.lookup v ≠ none → v.id < n

/-- `v` is bound inside a replacement. -/
def Subs.Binds (G : Sigs) (σ : Subs) (v : Op) : Prop :=
  ∃ u a, σ.lookup u = some a ∧ BoundIn G v a

/-- No replacement of `σ` has a free variable that is handled by `σ'`. -/
def Subs.Apart (G : Sigs) (σ σ' : Subs) : Prop :=
  ∀ u a, σ.lookup u = some a → ∀ v, σ'.lookup v ≠ none → ¬ FreeOp G v a

/-! ## Two substitutions are one -/

theorem subst_subst (τ τ' : Op → Option DExpr) (d : DExpr) :
    (d.subst τ).subst τ' = d.subst (thenSubst τ τ') := by
  refine DExpr.rec (motive_1 := fun d => (d.subst τ).subst τ' = d.subst (thenSubst τ τ'))
    (motive_2 := fun ds => (ds.map (DExpr.subst τ)).map (DExpr.subst τ') =
      ds.map (DExpr.subst (thenSubst τ τ'))) ?_ ?_ ?_ ?_ ?_ ?_ d
  · intro a; simp [DExpr.subst]
  · intro v; simp [DExpr.subst]
  · intro v sl xs ih
    cases v with
    | bound i j k =>
      rw [subst_term_ne (by intro o e; cases e), subst_term_ne (by intro o e; cases e),
        subst_term_ne (by intro o e; cases e), ih]
    | free o =>
      cases xs with
      | nil =>
        cases h : τ o with
        | some a => simp [DExpr.subst, h, thenSubst]
        | none => simp [DExpr.subst, h, thenSubst]
      | cons x xs =>
        simp only [DExpr.subst, DExpr.substs, substs_eq, List.map_cons] at ih ⊢
        rw [ih]
  · intro t xs ih
    simp only [DExpr.subst, substs_eq]
    rw [ih]
  · rfl
  · intro x xs hx hxs
    rw [List.map_cons, List.map_cons, List.map_cons, hx, hxs]

/-- Replacements that do not occur change nothing. -/
theorem subst_unused {τ : Op → Option DExpr} {d : DExpr}
    (h : ∀ v, d.has v = true → τ v = none) : d.subst τ = d := by
  revert h
  refine DExpr.rec (motive_1 := fun d => (∀ v, d.has v = true → τ v = none) → d.subst τ = d)
    (motive_2 := fun ds => (∀ v, DExpr.hasL v ds = true → τ v = none) →
      ds.map (DExpr.subst τ) = ds) ?_ ?_ ?_ ?_ ?_ ?_ d
  · intro a _; simp [DExpr.subst]
  · intro v _; simp [DExpr.subst]
  · intro v sl xs ih h
    rw [subst_term_ne, ih (fun v hv => h v (by simp [DExpr.has, hv]))]
    intro o e
    exact h o (by simp [DExpr.has, e])
  · intro t xs ih h
    rw [DExpr.subst, substs_eq, ih (fun v hv => h v (by simpa [DExpr.has] using hv))]
  · intro _; rfl
  · intro x xs hx hxs h
    rw [List.map_cons, hx (fun v hv => h v (by simp [DExpr.hasL, hv])),
      hxs (fun v hv => h v (by simp [DExpr.hasL, hv]))]

theorem subst_congr {τ τ' : Op → Option DExpr} (h : ∀ v, τ v = τ' v) (d : DExpr) :
    d.subst τ = d.subst τ' := by
  have : τ = τ' := funext h
  rw [this]

/-- The free variables after a substitution. -/
theorem has_subst {τ : Op → Option DExpr} {v : Op} {d : DExpr} (h : (d.subst τ).has v = true) :
    d.has v = true ∨ ∃ u a, τ u = some a ∧ a.has v = true := by
  revert h
  refine DExpr.rec (motive_1 := fun d => (d.subst τ).has v = true →
      d.has v = true ∨ ∃ u a, τ u = some a ∧ a.has v = true)
    (motive_2 := fun ds => DExpr.hasL v (ds.map (DExpr.subst τ)) = true →
      DExpr.hasL v ds = true ∨ ∃ u a, τ u = some a ∧ a.has v = true) ?_ ?_ ?_ ?_ ?_ ?_ d
  · intro a h; simp [DExpr.subst, DExpr.has] at h
  · intro w h; simp only [DExpr.subst] at h; exact .inl h
  · intro w sl xs ih h
    have go : (DExpr.term w sl (xs.map (DExpr.subst τ))).has v = true →
        (DExpr.term w sl xs).has v = true ∨ ∃ u a, τ u = some a ∧ a.has v = true := by
      intro h
      simp only [DExpr.has, Bool.or_eq_true, decide_eq_true_eq] at h ⊢
      rcases h with h | h
      · exact .inl (.inl h)
      · rcases ih h with h | h
        · exact .inl (.inr h)
        · exact .inr h
    cases w with
    | bound i j k =>
      rw [subst_term_ne (by intro o e; cases e)] at h
      exact go h
    | free o =>
      cases xs with
      | nil =>
        cases e : τ o with
        | some a =>
          simp only [DExpr.subst, e] at h
          exact .inr ⟨o, a, e, h⟩
        | none =>
          simp only [DExpr.subst, e] at h
          exact .inl h
      | cons x xs =>
        simp only [DExpr.subst, substs_eq] at h
        exact go h
  · intro t xs ih h
    simp only [DExpr.subst, substs_eq, DExpr.has] at h ⊢
    exact ih h
  · intro h; simp [DExpr.hasL] at h
  · intro x xs hx hxs h
    simp only [List.map_cons, DExpr.hasL, Bool.or_eq_true] at h ⊢
    rcases h with h | h
    · rcases hx h with h | h
      · exact .inl (.inl h)
      · exact .inr h
    · rcases hxs h with h | h
      · exact .inl (.inr h)
      · exact .inr h

/-! ## The binders of a value -/

theorem boundIn_ops {G : Sigs} {v : Op} {e : Expr} (h : BoundIn G v e) : v ∈ e.ops := by
  induction h with
  | here hb hB hv =>
    obtain ⟨x, hx, hvx⟩ := bounds_source hb _ hB v hv
    exact Expr.mem_ops_node.2 (.inr ⟨x, hx, hvx⟩)
  | part hx _ ih => exact Expr.mem_ops_node.2 (.inr ⟨_, hx, ih⟩)

theorem freeOp_ops {G : Sigs} {v : Op} {e : Expr} (h : FreeOp G v e) : v ∈ e.ops := by
  induction h with
  | value => simp [Expr.ops]
  | head => exact Expr.mem_ops_node.2 (.inl ⟨_, rfl⟩)
  | arg _ hx _ _ _ ih => exact Expr.mem_ops_node.2 (.inr ⟨_, List.mem_of_getElem? hx, ih⟩)
  | part _ hx _ ih => exact Expr.mem_ops_node.2 (.inr ⟨_, hx, ih⟩)

theorem boundIn_renamed {G : Sigs} {r : Op → Op} {e : Expr} (h : Wf G e) (hk : KindPres r)
    (hi : InjOn r (fun o => o ∈ e.ops)) {v : Op} (hv : BoundIn G v (rename r e)) :
    ∃ u, BoundIn G u e ∧ v = r u := by
  induction h with
  | atom a => simp only [rename] at hv; cases hv
  | op o => simp only [rename] at hv; cases hv
  | @term o sl xs Bs hb hl _ ih =>
    rw [rename_term] at hv
    have hi' : InjOn r (fun o => ∃ x ∈ xs, o ∈ x.ops) :=
      hi.mono (fun o ho => Expr.mem_ops_node.2 (.inr ho))
    cases hv with
    | here hb' hB hvB =>
      rw [bounds_rename hb hk hi'] at hb'
      cases hb'
      obtain ⟨B, hB', rfl⟩ := List.mem_map.1 hB
      obtain ⟨u, hu, rfl⟩ := List.mem_map.1 hvB
      exact ⟨u, .here hb hB' hu, rfl⟩
    | part hx hvx =>
      obtain ⟨x, hx', rfl⟩ := List.mem_map.1 hx
      obtain ⟨u, hu, e⟩ := ih x hx' (hi'.mono (fun o ho => ⟨x, hx', ho⟩)) hvx
      exact ⟨u, .part hx' hu, e⟩
  | @node t xs ht hs _ ih =>
    rw [rename_node _ _ _ ht] at hv
    have hi' : InjOn r (fun o => ∃ x ∈ xs, o ∈ x.ops) :=
      hi.mono (fun o ho => Expr.mem_ops_node.2 (.inr ho))
    cases hv with
    | here => simp [Tag.isTerm] at ht
    | part hx hvx =>
      obtain ⟨x, hx', rfl⟩ := List.mem_map.1 hx
      obtain ⟨u, hu, e⟩ := ih x hx' (hi'.mono (fun o ho => ⟨x, hx', ho⟩)) hvx
      exact ⟨u, .part hx' hu, e⟩

theorem nullary_rename {σ : Subs} {r : Op → Op}
    (hr : ∀ o, r o = o ∨ σ.lookup (r o) = none) {e : Expr} (h : Nullary σ e) :
    Nullary σ (rename r e) := by
  induction h with
  | atom a => simp only [rename]; exact .atom a
  | op o => simp only [rename]; exact .op _
  | @term o sl xs h1 _ ih =>
    rw [rename_term]
    refine .term ?_ ?_
    · intro h
      rcases hr o with e | e
      · rw [e] at h
        rw [h1 h]; rfl
      · exact absurd e h
    · intro y hy
      obtain ⟨x, hx, rfl⟩ := List.mem_map.1 hy
      exact ih x hx
  | @node t xs ht _ ih =>
    rw [rename_node _ _ _ ht]
    refine .node ht ?_
    intro y hy
    obtain ⟨x, hx, rfl⟩ := List.mem_map.1 hy
    exact ih x hx

theorem nullary_term {σ : Subs} {o : Op} {sl : List Slot} {xs : List Expr}
    (h : Nullary σ (.node (.term o sl) xs)) :
    (σ.lookup o ≠ none → xs = []) ∧ ∀ x ∈ xs, Nullary σ x := by
  cases h with
  | term h1 h2 => exact ⟨h1, h2⟩
  | node ht => simp [Tag.isTerm] at ht

theorem nullary_node {σ : Subs} {t : Tag} {xs : List Expr} (ht : Tag.isTerm t = false)
    (h : Nullary σ (.node t xs)) : ∀ x ∈ xs, Nullary σ x := by
  cases h with
  | term => simp [Tag.isTerm] at ht
  | node _ h => exact h

/-- The operations bound by a term that `defdata` builds. -/
theorem built_bounds {G : Sigs} {o : Op} {sl : List Slot} {xs : List Expr} {n : Nat}
    {Bs : List (List Op)} {ρ : Op → Op} (hb : G.bounds o sl xs = .ok Bs)
    (hl : sl.length = xs.length) (hid : ∀ x ∈ xs, ∀ o ∈ x.ops, o.id < n)
    (hi : InjOn ρ (fun o => o.id < n)) :
    G.bounds o sl (List.zipWith (renameIn ρ) xs Bs) = .ok (Bs.map (List.map ρ)) := by
  have hlen : xs.length = Bs.length := by rw [← hl, Verif.Scoped.fvsRule_length hb]
  have src := bounds_source hb
  refine Verif.Scoped.fvsRule_map hb (by simp [hlen]) ?_ ?_
  · intro k x y B hx hy hB hsub
    rw [zipWith_getElem?, hx, hB] at hy
    cases hy
    constructor
    · unfold renameIn
      rw [extract_rename]
      exact List.map_congr_left (fun v hv => by rw [if_pos (hsub v hv)])
    · intro v e
      subst e
      unfold renameIn
      simp only [rename]
      rw [if_pos (hsub v (by simp [Expr.extract]))]
  · rintro a b ⟨B, hB, ha⟩ ⟨B', hB', hb'⟩ e
    obtain ⟨x, hx, hax⟩ := src B hB a ha
    obtain ⟨x', hx', hbx⟩ := src B' hB' b hb'
    exact hi a b (hid x hx a hax) (hid x' hx' b hbx) e

theorem zipWith_mem {ρ : Op → Op} {xs : List Expr} {Bs : List (List Op)} {y : Expr}
    (hy : y ∈ List.zipWith (renameIn ρ) xs Bs) : ∃ x ∈ xs, ∃ B ∈ Bs, y = renameIn ρ x B := by
  obtain ⟨k, hk⟩ := List.mem_iff_getElem?.1 hy
  rw [zipWith_getElem?] at hk
  cases hx : xs[k]? with
  | none => rw [hx] at hk; cases hk
  | some x =>
    cases hB : Bs[k]? with
    | none => rw [hx, hB] at hk; cases hk
    | some B =>
      rw [hx, hB] at hk
      cases hk
      exact ⟨x, List.mem_of_getElem? hx, B, List.mem_of_getElem? hB, rfl⟩

/-- What the second stage needs to know about the value of the first stage: its bound variables are
new or bound in a replacement, and the variables of the second stage have no arguments. -/
structure Shape (G : Sigs) (σ σ' : Subs) (n0 : Nat) (y : Expr) : Prop where
  bound : ∀ v, BoundIn G v y → n0 ≤ v.id ∨ σ.Binds G v
  null : Nullary σ' y

theorem evaluate_shape {G : Sigs} {σ σ' : Subs} {n0 : Nat} (hσ : σ.Ok G n0) (hold : σ'.Old n0)
    (hnv : ∀ u a, σ.lookup u = some a → Nullary σ' a) {e : Expr} (h : Wf G e)
    (hn : Nullary σ e) (hn' : Nullary σ' e) (hid : ∀ o ∈ e.ops, o.id < n0)
    (hb : σ.Avoids G (fun v => BoundIn G v e)) : ∀ n, n0 ≤ n →
    ∃ r n', evaluate (subCtx G σ) e n = (.ok r, n') ∧ n ≤ n' ∧
      (Rel G σ n' e r ∧ Shape G σ σ' n0 r) := by
  induction h with
  | atom a =>
    intro n h
    obtain ⟨r, n', h1, h2, h3⟩ := evaluate_subst hσ (.atom a) hn hid hb n h
    refine ⟨r, n', h1, h2, h3, ?_⟩
    rw [h3.plain rfl]
    exact ⟨fun v hv => (by cases hv), .atom a⟩
  | op o =>
    intro n h
    obtain ⟨r, n', h1, h2, h3⟩ := evaluate_subst hσ (.op o) hn hid hb n h
    refine ⟨r, n', h1, h2, h3, ?_⟩
    rw [h3.plain rfl]
    exact ⟨fun v hv => (by cases hv), .op o⟩
  | @term o sl xs Bs hbd hlen hw ih =>
    intro n h
    obtain ⟨r, n', h1, h2, h3⟩ := evaluate_subst hσ (.term hbd hlen hw) hn hid hb n h
    refine ⟨r, n', h1, h2, h3, ?_⟩
    obtain ⟨hn0, hnx⟩ := nullary_term hn
    obtain ⟨hn0', hnx'⟩ := nullary_term hn'
    obtain ⟨ys, n1, k1, k2, k3⟩ := evaluates_rel
      (P := fun n x y => Rel G σ n x y ∧ Shape G σ σ' n0 y)
      (fun _ _ _ _ h r => ⟨r.1.mono h, r.2⟩) n0
      (fun x hx => ih x hx (hnx x hx) (hnx' x hx)
        (fun v hv => hid v (Expr.mem_ops_node.2 (.inr ⟨x, hx, hv⟩)))
        (fun v hv => hb v (.part hx hv))) n h
    cases ho : σ.lookup o with
    | some a =>
      have hxs : xs = [] := hn0 (by rw [ho]; simp)
      subst hxs
      cases k3
      rw [evaluate, k1] at h1
      simp only [subCtx, ho, if_true, Prod.mk.injEq, Except.ok.injEq] at h1
      rw [← h1.1]
      exact ⟨fun v hv => .inr ⟨o, a, ho, hv⟩, hnv o a ho⟩
    | none =>
      have hbd' : G.bounds o sl ys = .ok Bs :=
        bounds_ext hbd (forall2_imp k3 (fun _ _ r => r.1.ext))
      have hlen' : sl.length = ys.length := by rw [hlen, forall2_length k3]
      have hwy : ∀ y ∈ ys, Wf G y := by
        intro y hy
        obtain ⟨x, _, r⟩ := forall2_mem k3 hy
        exact r.1.wf
      have hidy : ∀ y ∈ ys, ∀ v ∈ y.ops, v.id < n1 := by
        intro y hy
        obtain ⟨x, _, r⟩ := forall2_mem k3 hy
        exact r.1.ids
      obtain ⟨ρ, n2, j1, j2, j3, j4, j5⟩ := defdata_spec hbd' hlen' hwy hidy
      rw [evaluate, k1] at h1
      simp only [subCtx, ho, callDefdata, id, j2, Prod.mk.injEq, Except.ok.injEq] at h1
      rw [← h1.1]
      have hfB : ∀ B ∈ Bs, ∀ v ∈ B, n1 ≤ (ρ v).id :=
        fun B hB v hv => (j3 v (List.mem_flatten.2 ⟨B, hB, hv⟩)).1
      constructor
      · intro v hv
        cases hv with
        | here hb' hB hvB =>
          rw [built_bounds hbd' hlen' hidy j5] at hb'
          cases hb'
          obtain ⟨B, hB', rfl⟩ := List.mem_map.1 hB
          obtain ⟨u, hu, rfl⟩ := List.mem_map.1 hvB
          have := hfB B hB' u hu
          exact .inl (by omega)
        | part hx hvx =>
          obtain ⟨y, hy, B, hB, rfl⟩ := zipWith_mem hx
          obtain ⟨u, hu, e⟩ := boundIn_renamed (hwy y hy) (renB_kind j4 B)
            ((renB_inj j5 (fun v hv => hfB B hB v hv)).mono (fun o ho => hidy y hy o ho)) hvx
          unfold renB at e
          split at e
          · rename_i huB
            have := hfB B hB u huB
            rw [e]
            exact .inl (by omega)
          · rw [e]
            obtain ⟨x, _, r⟩ := forall2_mem k3 hy
            exact r.2.bound u hu
      · refine .term ?_ ?_
        · intro h
          have hxs := hn0' h
          subst hxs
          cases k3
          simp
        · intro z hz
          obtain ⟨y, hy, B, hB, rfl⟩ := zipWith_mem hz
          obtain ⟨x, _, r⟩ := forall2_mem k3 hy
          refine nullary_rename ?_ r.2.null
          intro o
          by_cases hoB : o ∈ B
          · right
            rw [if_pos hoB]
            have := hfB B hB o hoB
            by_cases hc : σ'.lookup (ρ o) = none
            · exact hc
            · have := hold _ hc
              omega
          · left; rw [if_neg hoB]
  | @node t xs ht hs hw ih =>
    intro n h
    obtain ⟨r, n', h1, h2, h3⟩ := evaluate_subst hσ (.node ht hs hw) hn hid hb n h
    refine ⟨r, n', h1, h2, h3, ?_⟩
    have hnx := nullary_node ht hn
    have hnx' := nullary_node ht hn'
    obtain ⟨ys, n1, k1, k2, k3⟩ := evaluates_rel
      (P := fun n x y => Rel G σ n x y ∧ Shape G σ σ' n0 y)
      (fun _ _ _ _ h r => ⟨r.1.mono h, r.2⟩) n0
      (fun x hx => ih x hx (hnx x hx) (hnx' x hx)
        (fun v hv => hid v (Expr.mem_ops_node.2 (.inr ⟨x, hx, hv⟩)))
        (fun v hv => hb v (.part hx hv))) n h
    by_cases hpl : Tag.plain t = true
    · rw [evaluate_plain _ _ _ _ hpl, k1] at h1
      simp only at h1
      have hr : r = .node t ys := by
        have hsy : Tag.Sane t ys := by
          cases t with
          | term o sl => simp [Tag.isTerm] at ht
          | seq k => cases k <;> exact hs
          | set => simp [Tag.plain] at hpl
          | map k =>
            obtain ⟨a, b, c⟩ := hs
            have hk : keys ys = keys xs := keys_forall2 k3 (fun x y hx r => r.1.plain (c x hx))
            exact ⟨pairs_of_length rfl (forall2_length k3) a, by rw [hk]; exact b,
              by rw [hk]; exact c⟩
          | named c fs => trivial
          | data c fs => exact hs
        rw [build_sane ht hsy] at h1
        simp only [Prod.mk.injEq, Except.ok.injEq] at h1
        exact h1.1.symm
      rw [hr]
      constructor
      · intro v hv
        cases hv with
        | here => simp [Tag.isTerm] at ht
        | part hx hvx =>
          obtain ⟨x, _, r⟩ := forall2_mem k3 hx
          exact r.2.bound v hvx
      · refine .node ht ?_
        intro y hy
        obtain ⟨x, _, r⟩ := forall2_mem k3 hy
        exact r.2.null
    · rcases not_plain (by simpa using hpl) with ⟨o, sl, rfl⟩ | rfl | ⟨m, rfl⟩
      · simp [Tag.isTerm] at ht
      · have hop : (Expr.node .set xs).ops = [] := by simp only [Expr.ops]; exact hs
        rw [h3.plain (plain_of_no_ops hop)]
        refine ⟨fun v hv => ?_, hn'⟩
        have := boundIn_ops hv
        rw [hop] at this
        cases this
      · cases hs

/-! ## C105 -/

theorem avoids_nil {G : Sigs} {σ : Subs} : σ.Avoids G (fun v => ∃ B ∈ ([] : List (List Op)), v ∈ B) :=
  fun v ⟨B, hB, _⟩ => by cases hB

theorem old_avoids {G : Sigs} {σ σ' : Subs} {n0 : Nat} (hσ' : σ'.Ok G n0) (hold : σ'.Old n0)
    (hbv : σ'.Avoids G (σ.Binds G)) {r : Expr} (h : Shape G σ σ' n0 r) :
    σ'.Avoids G (fun v => BoundIn G v r) := by
  intro v hv
  rcases h.bound v hv with h | h
  · refine ⟨?_, ?_⟩
    · by_cases hc : σ'.lookup v = none
      · exact hc
      · have := hold v hc
        omega
    · intro u a hu hf
      have := hσ'.ids u a hu v (freeOp_ops hf)
      omega
  · exact hbv v h

/-- C105: evaluating with handlers for some variables, and the result with handlers for other
variables, is one substitution: the replacements of the first stage, in which the second stage has
replaced its variables, and the replacements of the second stage. Binders inside the expression may
bind variables of the second stage: the first evaluation renames them. -/
theorem C105_stages_partial (G : Sigs) (σ σ' : Subs) (e : Expr) (n : Nat)
    (hσ : σ.Ok G n) (hσ' : σ'.Ok G n) (hold : σ'.Old n)
    (hw : Wf G e) (hid : ∀ o ∈ e.ops, o.id < n)
    (hn : Nullary σ e) (hn' : Nullary σ' e) (hnv : ∀ u a, σ.lookup u = some a → Nullary σ' a)
    (hb : σ.Avoids G (fun v => BoundIn G v e)) (hbv : σ'.Avoids G (σ.Binds G)) :
    ∃ r n1 r' n2, evaluate (subCtx G σ) e n = (.ok r, n1) ∧
      evaluate (subCtx G σ') r n1 = (.ok r', n2) ∧
      toDB G [] r' = (toDB G [] e).subst (thenSubst (σ.db G) (σ'.db G)) := by
  obtain ⟨r, n1, h1, h2, h3, h4⟩ := evaluate_shape hσ hold hnv hw hn hn' hid hb n (Nat.le_refl _)
  have ok' : σ'.Ok G n1 :=
    ⟨hσ'.wf, fun v a h o ho => Nat.lt_of_lt_of_le (hσ'.ids v a h o ho) h2, hσ'.extract⟩
  obtain ⟨r', n2, k1, k2, k3⟩ := evaluate_subst ok' h3.wf h4.null h3.ids
    (old_avoids hσ' hold hbv h4) n1 (Nat.le_refl _)
  refine ⟨r, n1, r', n2, h1, k1, ?_⟩
  rw [k3.db [] avoids_nil, h3.db [] avoids_nil, subst_subst]

theorem db_append (G : Sigs) (σ σ' : Subs) (v : Op) :
    Subs.db G (σ ++ σ') v = (σ.db G v).or (σ'.db G v) := by
  unfold Subs.db
  rw [List.lookup_append]
  cases σ.lookup v <;> rfl

theorem nullary_append {σ σ' τ : Subs} (hτ : ∀ v, τ.lookup v ≠ none → σ.lookup v ≠ none) {e : Expr}
    (h : Nullary σ e) (h' : Nullary σ' e) : Nullary (τ ++ σ') e := by
  induction h with
  | atom a => exact .atom a
  | op o => exact .op o
  | @term o sl xs h1 _ ih =>
    obtain ⟨k1, k2⟩ := nullary_term h'
    refine .term ?_ (fun x hx => ih x hx (k2 x hx))
    intro h
    rw [List.lookup_append] at h
    by_cases hc : τ.lookup o = none
    · rw [hc] at h
      exact k1 h
    · exact h1 (hτ o hc)
  | @node t xs ht _ ih =>
    exact .node ht (fun x hx => ih x hx (nullary_node ht h' x hx))

/-- One evaluation with the handlers of both stages. -/
theorem at_once {G : Sigs} {σ σ' τ : Subs} {e : Expr} {m : Nat} (hτ : τ.Ok G m) (hσ' : σ'.Ok G m)
    (hdb : ∀ v, τ.db G v = (σ.db G v).map (DExpr.subst (σ'.db G)))
    (hwσ : ∀ u a, σ.lookup u = some a → Wf G a)
    (hw : Wf G e) (hid : ∀ o ∈ e.ops, o.id < m) (hn : Nullary σ e) (hn' : Nullary σ' e)
    (hb : σ.Avoids G (fun v => BoundIn G v e)) (hb' : σ'.Avoids G (fun v => BoundIn G v e)) :
    ∃ r n', evaluate (subCtx G (τ ++ σ')) e m = (.ok r, n') ∧
      toDB G [] r = (toDB G [] e).subst (thenSubst (σ.db G) (σ'.db G)) := by
  have hnone : ∀ v, τ.lookup v = none ↔ σ.lookup v = none := by
    intro v
    have := hdb v
    unfold Subs.db at this
    cases h1 : τ.lookup v <;> cases h2 : σ.lookup v <;> simp [h1, h2] at this ⊢
  have hlk : ∀ v a, (τ ++ σ').lookup v = some a → τ.lookup v = some a ∨ σ'.lookup v = some a := by
    intro v a h
    rw [List.lookup_append] at h
    cases hc : τ.lookup v with
    | none => rw [hc] at h; exact .inr h
    | some b => rw [hc] at h; exact .inl h
  have ok : Subs.Ok G (τ ++ σ') m := by
    refine ⟨fun v a h => ?_, fun v a h => ?_, fun v a h => ?_⟩
    · rcases hlk v a h with h | h
      · exact hτ.wf v a h
      · exact hσ'.wf v a h
    · rcases hlk v a h with h | h
      · exact hτ.ids v a h
      · exact hσ'.ids v a h
    · rcases hlk v a h with h | h
      · exact hτ.extract v a h
      · exact hσ'.extract v a h
  have av : Subs.Avoids G (τ ++ σ') (fun v => BoundIn G v e) := by
    intro v hv
    obtain ⟨a1, a2⟩ := hb v hv
    obtain ⟨b1, b2⟩ := hb' v hv
    refine ⟨?_, ?_⟩
    · rw [List.lookup_append, (hnone v).2 a1, b1]; rfl
    · intro u a hu hf
      rcases hlk u a hu with h | h
      · have hd := hdb u
        have hh := (has_toDB (v := v) (hτ.wf u a h) []).2 ⟨hf, rfl⟩
        unfold Subs.db at hd
        rw [h] at hd
        cases hc : σ.lookup u with
        | none => rw [hc] at hd; cases hd
        | some a0 =>
          rw [hc] at hd
          simp only [Option.map_some, Option.some.injEq] at hd
          rw [hd] at hh
          rcases has_subst hh with hh | ⟨w, d, hw', hh⟩
          · exact a2 u a0 hc ((has_toDB (hwσ u a0 hc) []).1 hh).1
          · simp only [Option.map_eq_some_iff] at hw'
            obtain ⟨a1, h1, rfl⟩ := hw'
            exact b2 w a1 h1 ((has_toDB (hσ'.wf w a1 h1) []).1 hh).1
      · exact b2 u a h hf
  obtain ⟨r, n', k1, k2, k3⟩ := evaluate_subst ok hw
    (nullary_append (fun v h hc => h ((hnone v).2 hc)) hn hn') hid av m (Nat.le_refl _)
  refine ⟨r, n', k1, ?_⟩
  rw [k3.db [] avoids_nil]
  apply subst_congr
  intro v
  rw [db_append, hdb]
  unfold thenSubst
  cases σ.db G v <;> rfl

/-- C105: instead of in two stages, the expression can be evaluated once with the handlers of both,
if the second stage is applied to the replacements of the first. The values of the replacements are
computed before, in any order. -/
theorem C105_at_once_partial (G : Sigs) (σ σ' τ : Subs) (e : Expr) (n m : Nat) (hnm : n ≤ m)
    (hσ : σ.Ok G n) (hσ' : σ'.Ok G n) (hold : σ'.Old n)
    (hw : Wf G e) (hid : ∀ o ∈ e.ops, o.id < n)
    (hn : Nullary σ e) (hn' : Nullary σ' e) (hnv : ∀ u a, σ.lookup u = some a → Nullary σ' a)
    (hb : σ.Avoids G (fun v => BoundIn G v e)) (hb' : σ'.Avoids G (fun v => BoundIn G v e))
    (hbv : σ'.Avoids G (σ.Binds G))
    (hτ : ∀ v, σ.lookup v = none → τ.lookup v = none)
    (hτ' : ∀ v a, σ.lookup v = some a → ∃ b k k', τ.lookup v = some b ∧ n ≤ k ∧ k' ≤ m ∧
      evaluate (subCtx G σ') a k = (.ok b, k')) :
    ∃ r n1 r' n2 q n3, evaluate (subCtx G σ) e n = (.ok r, n1) ∧
      evaluate (subCtx G σ') r n1 = (.ok r', n2) ∧
      evaluate (subCtx G (τ ++ σ')) e m = (.ok q, n3) ∧ Alpha G q r' := by
  obtain ⟨r, n1, r', n2, h1, h2, h3⟩ :=
    C105_stages_partial G σ σ' e n hσ hσ' hold hw hid hn hn' hnv hb hbv
  have key : ∀ v a, σ.lookup v = some a → ∃ b, τ.lookup v = some b ∧ Rel G σ' m a b := by
    intro v a hv
    obtain ⟨b, k, k', hb, hk, hk', he⟩ := hτ' v a hv
    obtain ⟨b', k'', e1, e2, e3⟩ := evaluate_subst hσ' (hσ.wf v a hv) (hnv v a hv) (hσ.ids v a hv)
      (fun w hw => hbv w ⟨v, a, hv, hw⟩) k hk
    rw [he] at e1
    simp only [Prod.mk.injEq, Except.ok.injEq] at e1
    obtain ⟨rfl, rfl⟩ := e1
    exact ⟨b, hb, e3.mono hk'⟩
  have back : ∀ v b, τ.lookup v = some b → ∃ a, σ.lookup v = some a ∧ Rel G σ' m a b := by
    intro v b hv
    cases hc : σ.lookup v with
    | none => rw [hτ v hc] at hv; cases hv
    | some a =>
      obtain ⟨b', h, hr⟩ := key v a hc
      rw [hv] at h
      cases h
      exact ⟨a, rfl, hr⟩
  have okτ : τ.Ok G m := by
    refine ⟨fun v b hv => ?_, fun v b hv => ?_, fun v b hv => ?_⟩
    · obtain ⟨a, _, hr⟩ := back v b hv; exact hr.wf
    · obtain ⟨a, _, hr⟩ := back v b hv; exact hr.ids
    · obtain ⟨a, ha, hr⟩ := back v b hv
      rw [hr.ext.extract, hσ.extract v a ha]; rfl
  have ok' : σ'.Ok G m :=
    ⟨hσ'.wf, fun v a h o ho => Nat.lt_of_lt_of_le (hσ'.ids v a h o ho) hnm, hσ'.extract⟩
  obtain ⟨q, n3, k1, k2⟩ := at_once (σ := σ) okτ ok' (by
      intro v
      unfold Subs.db
      cases hc : σ.lookup v with
      | none => rw [hτ v hc]; rfl
      | some a =>
        obtain ⟨b, hb, hr⟩ := key v a hc
        rw [hb, Option.map_some, Option.map_some, Option.map_some, hr.db [] avoids_nil]
        rfl) hσ.wf hw (fun o ho => Nat.lt_of_lt_of_le (hid o ho) hnm) hn hn' hb hb'
  exact ⟨r, n1, r', n2, q, n3, h1, h2, k1, k2.trans h3.symm⟩

/-- C105: if no replacement of the first stage mentions a variable of the second, both stages are
one evaluation with the handlers of both. -/
theorem C105_apart_partial (G : Sigs) (σ σ' : Subs) (e : Expr) (n : Nat)
    (hσ : σ.Ok G n) (hσ' : σ'.Ok G n) (hold : σ'.Old n)
    (hw : Wf G e) (hid : ∀ o ∈ e.ops, o.id < n)
    (hn : Nullary σ e) (hn' : Nullary σ' e) (hnv : ∀ u a, σ.lookup u = some a → Nullary σ' a)
    (hb : σ.Avoids G (fun v => BoundIn G v e)) (hb' : σ'.Avoids G (fun v => BoundIn G v e))
    (hbv : σ'.Avoids G (σ.Binds G)) (hap : σ.Apart G σ') :
    ∃ r n1 r' n2 q n3, evaluate (subCtx G σ) e n = (.ok r, n1) ∧
      evaluate (subCtx G σ') r n1 = (.ok r', n2) ∧
      evaluate (subCtx G (σ ++ σ')) e n = (.ok q, n3) ∧ Alpha G q r' := by
  obtain ⟨r, n1, r', n2, h1, h2, h3⟩ :=
    C105_stages_partial G σ σ' e n hσ hσ' hold hw hid hn hn' hnv hb hbv
  obtain ⟨q, n3, k1, k2⟩ := at_once (σ := σ) hσ hσ' (by
      intro v
      unfold Subs.db
      cases hc : σ.lookup v with
      | none => rfl
      | some a =>
        rw [Option.map_some, Option.map_some, subst_unused]
        intro w hw'
        have hf := ((has_toDB (hσ.wf v a hc) []).1 hw').1
        by_cases hcw : σ'.lookup w = none
        · simp only [hcw, Option.map_none]
        · exact absurd hf (hap v a hc w hcw)) hσ.wf hw hid hn hn' hb hb'
  exact ⟨r, n1, r', n2, q, n3, h1, h2, k1, k2.trans h3.symm⟩

/-- C105: the order of the stages does not matter if they handle different variables and no
replacement of one mentions a variable of the other. -/
theorem C105_order_partial (G : Sigs) (σ σ' : Subs) (e : Expr) (n : Nat)
    (hσ : σ.Ok G n) (hσ' : σ'.Ok G n) (hold : σ.Old n) (hold' : σ'.Old n)
    (hw : Wf G e) (hid : ∀ o ∈ e.ops, o.id < n)
    (hn : Nullary σ e) (hn' : Nullary σ' e) (hnv : ∀ u a, σ.lookup u = some a → Nullary σ' a)
    (hnv' : ∀ u a, σ'.lookup u = some a → Nullary σ a)
    (hb : σ.Avoids G (fun v => BoundIn G v e)) (hb' : σ'.Avoids G (fun v => BoundIn G v e))
    (hbv : σ'.Avoids G (σ.Binds G)) (hbv' : σ.Avoids G (σ'.Binds G))
    (hap : σ.Apart G σ') (hap' : σ'.Apart G σ)
    (hdis : ∀ v, σ.lookup v = none ∨ σ'.lookup v = none) :
    ∃ r n1 r' n2 q m1 q' m2, evaluate (subCtx G σ) e n = (.ok r, n1) ∧
      evaluate (subCtx G σ') r n1 = (.ok r', n2) ∧
      evaluate (subCtx G σ') e n = (.ok q, m1) ∧
      evaluate (subCtx G σ) q m1 = (.ok q', m2) ∧ Alpha G r' q' := by
  obtain ⟨r, n1, r', n2, h1, h2, h3⟩ :=
    C105_stages_partial G σ σ' e n hσ hσ' hold' hw hid hn hn' hnv hb hbv
  obtain ⟨q, m1, q', m2, k1, k2, k3⟩ :=
    C105_stages_partial G σ' σ e n hσ' hσ hold hw hid hn' hn hnv' hb' hbv'
  refine ⟨r, n1, r', n2, q, m1, q', m2, h1, h2, k1, k2, ?_⟩
  have unused : ∀ {ρ ρ' : Subs}, ρ.Ok G n → ρ.Apart G ρ' → ∀ v a, ρ.lookup v = some a →
      (toDB G [] a).subst (ρ'.db G) = toDB G [] a := by
    intro ρ ρ' ok ap v a hv
    apply subst_unused
    intro w hw'
    have hf := ((has_toDB (ok.wf v a hv) []).1 hw').1
    unfold Subs.db
    by_cases hcw : ρ'.lookup w = none
    · simp only [hcw, Option.map_none]
    · exact absurd hf (ap v a hv w hcw)
  unfold Alpha
  rw [h3, k3]
  apply subst_congr
  intro v
  unfold thenSubst Subs.db
  cases h : σ.lookup v with
  | none =>
    cases h' : σ'.lookup v with
    | none => rfl
    | some a => exact congrArg some (unused hσ' hap' v a h').symm
  | some a =>
    rcases hdis v with hc | hc
    · rw [h] at hc; cases hc
    · rw [hc]
      exact congrArg some (unused hσ hap v a h)

/-! ## Examples -/

theorem noBound_call0 (v w : Op) : ¬ BoundIn exSigs v (call0 w) := by
  intro hb
  cases hb with
  | here hb hB hv =>
    obtain ⟨x, hx, _⟩ := bounds_source hb _ hB v hv
    cases hx
  | part hx => cases hx

/-- The assumptions of C105 are satisfied: `fn(x(), y())` with `{x: y()}` and then `{y: z()}`. -/
example : ∃ r n1 r' n2, evaluate (subCtx exSigs [(vx, call0 vy)]) (call2 (call0 vx) (call0 vy)) 10 =
      (.ok r, n1) ∧ evaluate (subCtx exSigs [(vy, call0 vz)]) r n1 = (.ok r', n2) ∧
      toDB exSigs [] r' = (toDB exSigs [] (call2 (call0 vx) (call0 vy))).subst
        (thenSubst (Subs.db exSigs [(vx, call0 vy)]) (Subs.db exSigs [(vy, call0 vz)])) := by
  have one : ∀ (k : Op) (a : Expr) (v : Op) (b : Expr),
      ([(k, a)] : Subs).lookup v = some b → v = k ∧ b = a := by
    intro k a v b h
    by_cases e : v = k
    · subst e
      simp at h
      exact ⟨rfl, h.symm⟩
    · have : (v == k) = false := by simpa using e
      simp [List.lookup, this] at h
  have ok : ∀ k v : Op, v.kind = 1 → v.id < 10 → Subs.Ok exSigs [(k, call0 v)] 10 := by
    intro k v hk hv
    refine ⟨fun u b h => ?_, fun u b h => ?_, fun u b h => ?_⟩ <;> obtain ⟨_, rfl⟩ := one _ _ _ _ h
    · exact wf_call0 v hk
    · intro o ho
      simp [call0, Expr.ops, Expr.opsL] at ho
      rw [ho]; exact hv
    · rfl
  have nl0 : ∀ (σ : Subs) (v : Op), Nullary σ (call0 v) :=
    fun σ v => .term (fun _ => rfl) (fun x hx => by cases hx)
  have nl : ∀ (k : Op) (a : Expr), k ≠ fn →
      Nullary [(k, a)] (call2 (call0 vx) (call0 vy)) := by
    intro k a hk
    refine .term ?_ ?_
    · intro h
      have : (fn == k) = false := by simpa using fun e => hk e.symm
      simp [List.lookup, this] at h
    · intro x hx
      simp only [List.mem_cons, List.not_mem_nil, or_false] at hx
      rcases hx with rfl | rfl <;> exact nl0 _ _
  refine C105_stages_partial exSigs [(vx, call0 vy)] [(vy, call0 vz)]
    (call2 (call0 vx) (call0 vy)) 10 (ok _ _ rfl (by decide)) (ok _ _ rfl (by decide)) ?_
    (wf_call2 (wf_call0 _ rfl) (wf_call0 _ rfl) (by decide)) (by decide)
    (nl _ _ (by decide)) (nl _ _ (by decide)) ?_ ?_ ?_
  · intro v h
    cases e : ([(vy, call0 vz)] : Subs).lookup v with
    | none => exact absurd e h
    | some a => obtain ⟨rfl, _⟩ := one _ _ _ _ e; decide
  · intro u a h
    obtain ⟨_, rfl⟩ := one _ _ _ _ h
    exact nl0 _ _
  · intro v hv
    exfalso
    cases hv with
    | here hb hB hv =>
      have hb' : exSigs.bounds fn [.pos, .pos] [call0 vx, call0 vy] = .ok [[], []] := by decide
      rw [hb'] at hb
      cases hb
      simp only [List.mem_cons, List.not_mem_nil, or_false] at hB
      rcases hB with rfl | rfl <;> cases hv
    | part hx hv =>
      simp only [List.mem_cons, List.not_mem_nil, or_false] at hx
      rcases hx with rfl | rfl <;> exact noBound_call0 _ _ hv
  · rintro v ⟨u, a, h, hv⟩
    obtain ⟨_, rfl⟩ := one _ _ _ _ h
    exact absurd hv (noBound_call0 _ _)

/-- C105, example: `deffn(fn(x(), fn(y(), z())), z)` with `{x: fn(y(), y())}` and then `{y: z()}`.
The free variable `z` of the second stage is not captured, because the first stage has renamed the
bound one. -/
example :
    evaluate (subCtx exSigs [(vx, call2 (call0 vy) (call0 vy))])
      (lam (call2 (call0 vx) (call2 (call0 vy) (call0 vz))) vz) 10 =
      (.ok (lam (call2 (call2 (call0 vy) (call0 vy)) (call2 (call0 vy) (call0 ⟨11, 1⟩))) ⟨11, 1⟩),
        12) ∧
    evaluate (subCtx exSigs [(vy, call0 vz)])
      (lam (call2 (call2 (call0 vy) (call0 vy)) (call2 (call0 vy) (call0 ⟨11, 1⟩))) ⟨11, 1⟩) 12 =
      (.ok (lam (call2 (call2 (call0 vz) (call0 vz)) (call2 (call0 vz) (call0 ⟨13, 1⟩))) ⟨13, 1⟩),
        14) := by decide

/-- C105, example: `fn(x(), y())` with `{x: fn(y(), y())}` and then `{y: z()}` is `fn(x(), y())`
with `{x: fn(z(), z()), y: z()}`. -/
example :
    evaluate (subCtx exSigs [(vx, call2 (call0 vy) (call0 vy))]) (call2 (call0 vx) (call0 vy)) 10 =
      (.ok (call2 (call2 (call0 vy) (call0 vy)) (call0 vy)), 10) ∧
    evaluate (subCtx exSigs [(vy, call0 vz)])
      (call2 (call2 (call0 vy) (call0 vy)) (call0 vy)) 10 =
      (.ok (call2 (call2 (call0 vz) (call0 vz)) (call0 vz)), 10) ∧
    evaluate (subCtx exSigs [(vy, call0 vz)]) (call2 (call0 vy) (call0 vy)) 10 =
      (.ok (call2 (call0 vz) (call0 vz)), 10) ∧
    evaluate (subCtx exSigs [(vx, call2 (call0 vz) (call0 vz)), (vy, call0 vz)])
      (call2 (call0 vx) (call0 vy)) 10 =
      (.ok (call2 (call2 (call0 vz) (call0 vz)) (call0 vz)), 10) := by decide

/-- C105 fails for both handlers at once if a replacement mentions the other variable: `fn(x(), y())`
with `{x: y(), y: z()}` is `fn(y(), z())`, in two stages it is `fn(z(), z())`. -/
theorem C105_simultaneous_fails :
    evaluate (subCtx exSigs [(vx, call0 vy), (vy, call0 vz)]) (call2 (call0 vx) (call0 vy)) 10 =
      (.ok (call2 (call0 vy) (call0 vz)), 10) ∧
    evaluate (subCtx exSigs [(vx, call0 vy)]) (call2 (call0 vx) (call0 vy)) 10 =
      (.ok (call2 (call0 vy) (call0 vy)), 10) ∧
    evaluate (subCtx exSigs [(vy, call0 vz)]) (call2 (call0 vy) (call0 vy)) 10 =
      (.ok (call2 (call0 vz) (call0 vz)), 10) ∧
    ¬ Alpha exSigs (call2 (call0 vy) (call0 vz)) (call2 (call0 vz) (call0 vz)) := by
  refine ⟨by decide, by decide, by decide, ?_⟩
  intro h
  have := congrArg (DExpr.has vy) h
  revert this
  decide

/-- C105 fails for the other order in this case: with `{y: z()}` and then `{x: y()}` the result is
`fn(y(), z())`. -/
theorem C105_order_fails :
    evaluate (subCtx exSigs [(vy, call0 vz)]) (call2 (call0 vx) (call0 vy)) 10 =
      (.ok (call2 (call0 vx) (call0 vz)), 10) ∧
    evaluate (subCtx exSigs [(vx, call0 vy)]) (call2 (call0 vx) (call0 vz)) 10 =
      (.ok (call2 (call0 vy) (call0 vz)), 10) ∧
    ¬ Alpha exSigs (call2 (call0 vy) (call0 vz)) (call2 (call0 vz) (call0 vz)) := by
  refine ⟨by decide, by decide, ?_⟩
  intro h
  have := congrArg (DExpr.has vy) h
  revert this
  decide

end Verif.Terms
