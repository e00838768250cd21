import Verif.Terms.BindProps

/-!
# fvsof: property C16
-/

namespace Verif.Terms

open Verif.Scoped (Sig Err TyVar Ext)

/-! ## Specification -/

/-- `v` is the operation of a term that is outside the arguments in which `v` is bound. -/
inductive FreeHead (G : Sigs) (v : Op) : Expr → Prop where
  | head {sl xs} : FreeHead G v (.node (.term v sl) xs)
  | arg {o sl xs Bs B} {k : Nat} {x : Expr} : G.bounds o sl xs = .ok Bs → xs[k]? = some x →
      Bs[k]? = some B → v ∉ B → FreeHead G v x → FreeHead G v (.node (.term o sl) xs)
  | part {t xs} {x : Expr} : Tag.isTerm t = false → x ∈ xs → FreeHead G v x →
      FreeHead G v (.node t xs)

/-! ## The values computed on the way -/

theorem evaluate_fvs_fst (G : Sigs) (e : Expr) : ∀ (n : Nat) (S : List Op),
    (evaluate (fvsCtx G) e (n, S)).1 = (evaluate (freeCtx G) e n).1 ∧
    (evaluate (fvsCtx G) e (n, S)).2.1 = (evaluate (freeCtx G) e n).2 := by
  induction e using Expr.ind with
  | atom a => intro n S; simp [evaluate]
  | op o => intro n S; simp [evaluate, fvsCtx, freeCtx]
  | node t xs ih =>
    have hs : ∀ (n : Nat) (S : List Op),
        (evaluates (fvsCtx G) xs (n, S)).1 = (evaluates (freeCtx G) xs n).1 ∧
        (evaluates (fvsCtx G) xs (n, S)).2.1 = (evaluates (freeCtx G) xs n).2 := by
      clear t
      induction xs with
      | nil => intro n S; simp [evaluates]
      | cons x xs ih' =>
        intro n S
        have h1 := ih x List.mem_cons_self n S
        rw [evaluates, evaluates]
        rcases hx : evaluate (fvsCtx G) x (n, S) with ⟨r, n1, S1⟩
        rcases hy : evaluate (freeCtx G) x n with ⟨r', n1'⟩
        rw [hx, hy] at h1
        obtain ⟨rfl, rfl⟩ := h1
        cases r with
        | error e => exact ⟨rfl, rfl⟩
        | ok y =>
          simp only
          have h2 := ih' (fun x hx => ih x (List.mem_cons_of_mem _ hx)) n1 S1
          rcases hx : evaluates (fvsCtx G) xs (n1, S1) with ⟨r, n2, S2⟩
          rcases hy : evaluates (freeCtx G) xs n1 with ⟨r', n2'⟩
          rw [hx, hy] at h2
          obtain ⟨rfl, rfl⟩ := h2
          cases r <;> exact ⟨rfl, rfl⟩
    intro n S
    have h1 := hs n S
    by_cases hp : Tag.plain t = true
    · rw [evaluate_plain _ _ _ _ hp, evaluate_plain _ _ _ _ hp]
      rcases hx : evaluates (fvsCtx G) xs (n, S) with ⟨r, n1, S1⟩
      rcases hy : evaluates (freeCtx G) xs n with ⟨r', n1'⟩
      rw [hx, hy] at h1
      obtain ⟨rfl, rfl⟩ := h1
      cases r <;> exact ⟨rfl, rfl⟩
    · rcases not_plain (by simpa using hp) with ⟨o, sl, rfl⟩ | rfl | ⟨m, rfl⟩
      · rw [evaluate, evaluate]
        rcases hx : evaluates (fvsCtx G) xs (n, S) with ⟨r, n1, S1⟩
        rcases hy : evaluates (freeCtx G) xs n with ⟨r', n1'⟩
        rw [hx, hy] at h1
        obtain ⟨rfl, rfl⟩ := h1
        cases r with
        | error e => exact ⟨rfl, rfl⟩
        | ok ys =>
          simp only [fvsCtx, freeCtx, callDefdata, id, defdata]
          cases hb : G.bounds o sl ys with
          | error e => exact ⟨rfl, rfl⟩
          | ok Bs =>
            simp only
            cases renameArgs (freshen Bs.flatten [] n1).1 ys Bs (freshen Bs.flatten [] n1).2 <;>
              exact ⟨rfl, rfl⟩
      · simp [evaluate]
      · simp [evaluate]

theorem nullary_nil {G : Sigs} {e : Expr} (h : Wf G e) : Nullary [] e := by
  induction h with
  | atom a => exact .atom a
  | op o => exact .op o
  | term _ _ _ ih => exact .term (fun h => absurd rfl h) ih
  | node ht _ _ ih => exact .node ht ih

theorem ok_nil (G : Sigs) (n : Nat) : Subs.Ok G [] n :=
  ⟨fun v a h => by simp at h, fun v a h => by simp at h, fun v a h => by simp at h⟩

/-- The value of a well-formed expression under the analysis. -/
theorem evaluate_fvs_val {G : Sigs} {e : Expr} (h : Wf G e) {n0 : Nat}
    (hid : ∀ o ∈ e.ops, o.id < n0) (n : Nat) (hn : n0 ≤ n) (S : List Op) :
    ∃ r n' S', evaluate (fvsCtx G) e (n, S) = (.ok r, (n', S')) ∧ n ≤ n' ∧ Rel G [] n' e r := by
  obtain ⟨r, n', h1, h2, hr⟩ := evaluate_subst (ok_nil G n0) h (nullary_nil h) hid
    (fun v _ => ⟨rfl, fun u a h => by simp at h⟩) n hn
  rw [freeCtx_eq] at h1
  obtain ⟨k1, k2⟩ := evaluate_fvs_fst G e n S
  rw [h1] at k1 k2
  exact ⟨r, n', _, Prod.ext k1 (Prod.ext k2 rfl), h2, hr⟩

/-! ## The set of free variables -/

/-- What happens to the set. -/
structure Upd (G : Sigs) (e : Expr) (S S' : List Op) : Prop where
  unbound : ∀ v, ¬ BoundIn G v e → (v ∈ S' ↔ v ∈ S ∨ FreeHead G v e)
  bound : ∀ v, BoundIn G v e → ¬ FreeHead G v e → v ∉ S'

theorem no_bound_of_plain {G : Sigs} {v : Op} {e : Expr} (h : e.plain = true) :
    ¬ BoundIn G v e ∧ ¬ FreeHead G v e := by
  induction e using Expr.ind with
  | atom a => exact ⟨fun h => (nomatch h), fun h => (nomatch h)⟩
  | op o => exact ⟨fun h => (nomatch h), fun h => (nomatch h)⟩
  | node t xs ih =>
    simp only [Expr.plain, Bool.and_eq_true, plainL_iff, Bool.not_eq_true'] at h
    constructor
    · intro hb
      cases hb with
      | here => simp [Tag.isTerm] at h
      | part hx hb => exact (ih _ hx (h.2 _ hx)).1 hb
    · intro hb
      cases hb with
      | head => simp [Tag.isTerm] at h
      | arg => simp [Tag.isTerm] at h
      | part _ hx hb => exact (ih _ hx (h.2 _ hx)).2 hb

theorem upd {G : Sigs} {e : Expr} (h : Wf G e) {n0 : Nat} (hid : ∀ o ∈ e.ops, o.id < n0) :
    ∀ n, n0 ≤ n → ∀ S, Upd G e S (evaluate (fvsCtx G) e (n, S)).2.2 := by
  have lists : ∀ xs : List Expr, (∀ x ∈ xs, Wf G x) → (∀ x ∈ xs, ∀ o ∈ x.ops, o.id < n0) →
      (∀ x ∈ xs, ∀ n, n0 ≤ n → ∀ S, Upd G x S (evaluate (fvsCtx G) x (n, S)).2.2) →
      ∀ n, n0 ≤ n → ∀ S, ∃ ys n' S', evaluates (fvsCtx G) xs (n, S) = (.ok ys, (n', S')) ∧
        n ≤ n' ∧ List.Forall₂ (Rel G [] n') xs ys ∧
        (∀ v, (∀ x ∈ xs, ¬ BoundIn G v x) → (v ∈ S' ↔ v ∈ S ∨ ∃ x ∈ xs, FreeHead G v x)) ∧
        (∀ v, (∃ x ∈ xs, BoundIn G v x) → (∀ x ∈ xs, ¬ FreeHead G v x) → v ∉ S') := by
    intro xs hw hi hu
    induction xs with
    | nil =>
      intro n hn S
      exact ⟨[], n, S, rfl, Nat.le_refl _, .nil, fun v _ => by simp, fun v ⟨x, hx, _⟩ => by cases hx⟩
    | cons x xs ih =>
      intro n hn S
      obtain ⟨y, n1, S1, h1, h2, h3⟩ := evaluate_fvs_val (hw x List.mem_cons_self)
        (hi x List.mem_cons_self) n hn S
      have u1 := hu x List.mem_cons_self n hn S
      rw [h1] at u1
      simp only at u1
      obtain ⟨ys, n2, S2, k1, k2, k3, k4, k5⟩ := ih (fun x hx => hw x (List.mem_cons_of_mem _ hx))
        (fun x hx => hi x (List.mem_cons_of_mem _ hx))
        (fun x hx => hu x (List.mem_cons_of_mem _ hx)) n1 (by omega) S1
      refine ⟨y :: ys, n2, S2, ?_, by omega, .cons (h3.mono k2) k3, ?_, ?_⟩
      · rw [evaluates, h1]
        simp only
        rw [k1]
      · intro v hv
        rw [k4 v (fun x hx => hv x (List.mem_cons_of_mem _ hx)),
          u1.unbound v (hv x List.mem_cons_self), or_assoc]
        simp
      · rintro v hb hf
        by_cases ht : ∃ x ∈ xs, BoundIn G v x
        · exact k5 v ht (fun x hx => hf x (List.mem_cons_of_mem _ hx))
        · have hbx : BoundIn G v x := by
            obtain ⟨x', hx', hb⟩ := hb
            rcases List.mem_cons.1 hx' with rfl | hx'
            · exact hb
            · exact absurd ⟨x', hx', hb⟩ ht
          rw [k4 v (fun x hx hb => ht ⟨x, hx, hb⟩)]
          rintro (h | ⟨x', hx', h⟩)
          · exact u1.bound v hbx (hf x List.mem_cons_self) h
          · exact hf x' (List.mem_cons_of_mem _ hx') h
  induction h with
  | atom a =>
    intro n _ S
    simp only [evaluate]
    exact ⟨fun v _ => ⟨.inl, fun h => h.elim id (fun h => nomatch h)⟩, fun v h => nomatch h⟩
  | op o =>
    intro n _ S
    simp only [evaluate]
    exact ⟨fun v _ => ⟨.inl, fun h => h.elim id (fun h => nomatch h)⟩, fun v h => nomatch h⟩
  | @term o sl xs Bs hb hl hw ih =>
    intro n hn S
    have hi : ∀ x ∈ xs, ∀ o ∈ x.ops, o.id < n0 :=
      fun x hx v hv => hid v (Expr.mem_ops_node.2 (.inr ⟨x, hx, hv⟩))
    obtain ⟨ys, n1, S1, h1, h2, h3, h4, h5⟩ :=
      lists xs hw hi (fun x hx => ih x hx (hi x hx)) n hn S
    have hb' : G.bounds o sl ys = .ok Bs := bounds_ext hb (forall2_imp h3 (fun _ _ r => r.ext))
    have hlen : xs.length = Bs.length := by rw [← hl, Verif.Scoped.fvsRule_length hb]
    have hS : ∀ v, v ∈ (evaluate (fvsCtx G) (.node (.term o sl) xs) (n, S)).2.2 ↔
        (v ∈ S1 ∨ v = o) ∧ v ∉ Bs.flatten := by
      intro v
      rw [evaluate, h1]
      simp only [fvsCtx, hb', callDefdata]
      generalize hF : (if S1.contains o = true then S1 else S1 ++ [o]) = F
      have : ∀ d : Except Err (Expr × Nat), ∀ fvs : List Op,
          (match (motive := Except Err (Expr × Nat) → Except Err Expr × Nat × List Op) d with
            | .error e => (.error e, (n1, fvs))
            | .ok (t, n) => (.ok t, (n, fvs))).2.2 = fvs := by
        intro d fvs
        cases d <;> rfl
      have this' := this (defdata G o sl ys n1) (F.filter (fun v => !Bs.flatten.contains v))
      refine (iff_of_eq (congrArg (v ∈ ·) this')).trans ?_
      subst hF
      rw [List.mem_filter]
      simp only [Bool.not_eq_true', List.contains_eq_mem, decide_eq_false_iff_not]
      by_cases ho : o ∈ S1
      · simp only [ho, decide_true, if_true]
        constructor
        · rintro ⟨a, b⟩; exact ⟨.inl a, b⟩
        · rintro ⟨a | rfl, b⟩
          · exact ⟨a, b⟩
          · exact ⟨ho, b⟩
      · simp [ho]
    have hfree : ∀ v, v ∉ Bs.flatten →
        (FreeHead G v (.node (.term o sl) xs) ↔ v = o ∨ ∃ x ∈ xs, FreeHead G v x) := by
      intro v hv
      constructor
      · intro h
        cases h with
        | head => exact .inl rfl
        | arg _ hx _ _ hf => exact .inr ⟨_, List.mem_of_getElem? hx, hf⟩
        | part ht => simp [Tag.isTerm] at ht
      · rintro (rfl | ⟨x, hx, hf⟩)
        · exact .head
        · obtain ⟨k, hk⟩ := List.mem_iff_getElem?.1 hx
          have hkl : k < xs.length := by
            rw [List.getElem?_eq_some_iff] at hk; exact hk.1
          have hB : Bs[k]? = some (Bs[k]'(by omega)) := List.getElem?_eq_getElem _
          exact .arg hb hk hB (fun hc => hv (List.mem_flatten.2 ⟨_, List.getElem_mem _, hc⟩)) hf
    constructor
    · intro v hnb
      have hv : v ∉ Bs.flatten := by
        intro hc
        obtain ⟨B, hB, hvB⟩ := List.mem_flatten.1 hc
        exact hnb (.here hb hB hvB)
      rw [hS, hfree v hv, h4 v (fun x hx hbx => hnb (.part hx hbx))]
      simp only [hv, not_false_eq_true, and_true, or_assoc]
      rw [or_comm (a := ∃ x ∈ xs, FreeHead G v x)]
    · intro v hbv hnf
      rw [hS]
      rintro ⟨h, hv⟩
      rw [hfree v hv, not_or] at hnf
      rcases h with h | h
      · refine h5 v ?_ (fun x hx hf => hnf.2 ⟨x, hx, hf⟩) h
        cases hbv with
        | here hb'' hB hvB =>
          rw [hb] at hb''
          cases hb''
          exact absurd (List.mem_flatten.2 ⟨_, hB, hvB⟩) hv
        | part hx hbx => exact ⟨_, hx, hbx⟩
      · exact hnf.1 h
  | @node t xs ht hs hw ih =>
    intro n hn S
    have hi : ∀ x ∈ xs, ∀ o ∈ x.ops, o.id < n0 :=
      fun x hx v hv => hid v (Expr.mem_ops_node.2 (.inr ⟨x, hx, hv⟩))
    obtain ⟨ys, n1, S1, h1, h2, h3, h4, h5⟩ :=
      lists xs hw hi (fun x hx => ih x hx (hi x hx)) n hn S
    have hbi : ∀ v, BoundIn G v (.node t xs) ↔ ∃ x ∈ xs, BoundIn G v x := by
      intro v
      constructor
      · intro h
        cases h with
        | here => simp [Tag.isTerm] at ht
        | part hx h => exact ⟨_, hx, h⟩
      · rintro ⟨x, hx, h⟩; exact .part hx h
    have hfh : ∀ v, FreeHead G v (.node t xs) ↔ ∃ x ∈ xs, FreeHead G v x := by
      intro v
      constructor
      · intro h
        cases h with
        | head => simp [Tag.isTerm] at ht
        | arg => simp [Tag.isTerm] at ht
        | part _ hx h => exact ⟨_, hx, h⟩
      · rintro ⟨x, hx, h⟩; exact .part ht hx h
    by_cases hp : Tag.plain t = true
    · rw [evaluate_plain _ _ _ _ hp, h1]
      simp only
      constructor
      · intro v hnb
        rw [hfh, h4 v (fun x hx hb => hnb ((hbi v).2 ⟨x, hx, hb⟩))]
      · intro v hb hf
        exact h5 v ((hbi v).1 hb) (fun x hx h => hf ((hfh v).2 ⟨x, hx, h⟩))
    · rcases not_plain (by simpa using hp) with ⟨o, sl, rfl⟩ | rfl | ⟨m, rfl⟩
      · simp [Tag.isTerm] at ht
      · have hop : (Expr.node .set xs).ops = [] := by simp only [Expr.ops]; exact hs
        simp only [evaluate]
        constructor
        · intro v _
          simp [(no_bound_of_plain (G := G) (v := v) (plain_of_no_ops hop)).2]
        · intro v hb
          exact absurd hb (no_bound_of_plain (plain_of_no_ops hop)).1
      · cases hs

/-- C16: every variable in the result of `fvsof` is free in the expression. -/
theorem C16_fvsof_sound (G : Sigs) (e : Expr) (n : Nat) (h : Wf G e)
    (hid : ∀ o ∈ e.ops, o.id < n) : ∃ fvs, fvsof G e n = .ok fvs ∧ ∀ v ∈ fvs, FreeHead G v e := by
  obtain ⟨r, n', S', h1, _, _⟩ := evaluate_fvs_val h hid n (Nat.le_refl _) []
  have u := upd h hid n (Nat.le_refl _) []
  rw [h1] at u
  refine ⟨S', by unfold fvsof; rw [h1], fun v hv => ?_⟩
  by_cases hb : BoundIn G v e
  · by_cases hf : FreeHead G v e
    · exact hf
    · exact absurd hv (u.bound v hb hf)
  · rcases (u.unbound v hb).1 hv with h | h
    · cases h
    · exact h

/-- C16: `fvsof` returns exactly the free variables if no variable is both free and bound in the
expression. -/
theorem C16_fvsof_exact_partial (G : Sigs) (e : Expr) (n : Nat) (h : Wf G e)
    (hid : ∀ o ∈ e.ops, o.id < n) (hd : ∀ v, FreeHead G v e → ¬ BoundIn G v e) :
    ∃ fvs, fvsof G e n = .ok fvs ∧ ∀ v, v ∈ fvs ↔ FreeHead G v e := by
  obtain ⟨r, n', S', h1, _, _⟩ := evaluate_fvs_val h hid n (Nat.le_refl _) []
  have u := upd h hid n (Nat.le_refl _) []
  rw [h1] at u
  refine ⟨S', by unfold fvsof; rw [h1], fun v => ?_⟩
  by_cases hb : BoundIn G v e
  · by_cases hf : FreeHead G v e
    · exact absurd hb (hd v hf)
    · exact ⟨fun hv => absurd hv (u.bound v hb hf), fun hf' => absurd hf' hf⟩
  · simpa using u.unbound v hb

/-- C16 fails if a variable is free in one place and bound in a later one: for
`fn(x(), deffn(x(), x))`, where `x` is free in the first argument, the result lacks `x`. -/
theorem C16_free_and_bound_fails :
    FreeHead exSigs vx (call2 (call0 vx) (lam (call0 vx) vx)) ∧
    fvsof exSigs (call2 (call0 vx) (lam (call0 vx) vx)) 10 = .ok [dfn, fn] ∧ vx ∉ [dfn, fn] := by
  refine ⟨?_, by decide, by decide⟩
  refine .arg (k := 0) (x := call0 vx) (Bs := [[], []]) (B := []) ?_ rfl rfl (by simp) .head
  decide

/-- The result depends on the order: with the arguments exchanged, `x` is found. -/
theorem C16_order_dependent_fails :
    fvsof exSigs (call2 (lam (call0 vx) vx) (call0 vx)) 10 = .ok [dfn, vx, fn] := by
  decide

/-- C16 fails for operations as values: they occur in the expression, but are not in the result. -/
theorem C16_values_fails (G : Sigs) (o : Op) (n : Nat) :
    FreeOp G o (.op o) ∧ fvsof G (.op o) n = .ok [] :=
  ⟨.value, by simp [fvsof, evaluate]⟩

/-- C16, example: the free variables of `deffn(fn(x(), y()), x)`. -/
example : fvsof exSigs (lam (call2 (call0 vx) (call0 vy)) vx) 10 = .ok [vy, fn, dfn] := by decide

/-! ## Expressions built with the API -/

/-- Expressions that are built from the operations in `P` by constructing containers and terms. The
operations in `P` are those that the program defined itself: they are different from the variables
that `defdata` creates. -/
inductive Con (G : Sigs) (P : Op → Prop) : Expr → Prop where
  | atom (a : Atom) : Con G P (.atom a)
  | op {o : Op} : P o → Con G P (.op o)
  | term {o sl xs t} {n n' : Nat} : P o → sl.length = xs.length → (∀ x ∈ xs, Con G P x) →
      (∀ x ∈ xs, ∀ v ∈ x.ops, v.id < n) → defdata G o sl xs n = .ok (t, n') →
      (∀ v : Op, n ≤ v.id → v.id < n' → ¬ P v) → Con G P t
  | node {t xs} : Tag.isTerm t = false → Tag.Sane t xs → (∀ x ∈ xs, Con G P x) →
      Con G P (.node t xs)

theorem boundIn_rename {G : Sigs} {r : Op → Op} (hk : KindPres r) {e : Expr} (h : Wf G e)
    (hi : InjOn r (fun o => o ∈ e.ops)) {v : Op} (hb : BoundIn G v (rename r e)) :
    ∃ w, BoundIn G w e ∧ v = r w := by
  induction h with
  | atom a => simp only [rename] at hb; cases hb
  | op o => simp only [rename] at hb; cases hb
  | @term o sl xs Bs hbd hl hw ih =>
    have hi' : InjOn r (fun o => ∃ x ∈ xs, o ∈ x.ops) :=
      hi.mono (fun o ho => Expr.mem_ops_node.2 (.inr ho))
    rw [rename_term] at hb
    cases hb with
    | here hb' hB hv =>
      rw [bounds_rename hbd hk hi'] at hb'
      cases hb'
      obtain ⟨B, hB', rfl⟩ := List.mem_map.1 hB
      obtain ⟨w, hw', rfl⟩ := List.mem_map.1 hv
      exact ⟨w, .here hbd hB' hw', rfl⟩
    | part hx hb' =>
      obtain ⟨x, hx', rfl⟩ := List.mem_map.1 hx
      obtain ⟨w, hw', e⟩ := ih x hx' (hi'.mono (fun o ho => ⟨x, hx', ho⟩)) hb'
      exact ⟨w, .part hx' hw', e⟩
  | @node t xs ht hs hw ih =>
    have hi' : InjOn r (fun o => ∃ x ∈ xs, o ∈ x.ops) :=
      hi.mono (fun o ho => Expr.mem_ops_node.2 (.inr ho))
    rw [rename_node _ _ _ ht] at hb
    cases hb with
    | here => simp [Tag.isTerm] at ht
    | part hx hb' =>
      obtain ⟨x, hx', rfl⟩ := List.mem_map.1 hx
      obtain ⟨w, hw', e⟩ := ih x hx' (hi'.mono (fun o ho => ⟨x, hx', ho⟩)) hb'
      exact ⟨w, .part hx' hw', e⟩

theorem con_clean {G : Sigs} {P : Op → Prop} {e : Expr} (h : Con G P e) :
    Wf G e ∧ (∀ v, FreeOp G v e → P v) ∧ ∀ v, BoundIn G v e → ¬ P v := by
  induction h with
  | atom a => exact ⟨.atom a, (fun v h => nomatch h), (fun v h => nomatch h)⟩
  | op ho => exact ⟨.op _, (fun v h => by cases h; exact ho), (fun v h => nomatch h)⟩
  | @term o sl xs t n n' ho hl _ hid hd hP ih =>
    cases hb : G.bounds o sl xs with
    | error e => simp [defdata, hb] at hd
    | ok Bs =>
      have hw : ∀ x ∈ xs, Wf G x := fun x hx => (ih x hx).1
      obtain ⟨ρ, m, h1, h2, h3, h4, h5⟩ := defdata_spec hb hl hw hid
      rw [hd] at h2
      simp only [Except.ok.injEq, Prod.mk.injEq] at h2
      obtain ⟨rfl, rfl⟩ := h2
      have bt := built hb hl hw hid h1 h3 h4 h5
      have hfB : ∀ B ∈ Bs, ∀ v ∈ B, n ≤ (ρ v).id ∧ (ρ v).id < n' :=
        fun B hB v hv => h3 v (List.mem_flatten.2 ⟨B, hB, hv⟩)
      refine ⟨bt.wf, ?_, ?_⟩
      · intro v hv
        rw [alpha_free bt.wf (.term hb hl hw) (bt.db [])] at hv
        cases hv with
        | head => exact ho
        | arg _ hx _ _ hf => exact (ih _ (List.mem_of_getElem? hx)).2.1 v hf
        | part ht => simp [Tag.isTerm] at ht
      · intro v hv
        have hlen : xs.length = Bs.length := by rw [← hl, Verif.Scoped.fvsRule_length hb]
        have src : ∀ y ∈ List.zipWith (renameIn ρ) xs Bs, ∃ x ∈ xs, ∃ B ∈ Bs, y = renameIn ρ x B := by
          intro y hy
          obtain ⟨k, hk⟩ := List.mem_iff_getElem?.1 hy
          rw [zipWith_getElem?] at hk
          cases hx : xs[k]? with
          | none => rw [hx] at hk; cases hk
          | some x =>
            cases hB : Bs[k]? with
            | none => rw [hx, hB] at hk; cases hk
            | some B =>
              rw [hx, hB] at hk
              cases hk
              exact ⟨x, List.mem_of_getElem? hx, B, List.mem_of_getElem? hB, rfl⟩
        cases hv with
        | @here _ _ _ Cs C hb' hC hv =>
          -- a variable bound by the new term is passed by one of its arguments, in which it is bound
          have hbs : G.bounds o sl (List.zipWith (renameIn ρ) xs Bs) = .ok (Bs.map (List.map ρ)) := by
            refine Verif.Scoped.fvsRule_map hb (by simp [hlen]) ?_ ?_
            · intro k x y B hx hy hB hsub
              rw [zipWith_getElem?, hx, hB] at hy
              cases hy
              constructor
              · unfold renameIn
                rw [extract_rename]
                exact List.map_congr_left (fun v hv => by rw [if_pos (hsub v hv)])
              · intro v e
                subst e
                unfold renameIn
                simp only [rename]
                rw [if_pos (hsub v (by simp [Expr.extract]))]
            · rintro a b ⟨B, hB, ha⟩ ⟨B', hB', hb'⟩ e
              obtain ⟨x, hx, hax⟩ := bounds_source hb B hB a ha
              obtain ⟨x', hx', hbx⟩ := bounds_source hb B' hB' b hb'
              exact h5 a b (hid x hx a hax) (hid x' hx' b hbx) e
          rw [hbs] at hb'
          cases hb'
          obtain ⟨B, hB, rfl⟩ := List.mem_map.1 hC
          obtain ⟨w, hw', rfl⟩ := List.mem_map.1 hv
          exact hP _ (hfB B hB w hw').1 (hfB B hB w hw').2
        | part hy hb' =>
          obtain ⟨x, hx, B, hB, rfl⟩ := src _ hy
          obtain ⟨w, hbw, e⟩ := boundIn_rename (renB_kind h4 B) (hw x hx)
            ((renB_inj h5 (fun v hv => (hfB B hB v hv).1)).mono (fun o ho => hid x hx o ho)) hb'
          subst e
          unfold renB
          split
          · rename_i hwB; exact hP _ (hfB B hB w hwB).1 (hfB B hB w hwB).2
          · exact (ih x hx).2.2 w hbw
  | @node t xs ht hs _ ih =>
    refine ⟨.node ht hs (fun x hx => (ih x hx).1), ?_, ?_⟩
    · intro v hv
      cases hv with
      | head => simp [Tag.isTerm] at ht
      | arg => simp [Tag.isTerm] at ht
      | part _ hx hf => exact (ih _ hx).2.1 v hf
    · intro v hv
      cases hv with
      | here => simp [Tag.isTerm] at ht
      | part hx hb => exact (ih _ hx).2.2 v hb

theorem freeHead_freeOp {G : Sigs} {v : Op} {e : Expr} (h : FreeHead G v e) : FreeOp G v e := by
  induction h with
  | head => exact .head
  | arg hb hx hB hv _ ih => exact .arg hb hx hB hv ih
  | part ht hx _ ih => exact .part ht hx ih

/-- C16: for expressions built with the API, whose bound variables are never taken out of terms,
`fvsof` returns exactly the free variables. -/
theorem C16_constructed_partial (G : Sigs) (P : Op → Prop) (e : Expr) (n : Nat) (h : Con G P e)
    (hid : ∀ o ∈ e.ops, o.id < n) :
    ∃ fvs, fvsof G e n = .ok fvs ∧ ∀ v, v ∈ fvs ↔ FreeHead G v e := by
  obtain ⟨hw, hf, hb⟩ := con_clean h
  exact C16_fvsof_exact_partial G e n hw hid
    (fun v hv hbv => hb v hbv (hf v (freeHead_freeOp hv)))

/-- C16, example: a term built with the API. -/
example : Con exSigs (fun o => o.id < 10) (lam (call2 (call0 ⟨11, 1⟩) (call0 vy)) ⟨11, 1⟩) := by
  refine .term (o := dfn) (sl := [.pos, .pos]) (xs := [call2 (call0 vx) (call0 vy), .op vx])
    (n := 10) (n' := 12)
    (by decide) rfl ?_ ?_ (by decide) (fun v h _ h' => by omega)
  · have c0 : ∀ v : Op, v.kind = 1 → v.id < 10 → Con exSigs (fun o => o.id < 10) (call0 v) := by
      intro v hk hv
      refine .term (o := v) (sl := []) (xs := []) (n := 10) (n' := 10) hv rfl (by simp) (by simp) ?_
        (fun v h h' _ => by omega)
      simp only [defdata, Sigs.bounds, exSigs, hk]
      rfl
    have c2 : Con exSigs (fun o => o.id < 10) (call2 (call0 vx) (call0 vy)) := by
      refine .term (o := fn) (sl := [.pos, .pos]) (xs := [call0 vx, call0 vy]) (n := 10) (n' := 10) (by decide) rfl ?_ (by decide)
        (by decide) (fun v h h' _ => by omega)
      simp [c0 vx rfl (by decide), c0 vy rfl (by decide)]
    simp [c2, Con.op (G := exSigs) (P := fun o => o.id < 10) (o := vx) (by decide)]
  · decide

end Verif.Terms
