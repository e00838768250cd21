import Verif.Scoped.Props

/-!
# The analysis of scopes commutes with renaming
-/

namespace Verif.Scoped

open Verif.Terms (Op Slot Expr uniq uniq_map mem_uniq)

/-- `y` passes the same operations as `x`, renamed by `r`. -/
structure Ext (r : Op → Op) (x y : Expr) : Prop where
  extract : y.extract = x.extract.map r
  op : ∀ o, x = .op o → y = .op (r o)

theorem forall2_argsOf {R : Expr → Expr → Prop} {is : List Nat} {xs ys : List Expr} {j : Nat}
    (hl : xs.length = ys.length)
    (h : ∀ (k : Nat) (x y : Expr), is[k]? = some j → xs[k]? = some x → ys[k]? = some y → R x y) :
    List.Forall₂ R (argsOf is xs j) (argsOf is ys j) := by
  induction is generalizing xs ys with
  | nil => simp [argsOf]
  | cons i is ih =>
    cases xs with
    | nil =>
      cases ys with
      | nil => simp [argsOf]
      | cons y ys => simp at hl
    | cons x xs =>
      cases ys with
      | nil => simp at hl
      | cons y ys =>
        have ih' := ih (xs := xs) (ys := ys) (by simpa using hl)
          (fun k x y h1 h2 h3 => h (k + 1) x y (by simpa using h1) (by simpa using h2)
            (by simpa using h3))
        rw [argsOf_cons, argsOf_cons]
        by_cases hi : i = j
        · rw [if_pos hi, if_pos hi]
          exact .cons (h 0 x y (by simp [hi]) rfl rfl) ih'
        · rw [if_neg hi, if_neg hi]
          exact ih'

theorem varsOf_op (vs : List Op) : varsOf (vs.map Expr.op) = .ok vs := by
  induction vs with
  | nil => rfl
  | cons v vs ih => simp [varsOf, ih, Except.map]

theorem nodup_map {r : Op → Op} {vs : List Op} (hn : vs.Nodup)
    (h : ∀ a ∈ vs, ∀ b ∈ vs, r a = r b → a = b) : (vs.map r).Nodup := by
  induction vs with
  | nil => simp
  | cons v vs ih =>
    rw [List.nodup_cons] at hn
    rw [List.map_cons, List.nodup_cons]
    refine ⟨?_, ih hn.2 (fun a ha b hb => h a (List.mem_cons_of_mem _ ha) b
      (List.mem_cons_of_mem _ hb))⟩
    intro hm
    obtain ⟨w, hw, e⟩ := List.mem_map.1 hm
    have := h w (List.mem_cons_of_mem _ hw) v List.mem_cons_self e
    exact hn.1 (this ▸ hw)

theorem paramVars_map {r : Op → Op} {p : Param} {vals vals' : List Expr} {vs : List Op}
    (h : paramVars p vals = .ok vs) (h2 : List.Forall₂ (Ext r) vals vals')
    (hi : ∀ a ∈ vs, ∀ b ∈ vs, r a = r b → a = b) : paramVars p vals' = .ok (vs.map r) := by
  unfold paramVars at h ⊢
  by_cases hv : p.isVar = true
  · rw [if_pos hv] at h ⊢
    cases h' : varsOf vals with
    | error e => rw [h'] at h; cases h
    | ok ws =>
      rw [h'] at h
      simp only at h
      split at h
      · rename_i hn
        cases h
        have hv' : vals' = (vs.map r).map Expr.op := by
          rw [varsOf_ok h'] at h2
          clear h' hn hi
          generalize hw : vs.map Expr.op = vals0 at h2
          induction h2 generalizing vs with
          | nil => rw [List.map_eq_nil_iff] at hw; subst hw; rfl
          | @cons x y xs' ys' h3 _ ih =>
            cases vs with
            | nil => simp at hw
            | cons w ws =>
              simp only [List.map_cons, List.cons.injEq] at hw
              rw [List.map_cons, List.map_cons, ← ih hw.2, h3.op w hw.1.symm]
        rw [hv', varsOf_op]
        simp only
        rw [if_pos (nodup_map hn hi)]
      · cases h
  · rw [if_neg hv] at h ⊢
    by_cases hne : p.anno.ordinal = ∅
    · rw [if_pos hne] at h ⊢
      cases h; rfl
    · rw [if_neg hne] at h ⊢
      cases h
      have : Expr.extractL vals' = (Expr.extractL vals).map r := by
        clear hi hv
        induction h2 with
        | nil => rfl
        | cons h3 _ ih => simp [Expr.extractL, h3.extract, ih]
      rw [this, uniq_map r]
      intro a ha b hb
      exact hi a (mem_uniq.2 ha) b (mem_uniq.2 hb)

theorem analyzeLoop_mono {is : List Nat} {xs : List Expr} {q r : Finset TyVar} (ps : List Param)
    (j : Nat) (b0 b : List Op) (h : analyzeLoop is xs q r j ps b0 = .ok b) : ∀ v ∈ b0, v ∈ b := by
  induction ps generalizing j b0 with
  | nil =>
    simp only [analyzeLoop, Except.ok.injEq] at h
    subst h
    exact fun _ h => h
  | cons p ps ih =>
    simp only [analyzeLoop] at h
    split at h
    · cases h' : paramVars p (argsOf is xs j) with
      | error e => rw [h'] at h; cases h
      | ok vs =>
        rw [h'] at h
        simp only at h
        split at h
        · cases h
        · intro v hv
          exact ih _ _ h v (List.mem_append_left _ hv)
    · exact ih _ _ h

theorem any_contains_map {r : Op → Op} {vs bs : List Op}
    (hi : ∀ a ∈ vs, ∀ b ∈ bs, r a = r b → a = b)
    (h : ¬ vs.any (fun v => bs.contains v) = true) :
    ¬ (vs.map r).any (fun v => (bs.map r).contains v) = true := by
  intro hc
  apply h
  rw [List.any_eq_true] at hc ⊢
  obtain ⟨w, hw, hb⟩ := hc
  obtain ⟨v, hv, rfl⟩ := List.mem_map.1 hw
  rw [List.contains_iff_mem] at hb
  obtain ⟨b, hb, e⟩ := List.mem_map.1 hb
  refine ⟨v, hv, ?_⟩
  rw [List.contains_iff_mem, hi v hv b hb e.symm]
  exact hb

theorem analyzeLoop_map {r : Op → Op} {is : List Nat} {xs ys : List Expr} {q t : Finset TyVar}
    (ps : List Param) (j : Nat) (b0 b : List Op)
    (h : analyzeLoop is xs q t j ps b0 = .ok b)
    (hv : ∀ (i : Nat) (p : Param) (vs : List Op), ps[i]? = some p → ¬ p.anno.ordinal ⊆ t →
      paramVars p (argsOf is xs (j + i)) = .ok vs →
      List.Forall₂ (Ext r) (argsOf is xs (j + i)) (argsOf is ys (j + i)))
    (hi : ∀ a ∈ b, ∀ c ∈ b, r a = r c → a = c) :
    analyzeLoop is ys q t j ps (b0.map r) = .ok (b.map r) := by
  induction ps generalizing j b0 with
  | nil =>
    simp only [analyzeLoop, Except.ok.injEq] at h ⊢
    rw [h]
  | cons p ps ih =>
    have hv' : ∀ (i : Nat) (p : Param) (vs : List Op), ps[i]? = some p → ¬ p.anno.ordinal ⊆ t →
        paramVars p (argsOf is xs (j + 1 + i)) = .ok vs →
        List.Forall₂ (Ext r) (argsOf is xs (j + 1 + i)) (argsOf is ys (j + 1 + i)) := by
      intro i p vs h1 h2 h3
      have e : j + 1 + i = j + (i + 1) := by omega
      rw [e] at h3 ⊢
      exact hv (i + 1) p vs (by simpa using h1) h2 h3
    simp only [analyzeLoop] at h ⊢
    by_cases hc : p.anno.ordinal ⊆ q ∧ ¬ p.anno.ordinal ⊆ t
    · rw [if_pos hc] at h ⊢
      cases h' : paramVars p (argsOf is xs j) with
      | error e => rw [h'] at h; cases h
      | ok vs =>
        rw [h'] at h
        simp only at h
        split at h
        · cases h
        · rename_i hd
          have hm := analyzeLoop_mono _ _ _ _ h
          have hvs : ∀ a ∈ vs, a ∈ b := fun a ha => hm a (List.mem_append_right _ ha)
          have hbs : ∀ a ∈ b0, a ∈ b := fun a ha => hm a (List.mem_append_left _ ha)
          rw [paramVars_map (vals' := argsOf is ys j) h' (hv 0 p vs rfl hc.2 h')
            (fun a ha c hc => hi a (hvs a ha) c (hvs c hc))]
          simp only
          rw [if_neg (any_contains_map (fun a ha c hc => hi a (hvs a ha) c (hbs c hc)) hd),
            ← List.map_append]
          exact ih _ _ h hv'
    · rw [if_neg hc] at h ⊢
      exact ih _ _ h hv'

/-- What the analysis of a call tells about each argument and about the bound variables. -/
structure Facts (s : Sig) (is : List Nat) (xs : List Expr) (as : List (List Op)) : Prop where
  /-- an argument of a binding parameter has all its operations bound in itself -/
  own : ∀ (k i : Nat) (p : Param) (x : Expr), is[k]? = some i → s.params[i]? = some p →
    xs[k]? = some x → ¬ p.anno.ordinal ⊆ s.ret.ordinal → ∀ v ∈ x.extract, v ∈ as.getD i []
  /-- each bound variable is passed by some argument, in which it is bound -/
  source : ∀ A ∈ as, ∀ v ∈ A, ∃ (k i : Nat), is[k]? = some i ∧ v ∈ as.getD i [] ∧
    ∃ x, xs[k]? = some x ∧ v ∈ x.extract

theorem passes_extract {p : Param} {x : Expr} {v : Op} (h : Passes p x v) : v ∈ x.extract := by
  unfold Passes at h
  split at h
  · rw [h]; simp [Expr.extract]
  · exact (inside_iff v x).1 h

theorem joined_ne (s : Sig) (f : TyVar) :
    ∀ p ∈ (s.joined (s.rootOr f)).params, p.anno.ordinal ≠ ∅ := by
  intro p hp
  simp only [Sig.joined, List.mem_map] at hp
  obtain ⟨p', _, rfl⟩ := hp
  intro he
  apply rootOr_ne s f
  rw [← Finset.subset_empty, ← he]
  exact Finset.subset_union_right

theorem analyzeLoop_vars {is : List Nat} {xs : List Expr} {q r : Finset TyVar} (ps : List Param)
    (j : Nat) (b0 b : List Op) (h : analyzeLoop is xs q r j ps b0 = .ok b) :
    ∀ (i : Nat) (p : Param), ps[i]? = some p → p.anno.ordinal ⊆ q → ¬ p.anno.ordinal ⊆ r →
      ∃ vs, paramVars p (argsOf is xs (j + i)) = .ok vs := by
  induction ps generalizing j b0 with
  | nil => intro i p hp; simp at hp
  | cons p ps ih =>
    intro i p' hp h1 h2
    simp only [analyzeLoop] at h
    cases i with
    | zero =>
      simp only [List.getElem?_cons_zero, Option.some.injEq] at hp
      subst hp
      rw [if_pos ⟨h1, h2⟩] at h
      cases h' : paramVars p (argsOf is xs j) with
      | error e => rw [h'] at h; cases h
      | ok vs => exact ⟨vs, rfl⟩
    | succ i =>
      have e : j + (i + 1) = j + 1 + i := by omega
      rw [e]
      split at h
      · cases h' : paramVars p (argsOf is xs j) with
        | error e => rw [h'] at h; cases h
        | ok vs =>
          rw [h'] at h
          simp only at h
          split at h
          · cases h
          · exact ih _ _ h i p' (by simpa using hp) h1 h2
      · exact ih _ _ h i p' (by simpa using hp) h1 h2

theorem passes_of_extract {p : Param} {vals : List Expr} {vs : List Op}
    (h : paramVars p vals = .ok vs) {x : Expr} (hx : x ∈ vals) {v : Op} (hv : v ∈ x.extract) :
    Passes p x v := by
  unfold Passes
  split
  · rename_i hp
    unfold paramVars at h
    rw [if_pos hp] at h
    cases h' : varsOf vals with
    | error e => rw [h'] at h; cases h
    | ok ws =>
      rw [varsOf_ok h'] at hx
      obtain ⟨w, _, rfl⟩ := List.mem_map.1 hx
      simp only [Expr.extract, List.mem_singleton] at hv
      rw [hv]
  · exact (inside_iff v x).2 hv

theorem facts {s : Sig} {f : TyVar} {is : List Nat} {xs : List Expr} {as : List (List Op)}
    (has : (s.joined (s.rootOr f)).params.map ((s.joined (s.rootOr f)).analyze is xs) =
      as.map .ok) : Facts (s.joined (s.rootOr f)) is xs as := by
  have hne := joined_ne s f
  generalize s.joined (s.rootOr f) = s' at has hne
  have hA : ∀ (i : Nat) (p : Param), s'.params[i]? = some p → ∃ A, as[i]? = some A ∧
      s'.analyze is xs p = .ok A := by
    intro i p hp
    have h1 := congrArg (fun l => l[i]?) has
    simp only [List.getElem?_map, hp, Option.map_some] at h1
    cases hi : as[i]? with
    | none => rw [hi] at h1; cases h1
    | some A =>
      rw [hi] at h1
      simp only [Option.map_some, Option.some.injEq] at h1
      exact ⟨A, rfl, h1⟩
  have own : ∀ (k i : Nat) (p : Param) (x : Expr), is[k]? = some i → s'.params[i]? = some p →
      xs[k]? = some x → ¬ p.anno.ordinal ⊆ s'.ret.ordinal → ∀ v ∈ x.extract, v ∈ as.getD i [] := by
    intro k i p x hk hp hx hb v hv
    obtain ⟨A, hA1, hA2⟩ := hA i p hp
    rw [List.getD_eq_getElem?_getD, hA1, Option.getD_some]
    unfold Sig.analyze at hA2
    obtain ⟨vs, hvs⟩ := analyzeLoop_vars _ _ _ _ hA2 i p hp (Finset.Subset.refl _) hb
    have hxa : x ∈ argsOf is xs (0 + i) := mem_argsOf.2 ⟨k, by simpa using hk, hx⟩
    rw [(analyzeLoop_ok _ hne 0 [] A List.nodup_nil hA2).2 v]
    exact .inr ⟨i, p, hp, Finset.Subset.refl _, hb, x, hxa, passes_of_extract hvs hxa hv⟩
  refine ⟨own, ?_⟩
  intro A hAm v hv
  obtain ⟨m, hm⟩ := List.mem_iff_getElem?.1 hAm
  have h1 := congrArg (fun l => l[m]?) has
  simp only [List.getElem?_map, hm, Option.map_some] at h1
  cases hq : s'.params[m]? with
  | none => rw [hq] at h1; cases h1
  | some q =>
    rw [hq] at h1
    simp only [Option.map_some, Option.some.injEq] at h1
    unfold Sig.analyze at h1
    rw [(analyzeLoop_ok _ hne 0 [] A List.nodup_nil h1).2 v] at hv
    rcases hv with hv | ⟨i, p, hp, _, hb, x, hx, hpass⟩
    · cases hv
    · obtain ⟨k, hk1, hk2⟩ := mem_argsOf.1 hx
      rw [Nat.zero_add] at hk1
      exact ⟨k, i, hk1, own k i p x hk1 hp hk2 hb v (passes_extract hpass), x, hk2,
        passes_extract hpass⟩

/-- The bound variables of a call come from its arguments. -/
theorem fvsRule_source {s : Sig} {f : TyVar} {sl : List Slot} {xs : List Expr}
    {Bs : List (List Op)} (h : s.fvsRule f sl xs = .ok Bs) :
    ∀ B ∈ Bs, ∀ v ∈ B, ∃ x ∈ xs, v ∈ x.extract := by
  obtain ⟨_, is, as, _, has, rfl⟩ := fvsRule_inv h
  have fa := facts has
  intro B hB v hv
  obtain ⟨i, _, rfl⟩ := List.mem_map.1 hB
  rw [List.getD_eq_getElem?_getD] at hv
  cases hi : as[i]? with
  | none => rw [hi] at hv; cases hv
  | some A =>
    rw [hi, Option.getD_some] at hv
    obtain ⟨k, _, _, _, x, hx, hvx⟩ := fa.source A (List.mem_of_getElem? hi) v hv
    exact ⟨x, List.mem_of_getElem? hx, hvx⟩

theorem fvsRule_length {s : Sig} {f : TyVar} {sl : List Slot} {xs : List Expr}
    {Bs : List (List Op)} (h : s.fvsRule f sl xs = .ok Bs) : Bs.length = sl.length := by
  obtain ⟨_, is, as, hb, _, rfl⟩ := fvsRule_inv h
  rw [List.length_map, bind_length hb]

/-- If the arguments in which all passed operations are bound are changed by a renaming `r`, then
the bound variables are changed by `r`. -/
theorem fvsRule_map {s : Sig} {f : TyVar} {sl : List Slot} {xs ys : List Expr}
    {Bs : List (List Op)} {r : Op → Op} (h : s.fvsRule f sl xs = .ok Bs)
    (hl : xs.length = ys.length)
    (hext : ∀ (k : Nat) (x y : Expr) (B : List Op), xs[k]? = some x → ys[k]? = some y →
      Bs[k]? = some B → (∀ v ∈ x.extract, v ∈ B) → Ext r x y)
    (hi : ∀ a b, (∃ B ∈ Bs, a ∈ B) → (∃ B ∈ Bs, b ∈ B) → r a = r b → a = b) :
    s.fvsRule f sl ys = .ok (Bs.map (List.map r)) := by
  obtain ⟨ha, is, as, hb, has, rfl⟩ := fvsRule_inv h
  have fa := facts has
  have hi' : ∀ A ∈ as, ∀ v ∈ A, ∃ B ∈ is.map (fun i => as.getD i []), v ∈ B := by
    intro A hA v hv
    obtain ⟨k, i, hk, hvi, _⟩ := fa.source A hA v hv
    exact ⟨_, List.mem_map.2 ⟨i, List.mem_of_getElem? hk, rfl⟩, hvi⟩
  unfold Sig.fvsRule
  rw [infer_ok s f ha]
  simp only [bind_joined, hb]
  have hmap : (s.joined (s.rootOr f)).params.map ((s.joined (s.rootOr f)).analyze is ys) =
      (as.map (List.map r)).map .ok := by
    have hl' := congrArg List.length has
    rw [List.length_map, List.length_map] at hl'
    apply List.ext_getElem
    · simp [hl']
    · intro m h1 h2
      have hm : m < as.length := by simpa using h2
      have hp : m < (s.joined (s.rootOr f)).params.length := by simpa using h1
      have e := congrArg (fun l => l[m]?) has
      simp only [List.getElem?_map, List.getElem?_eq_getElem hp, List.getElem?_eq_getElem hm,
        Option.map_some, Option.some.injEq] at e
      simp only [List.getElem_map]
      unfold Sig.analyze at e ⊢
      rw [← analyzeLoop_map (r := r) _ 0 [] _ e]
      · rfl
      · intro i p vs hp' hnb hvs
        rw [Nat.zero_add]
        apply forall2_argsOf hl
        intro k x y hk hx hy
        have hBk : (is.map (fun i => as.getD i []))[k]? = some (as.getD i []) := by
          rw [List.getElem?_map, hk]; rfl
        exact hext k x y _ hx hy hBk (fa.own k i p x hk hp' hx hnb)
      · intro a haa c hcc
        exact hi a c (hi' _ (List.getElem_mem hm) a haa) (hi' _ (List.getElem_mem hm) c hcc)
  rw [hmap]
  have hall : ∀ l : List (List Op), allOk (l.map .ok) = .ok l := by
    intro l
    induction l with
    | nil => rfl
    | cons a l ih => simp [allOk, ih, Except.map]
  rw [hall]
  simp only [List.map_map, Except.ok.injEq]
  apply List.map_congr_left
  intro i _
  simp only [Function.comp, List.getD_eq_getElem?_getD, List.getElem?_map]
  cases as[i]? <;> rfl

end Verif.Scoped
