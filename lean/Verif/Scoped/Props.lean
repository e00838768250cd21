import Verif.Scoped.Model

/-!
# Scopes: properties C21 and C22
-/

namespace Verif.Scoped

open Verif.Terms (Op Slot Expr)

/-! ## Specification -/

/-- A signature all of whose scopes avoid the type variable `t`. -/
def Sig.Avoids (s : Sig) (t : TyVar) : Prop :=
  ∀ a ∈ s.annos, t ∉ a.ordinal ∧ t ∉ a.tyvars

/-- `v` is found inside `x` by looking into dicts, lists, sets and tuples. -/
inductive Inside (v : Op) : Expr → Prop where
  | here : Inside v (.op v)
  | list {x xs} : x ∈ xs → Inside v x → Inside v (.node (.seq .list) xs)
  | tuple {x xs} : x ∈ xs → Inside v x → Inside v (.node (.seq .tuple) xs)
  | set {x xs} : x ∈ xs → Inside v x → Inside v (.node .set xs)
  | dict {x xs} : x ∈ xs → Inside v x → Inside v (.node (.map .dict) xs)
  | named {c fs x xs} : x ∈ xs → Inside v x → Inside v (.node (.named c fs) xs)

/-- `v` is passed in argument `x` of parameter `p`: it is the argument, if `p` is an operation
parameter, otherwise it is found inside the argument. -/
def Passes (p : Param) (x : Expr) (v : Op) : Prop :=
  if p.isVar then x = .op v else Inside v x

/-- The parameter `p` binds, in arguments of parameter `q`, what is passed for it: its scope is
contained in the scope of `q` and not in that of the result. -/
def BindsIn (s : Sig) (p q : Param) : Prop :=
  p.anno.ordinal ⊆ q.anno.ordinal ∧ ¬ p.anno.ordinal ⊆ s.ret.ordinal

/-! ## Scope inference -/

theorem mem_root_aux (as : List Anno) (acc : Finset TyVar) (t : TyVar) :
    t ∈ as.foldl (fun acc a => acc ∩ a.ordinal) acc ↔ t ∈ acc ∧ ∀ a ∈ as, t ∈ a.ordinal := by
  induction as generalizing acc with
  | nil => simp
  | cons a as ih => simp [ih, and_assoc]

theorem mem_root (s : Sig) (t : TyVar) : t ∈ s.root ↔ ∀ a ∈ s.annos, t ∈ a.ordinal := by
  unfold Sig.root Sig.annos
  rw [mem_root_aux]
  simp

theorem rootOr_ne (s : Sig) (f : TyVar) : s.rootOr f ≠ ∅ := by
  unfold Sig.rootOr
  split
  · simp
  · assumption

/-- The signature that `infer` builds. -/
def Sig.joined (s : Sig) (root : Finset TyVar) : Sig :=
  { params := s.params.map (fun p => { p with anno := p.anno.join root })
    ret := s.ret.join root }

theorem ordinal_join (root : Finset TyVar) (a : Anno) :
    (a.join root).ordinal = a.ordinal ∪ root := rfl

theorem annos_joined (s : Sig) (root : Finset TyVar) :
    (s.joined root).annos = s.annos.map (Anno.join root) := by
  simp [Sig.joined, Sig.annos]

theorem root_joined (s : Sig) (f : TyVar) :
    (s.joined (s.rootOr f)).root = s.rootOr f := by
  ext t
  rw [mem_root, annos_joined]
  simp only [List.mem_map, forall_exists_index, and_imp, forall_apply_eq_imp_iff₂, ordinal_join,
    Finset.mem_union]
  constructor
  · intro h
    by_contra hn
    have : t ∈ s.root := (mem_root s t).2 (fun a ha => (h a ha).resolve_right hn)
    unfold Sig.rootOr at hn
    split at hn
    · rename_i he; rw [he] at this; simp at this
    · exact hn this
  · intro h a _
    exact .inr h

/-- The three preconditions of `infer_annotations`. -/
def Sig.Accepted (s : Sig) : Prop :=
  s.singleScope = true ∧ s.noOverlap = true ∧ s.noBoundInResult = true

theorem infer_ok (s : Sig) (f : TyVar) (h : s.Accepted) :
    s.infer f = .ok (s.joined (s.rootOr f)) := by
  obtain ⟨h1, h2, h3⟩ := h
  have h4 := root_joined s f
  have h5 := rootOr_ne s f
  unfold Sig.joined at h4 ⊢
  simp [Sig.infer, h1, h2, h3, h4, h5]

theorem infer_error (s : Sig) (f : TyVar) (h : ¬ s.Accepted) : s.infer f = .error .assertion := by
  unfold Sig.Accepted at h
  unfold Sig.infer
  cases h1 : s.singleScope <;> simp
  cases h2 : s.noOverlap <;> simp
  cases h3 : s.noBoundInResult <;> simp
  exact absurd ⟨h1, h2, h3⟩ h

theorem infer_inv {s : Sig} {f : TyVar} {s' : Sig} (h : s.infer f = .ok s') :
    s.Accepted ∧ s' = s.joined (s.rootOr f) := by
  by_cases ha : s.Accepted
  · rw [infer_ok s f ha] at h
    exact ⟨ha, (by simpa using h.symm)⟩
  · rw [infer_error s f ha] at h
    cases h

/-- C21: inference succeeds exactly if no parameter has several scopes, no type variable of a scope is used in a type, and each
operation parameter whose scope is in the scope of the result is in all scopes; so the postcondition never fails. -/
theorem C21_inference_succeeds (s : Sig) (f : TyVar) :
    (∃ s', s.infer f = .ok s') ↔
      (∀ p ∈ s.params, p.anno.scopes = [] ∨ ∃ o, p.anno.scopes = [o]) ∧
      (∀ a ∈ s.annos, ∀ b ∈ s.annos, ∀ t ∈ a.ordinal, t ∉ b.tyvars) ∧
      (∀ p ∈ s.params, p.isVar = true → p.anno.ordinal ⊆ s.ret.ordinal → ∀ a ∈ s.annos, p.anno.ordinal ⊆ a.ordinal) := by
  have hacc : (∃ s', s.infer f = .ok s') ↔ s.Accepted := by
    constructor
    · rintro ⟨s', h⟩
      exact (infer_inv h).1
    · intro h
      exact ⟨_, infer_ok s f h⟩
  rw [hacc, Sig.Accepted]
  refine and_congr ?_ (and_congr ?_ ?_)
  · simp only [Sig.singleScope, List.all_eq_true, decide_eq_true_eq]
    refine forall₂_congr fun p _ => ?_
    match p.anno.scopes with
    | [] => simp
    | [o] => simp
    | a :: b :: l => simp
  · simp only [Sig.noOverlap, List.all_eq_true, decide_eq_true_eq]
    refine forall₂_congr fun a _ => forall₂_congr fun b _ => ?_
    rw [Finset.eq_empty_iff_forall_notMem]
    simp only [Finset.mem_inter, not_and]
    exact ⟨fun h t h1 h2 => h t h2 h1, fun h t h1 h2 => h t h2 h1⟩
  · simp only [Sig.noBoundInResult, Bool.not_eq_eq_eq_not, Bool.not_true, List.any_eq_false, Bool.and_eq_true,
      decide_eq_true_eq, not_and]
    refine forall₂_congr fun p hp => forall_congr' fun hv => ?_
    constructor
    · intro h hr a ha t ht
      by_contra hn
      exact h (Finset.ssubset_iff_subset_ne.2 ⟨fun u hu => (mem_root s u).1 hu _ (List.mem_cons_of_mem _ (List.mem_map_of_mem hp)),
        fun e => hn ((mem_root s t).1 (e ▸ ht) a ha)⟩) hr
    · intro h hs hr
      obtain ⟨h1, h2⟩ := Finset.ssubset_iff_subset_ne.1 hs
      exact h2 (Finset.Subset.antisymm h1 fun t ht => (mem_root s t).2 fun a ha => h hr a ha ht)

/-- C21: every parameter and the result get exactly one scope, and all scopes contain a common
non-empty root scope; nothing else of the signature changes. -/
theorem C21_root_scope (s s' : Sig) (f : TyVar) (h : s.infer f = .ok s') :
    (∃ root : Finset TyVar, root ≠ ∅ ∧ ∀ a ∈ s'.annos, a.scopes.length = 1 ∧ root ⊆ a.ordinal) ∧
    s'.annos.map (fun a => (a.other, a.tyvars)) = s.annos.map (fun a => (a.other, a.tyvars)) ∧
    s'.params.map (fun p => (p.kind, p.isVar)) = s.params.map (fun p => (p.kind, p.isVar)) := by
  obtain ⟨_, rfl⟩ := infer_inv h
  refine ⟨⟨s.rootOr f, rootOr_ne s f, ?_⟩, ?_, ?_⟩
  · intro a ha
    rw [annos_joined] at ha
    obtain ⟨b, _, rfl⟩ := List.mem_map.1 ha
    exact ⟨rfl, by rw [ordinal_join]; exact Finset.subset_union_right⟩
  · rw [annos_joined]; simp [Anno.join, Function.comp_def]
  · simp [Sig.joined, Function.comp_def]

theorem join_sub_iff (s : Sig) (f : TyVar) (hf : s.Avoids f) (a b : Anno) (ha : a ∈ s.annos)
    (hb : b ∈ s.annos) :
    (a.join (s.rootOr f)).ordinal ⊆ (b.join (s.rootOr f)).ordinal ↔ a.ordinal ⊆ b.ordinal := by
  simp only [ordinal_join]
  constructor
  · intro h t ht
    have h1 := h (Finset.mem_union_left _ ht)
    rcases Finset.mem_union.1 h1 with h2 | h2
    · exact h2
    · unfold Sig.rootOr at h2
      split at h2
      · rw [Finset.mem_singleton] at h2
        subst h2
        exact absurd ht (hf a ha).1
      · exact (mem_root s t).1 h2 b hb
  · intro h
    exact Finset.union_subset_union_left h

/-- C21: inference keeps the relative scopes: of any two annotations, one is contained in the other
after inference iff it was before. -/
theorem C21_relative_scopes (s s' : Sig) (f : TyVar) (hf : s.Avoids f) (h : s.infer f = .ok s')
    (i j : Nat) (a b a' b' : Anno) (ha : s.annos[i]? = some a) (hb : s.annos[j]? = some b)
    (ha' : s'.annos[i]? = some a') (hb' : s'.annos[j]? = some b') :
    a'.ordinal ⊆ b'.ordinal ↔ a.ordinal ⊆ b.ordinal := by
  obtain ⟨_, rfl⟩ := infer_inv h
  rw [annos_joined, List.getElem?_map] at ha' hb'
  rw [ha] at ha'
  rw [hb] at hb'
  simp only [Option.map_some, Option.some.injEq] at ha' hb'
  subst ha' hb'
  exact join_sub_iff s f hf a b (List.mem_of_getElem? ha) (List.mem_of_getElem? hb)

theorem root_sub (s : Sig) (a : Anno) (ha : a ∈ s.annos) : s.root ⊆ a.ordinal :=
  fun t ht => (mem_root s t).1 ht a ha

theorem ret_mem (s : Sig) : s.ret ∈ s.annos := by simp [Sig.annos]

theorem param_mem (s : Sig) (p : Param) (h : p ∈ s.params) : p.anno ∈ s.annos := by
  simp only [Sig.annos, List.mem_cons, List.mem_map]
  exact .inr ⟨p, h, rfl⟩

theorem joined_accepted (s : Sig) (f : TyVar) (hf : s.Avoids f) (h : s.Accepted) :
    (s.joined (s.rootOr f)).Accepted := by
  obtain ⟨h1, h2, h3⟩ := h
  refine ⟨?_, ?_, ?_⟩
  · simp [Sig.singleScope, Sig.joined, Anno.join]
  · unfold Sig.noOverlap at h2 ⊢
    rw [annos_joined]
    simp only [List.all_map, List.all_eq_true, Function.comp_apply, decide_eq_true_eq] at h2 ⊢
    intro a ha b hb
    have h4 := h2 a ha b hb
    rw [ordinal_join]
    show b.tyvars ∩ _ = ∅
    rw [Finset.inter_union_distrib_left, h4]
    rw [show (∅ ∪ b.tyvars ∩ s.rootOr f : Finset TyVar) = b.tyvars ∩ s.rootOr f from by simp]
    unfold Sig.rootOr
    split
    · rw [Finset.eq_empty_iff_forall_notMem]
      intro t ht
      rw [Finset.mem_inter, Finset.mem_singleton] at ht
      exact (hf b hb).2 (ht.2 ▸ ht.1)
    · rw [Finset.eq_empty_iff_forall_notMem]
      intro t ht
      rw [Finset.mem_inter] at ht
      have : t ∈ b.tyvars ∩ a.ordinal := Finset.mem_inter.2 ⟨ht.1, root_sub s a ha ht.2⟩
      rw [h4] at this
      simp at this
  · unfold Sig.noBoundInResult at h3 ⊢
    rw [root_joined]
    simp only [Bool.not_eq_eq_eq_not, Bool.not_true, List.any_eq_false, Bool.and_eq_true,
      decide_eq_true_eq, not_and] at h3 ⊢
    intro p' hp' hv hs hr
    simp only [Sig.joined, List.mem_map] at hp'
    obtain ⟨p, hp, rfl⟩ := hp'
    have hpa := param_mem s p hp
    have h5 : (p.anno.join (s.rootOr f)).ordinal ⊆ (s.ret.join (s.rootOr f)).ordinal := hr
    rw [join_sub_iff s f hf _ _ hpa (ret_mem s)] at h5
    refine h3 p hp hv ?_ h5
    refine Finset.ssubset_iff_subset_ne.2 ⟨root_sub s _ hpa, ?_⟩
    intro e
    rw [ordinal_join] at hs
    apply hs.ne
    unfold Sig.rootOr at *
    split
    · rename_i he
      rw [← e, he]; simp
    · rw [← e]; simp

theorem join_join (root : Finset TyVar) (a : Anno) : (a.join root).join root = a.join root := by
  have : (a.join root).ordinal ∪ root = a.ordinal ∪ root := by
    rw [ordinal_join, Finset.union_assoc, Finset.union_self]
  exact congrArg (fun z => ({ scopes := [z], other := a.other, tyvars := a.tyvars } : Anno)) this

/-- C21: inference is idempotent. -/
theorem C21_idempotent (s s' : Sig) (f g : TyVar) (hf : s.Avoids f) (h : s.infer f = .ok s') :
    s'.infer g = .ok s' := by
  obtain ⟨ha, rfl⟩ := infer_inv h
  rw [infer_ok _ _ (joined_accepted s f hf ha)]
  have hr : (s.joined (s.rootOr f)).rootOr g = s.rootOr f := by
    show (if (s.joined (s.rootOr f)).root = ∅ then _ else _) = _
    rw [root_joined, if_neg (rootOr_ne s f)]
  rw [hr]
  simp only [Sig.joined, List.map_map, Function.comp_def, join_join]

/-- The signature of `deffn` (`ops/syntax.py` 388-393): type variables `T = 0, A = 1, B = 2`. -/
def deffnSig : Sig where
  params := [
    ⟨.pos, false, ⟨[{1, 2}], [], {0}⟩⟩,
    ⟨.varPos, true, ⟨[{1}], [], ∅⟩⟩,
    ⟨.varKw, true, ⟨[{1}], [], ∅⟩⟩]
  ret := ⟨[{2}], [], {0}⟩

/-- The signature of `Let` (`ops/syntax.py` 103-109): `S = 0, T = 3, A = 1, B = 2`. -/
def letSig : Sig where
  params := [
    ⟨.pos, true, ⟨[{1}], [], {0}⟩⟩,
    ⟨.pos, false, ⟨[{2}], [], {0}⟩⟩,
    ⟨.pos, false, ⟨[{1, 2}], [], {3}⟩⟩]
  ret := ⟨[{2}], [], {3}⟩

/-- C21, example: `deffn` and `Let` are accepted and avoid a new type variable. -/
example : deffnSig.Accepted ∧ letSig.Accepted ∧ deffnSig.Avoids 9 ∧ letSig.Avoids 9 := by
  refine ⟨⟨rfl, rfl, rfl⟩, ⟨rfl, rfl, rfl⟩, ?_, ?_⟩ <;>
    simp [Sig.Avoids, Sig.annos, deffnSig, letSig, Anno.ordinal]

/-- C21, example: a signature that is rejected, since its variable would be free in the result. -/
example : ¬ (⟨[⟨.pos, true, ⟨[{1}], [], ∅⟩⟩, ⟨.pos, false, ⟨[{2}], [], ∅⟩⟩],
    ⟨[{1, 2}], [], ∅⟩⟩ : Sig).Accepted := by
  rintro ⟨-, -, h⟩
  revert h
  decide

/-! ## Bound variables -/

theorem inside_iff (v : Op) (x : Expr) : Inside v x ↔ v ∈ x.extract := by
  constructor
  · intro h
    induction h with
    | here => simp [Expr.extract]
    | list hx _ ih => rw [Expr.extract, Expr.extractL_eq]; exact List.mem_flatMap.2 ⟨_, hx, ih⟩
    | tuple hx _ ih => rw [Expr.extract, Expr.extractL_eq]; exact List.mem_flatMap.2 ⟨_, hx, ih⟩
    | set hx _ ih => rw [Expr.extract, Expr.extractL_eq]; exact List.mem_flatMap.2 ⟨_, hx, ih⟩
    | dict hx _ ih => rw [Expr.extract, Expr.extractL_eq]; exact List.mem_flatMap.2 ⟨_, hx, ih⟩
    | named hx _ ih => rw [Expr.extract, Expr.extractL_eq]; exact List.mem_flatMap.2 ⟨_, hx, ih⟩
  · induction x using Expr.ind with
    | atom a => simp [Expr.extract]
    | op o => simp only [Expr.extract, List.mem_singleton]; rintro rfl; exact .here
    | node t xs ih =>
      intro h
      rw [Expr.extract_node] at h
      cases t with
      | term o sl => simp [Expr.Tag.entered] at h
      | data c fs => simp [Expr.Tag.entered] at h
      | seq k =>
        cases k with
        | list =>
          simp only [Expr.Tag.entered, if_true, Expr.extractL_eq, List.mem_flatMap] at h
          obtain ⟨x, hx, hv⟩ := h
          exact .list hx (ih x hx hv)
        | tuple =>
          simp only [Expr.Tag.entered, if_true, Expr.extractL_eq, List.mem_flatMap] at h
          obtain ⟨x, hx, hv⟩ := h
          exact .tuple hx (ih x hx hv)
        | other n b => simp [Expr.Tag.entered] at h
      | set =>
        simp only [Expr.Tag.entered, if_true, Expr.extractL_eq, List.mem_flatMap] at h
        obtain ⟨x, hx, hv⟩ := h
        exact .set hx (ih x hx hv)
      | map k =>
        cases k with
        | dict =>
          simp only [Expr.Tag.entered, if_true, Expr.extractL_eq, List.mem_flatMap] at h
          obtain ⟨x, hx, hv⟩ := h
          exact .dict hx (ih x hx hv)
        | other n => simp [Expr.Tag.entered] at h
      | named c fs =>
        simp only [Expr.Tag.entered, if_true, Expr.extractL_eq, List.mem_flatMap] at h
        obtain ⟨x, hx, hv⟩ := h
        exact .named hx (ih x hx hv)

theorem varsOf_ok {xs : List Expr} {vs : List Op} (h : varsOf xs = .ok vs) :
    xs = vs.map Expr.op := by
  induction xs generalizing vs with
  | nil => simp only [varsOf, Except.ok.injEq] at h; subst h; rfl
  | cons x xs ih =>
    cases x with
    | op o =>
      simp only [varsOf] at h
      cases h' : varsOf xs with
      | error e => rw [h'] at h; cases h
      | ok ws =>
        rw [h'] at h
        simp only [Except.map, Except.ok.injEq] at h
        subst h
        rw [ih h']; rfl
    | atom a => simp [varsOf] at h
    | node t ys => simp [varsOf] at h

theorem mem_argsOf {is : List Nat} {xs : List Expr} {j : Nat} {x : Expr} :
    x ∈ argsOf is xs j ↔ ∃ k : Nat, is[k]? = some j ∧ xs[k]? = some x := by
  unfold argsOf
  constructor
  · intro h
    obtain ⟨⟨i, y⟩, h1, rfl⟩ := List.mem_map.1 h
    obtain ⟨h2, h3⟩ := List.mem_filter.1 h1
    simp only [decide_eq_true_eq] at h3
    subst h3
    obtain ⟨k, hk⟩ := List.mem_iff_getElem?.1 h2
    rw [List.getElem?_zip_eq_some] at hk
    exact ⟨k, hk.1, hk.2⟩
  · rintro ⟨k, h1, h2⟩
    refine List.mem_map.2 ⟨(j, x), List.mem_filter.2 ⟨?_, by simp⟩, rfl⟩
    exact List.mem_iff_getElem?.2 ⟨k, List.getElem?_zip_eq_some.2 ⟨h1, h2⟩⟩

theorem paramVars_ok {p : Param} {vals : List Expr} {vs : List Op}
    (hne : p.anno.ordinal ≠ ∅) (h : paramVars p vals = .ok vs) :
    vs.Nodup ∧ ∀ v, v ∈ vs ↔ ∃ x ∈ vals, Passes p x v := by
  unfold paramVars at h
  unfold Passes
  by_cases hv : p.isVar = true
  · rw [if_pos hv] at h
    cases h' : varsOf vals with
    | error e => rw [h'] at h; cases h
    | ok ws =>
      rw [h'] at h
      simp only at h
      split at h
      · rename_i hn
        cases h
        refine ⟨hn, fun v => ?_⟩
        rw [varsOf_ok h']
        simp [hv]
      · cases h
  · rw [if_neg hv, if_neg hne] at h
    cases h
    refine ⟨Verif.Terms.nodup_uniq _, fun v => ?_⟩
    simp [hv, Verif.Terms.mem_uniq, Expr.extractL_eq, inside_iff]

theorem analyzeLoop_ok {is : List Nat} {xs : List Expr} {q r : Finset TyVar} (ps : List Param)
    (hne : ∀ p ∈ ps, p.anno.ordinal ≠ ∅) (j : Nat) (b0 b : List Op) (hn : b0.Nodup)
    (h : analyzeLoop is xs q r j ps b0 = .ok b) :
    b.Nodup ∧ ∀ v, v ∈ b ↔ v ∈ b0 ∨ ∃ (i : Nat) (p : Param), ps[i]? = some p ∧ p.anno.ordinal ⊆ q ∧
      ¬ p.anno.ordinal ⊆ r ∧ ∃ x ∈ argsOf is xs (j + i), Passes p x v := by
  induction ps generalizing j b0 with
  | nil =>
    simp only [analyzeLoop, Except.ok.injEq] at h
    subst h
    simp [hn]
  | cons p ps ih =>
    have step : ∀ (Q : Nat → Param → Prop), (∃ i p', (p :: ps)[i]? = some p' ∧ Q i p') ↔
        Q 0 p ∨ ∃ i p', ps[i]? = some p' ∧ Q (i + 1) p' := by
      intro Q
      constructor
      · rintro ⟨i, p', h1, h2⟩
        cases i with
        | zero => simp only [List.getElem?_cons_zero, Option.some.injEq] at h1; subst h1; exact .inl h2
        | succ i => exact .inr ⟨i, p', (by simpa using h1), h2⟩
      · rintro (h | ⟨i, p', h1, h2⟩)
        · exact ⟨0, p, rfl, h⟩
        · exact ⟨i + 1, p', (by simpa using h1), h2⟩
    simp only [step]
    have hne' : ∀ p ∈ ps, p.anno.ordinal ≠ ∅ := fun p hp => hne p (List.mem_cons_of_mem _ hp)
    simp only [analyzeLoop] at h
    split at h
    · rename_i hc
      cases h' : paramVars p (argsOf is xs j) with
      | error e => rw [h'] at h; cases h
      | ok vs =>
        rw [h'] at h
        simp only at h
        split at h
        · cases h
        · rename_i hd
          obtain ⟨k1, k2⟩ := paramVars_ok (hne p List.mem_cons_self) h'
          have hnd : (b0 ++ vs).Nodup := by
            rw [List.nodup_append]
            refine ⟨hn, k1, ?_⟩
            intro a ha c hc e
            subst e
            apply hd
            rw [List.any_eq_true]
            exact ⟨a, hc, by simpa using ha⟩
          obtain ⟨l1, l2⟩ := ih hne' (j + 1) (b0 ++ vs) hnd h
          refine ⟨l1, fun v => ?_⟩
          rw [l2, List.mem_append, k2, or_assoc]
          simp only [Nat.add_zero, hc.1, hc.2, not_false_eq_true, true_and]
          simp only [Nat.add_assoc, Nat.add_comm 1]
    · rename_i hc
      obtain ⟨l1, l2⟩ := ih hne' (j + 1) b0 hn h
      refine ⟨l1, fun v => ?_⟩
      rw [l2]
      have : ¬ (p.anno.ordinal ⊆ q ∧ ¬ p.anno.ordinal ⊆ r ∧
          ∃ x ∈ argsOf is xs (j + 0), Passes p x v) := fun h => hc ⟨h.1, h.2.1⟩
      simp only [this, false_or]
      simp only [Nat.add_assoc, Nat.add_comm 1]

theorem allOk_ok {α : Type} {rs : List (Except Err α)} {as : List α} (h : allOk rs = .ok as) :
    rs = as.map .ok := by
  induction rs generalizing as with
  | nil => simp only [allOk, Except.ok.injEq] at h; subst h; rfl
  | cons r rs ih =>
    cases r with
    | error e => simp [allOk] at h
    | ok a =>
      simp only [allOk] at h
      cases h' : allOk rs with
      | error e => rw [h'] at h; cases h
      | ok bs =>
        rw [h'] at h
        simp only [Except.map, Except.ok.injEq] at h
        subst h
        rw [ih h']; rfl

theorem assign_length {s : Sig} {n : Nat} {sl : List Slot} {is : List Nat}
    (h : s.assign n sl = some is) : is.length = sl.length := by
  induction sl generalizing n is with
  | nil => simp only [Sig.assign, Option.some.injEq] at h; subst h; rfl
  | cons x sl ih =>
    simp only [Sig.assign, Option.bind_eq_bind, Option.bind_eq_some_iff] at h
    obtain ⟨i, _, is', h2, h3⟩ := h
    cases h3
    simp [ih h2]

theorem bind_length {s : Sig} {sl : List Slot} {is : List Nat}
    (h : s.bind sl = .ok is) : is.length = sl.length := by
  unfold Sig.bind at h
  cases h' : s.assign 0 sl with
  | none => rw [h'] at h; cases h
  | some js =>
    rw [h'] at h
    simp only at h
    split at h
    · cases h; exact assign_length h'
    · cases h

theorem kinds_joined (s : Sig) (root : Finset TyVar) : (s.joined root).kinds = s.kinds := by
  simp [Sig.kinds, Sig.joined, Function.comp_def]

theorem assign_joined (s : Sig) (root : Finset TyVar) (sl : List Slot) (n : Nat) :
    (s.joined root).assign n sl = s.assign n sl := by
  induction sl generalizing n with
  | nil => rfl
  | cons x sl ih =>
    simp only [Sig.assign, ih]
    have : (s.joined root).paramFor n x = s.paramFor n x := by
      cases x <;> simp [Sig.paramFor, Sig.posIdx, Sig.kindIdx, kinds_joined]
    rw [this]

theorem bind_joined (s : Sig) (root : Finset TyVar) (sl : List Slot) :
    (s.joined root).bind sl = s.bind sl := by
  simp only [Sig.bind, assign_joined, kinds_joined]

/-- What a successful `__fvs_rule__` did. -/
theorem fvsRule_inv {s : Sig} {f : TyVar} {sl : List Slot} {xs : List Expr} {Bs : List (List Op)}
    (h : s.fvsRule f sl xs = .ok Bs) :
    s.Accepted ∧ ∃ (is : List Nat) (as : List (List Op)), s.bind sl = .ok is ∧
      (s.joined (s.rootOr f)).params.map ((s.joined (s.rootOr f)).analyze is xs) = as.map .ok ∧
      Bs = is.map (fun i => as.getD i []) := by
  unfold Sig.fvsRule at h
  cases h1 : s.infer f with
  | error e => rw [h1] at h; cases h
  | ok s' =>
    obtain ⟨ha, rfl⟩ := infer_inv h1
    rw [h1] at h
    simp only [bind_joined] at h
    cases h2 : s.bind sl with
    | error e => rw [h2] at h; cases h
    | ok is =>
      rw [h2] at h
      simp only at h
      generalize hr : allOk (List.map ((s.joined (s.rootOr f)).analyze is xs)
        (s.joined (s.rootOr f)).params) = r at h
      cases r with
      | error e => cases h
      | ok as =>
        cases h
        exact ⟨ha, is, as, rfl, allOk_ok hr, rfl⟩

theorem passes_congr {p q : Param} (h : p.isVar = q.isVar) (x : Expr) (v : Op) :
    Passes p x v ↔ Passes q x v := by
  unfold Passes
  rw [h]

/-- The analysis of one parameter, in terms of the scopes that the user wrote. -/
theorem analyze_ok {s : Sig} {f : TyVar} (hf : s.Avoids f) {is : List Nat} {xs : List Expr}
    {q : Param} (hq : q ∈ s.params) {B : List Op}
    (h : (s.joined (s.rootOr f)).analyze is xs { q with anno := q.anno.join (s.rootOr f) } = .ok B) :
    B.Nodup ∧ ∀ v, v ∈ B ↔ ∃ (k j : Nat) (p : Param) (x : Expr), is[k]? = some j ∧ s.params[j]? = some p ∧
      xs[k]? = some x ∧ BindsIn s p q ∧ Passes p x v := by
  unfold Sig.analyze at h
  have hne : ∀ p ∈ (s.joined (s.rootOr f)).params, p.anno.ordinal ≠ ∅ := by
    intro p hp
    simp only [Sig.joined, List.mem_map] at hp
    obtain ⟨p', _, rfl⟩ := hp
    intro he
    apply rootOr_ne s f
    rw [← Finset.subset_empty, ← he]
    exact Finset.subset_union_right
  obtain ⟨h1, h2⟩ := analyzeLoop_ok _ hne 0 [] B List.nodup_nil h
  refine ⟨h1, fun v => ?_⟩
  rw [h2]
  simp only [List.not_mem_nil, false_or, Nat.zero_add]
  constructor
  · rintro ⟨j, p', hp, ha, hb, x, hx, hv⟩
    obtain ⟨k, hk1, hk2⟩ := mem_argsOf.1 hx
    simp only [Sig.joined, List.getElem?_map, Option.map_eq_some_iff] at hp
    obtain ⟨p, hp, rfl⟩ := hp
    have hpm := param_mem s p (List.mem_of_getElem? hp)
    refine ⟨k, j, p, x, hk1, hp, hk2, ⟨?_, ?_⟩, (passes_congr rfl x v).1 hv⟩
    · exact (join_sub_iff s f hf _ _ hpm (param_mem s q hq)).1 ha
    · intro hc
      exact hb ((join_sub_iff s f hf _ _ hpm (ret_mem s)).2 hc)
  · rintro ⟨k, j, p, x, hk1, hp, hk2, ⟨ha, hb⟩, hv⟩
    have hpm := param_mem s p (List.mem_of_getElem? hp)
    refine ⟨j, { p with anno := p.anno.join (s.rootOr f) }, ?_, ?_, ?_, x,
      mem_argsOf.2 ⟨k, hk1, hk2⟩, (passes_congr rfl x v).2 hv⟩
    · simp [Sig.joined, hp]
    · exact (join_sub_iff s f hf _ _ hpm (param_mem s q hq)).2 ha
    · intro hc
      exact hb ((join_sub_iff s f hf _ _ hpm (ret_mem s)).1 hc)

/-- C22: a variable is bound in an argument exactly if it is passed in some argument of a parameter
whose scope is contained in the scope of the former and not in that of the result; and the bound
variables of each argument are distinct. Scopes are those written in the signature. -/
theorem C22_bound_iff (s : Sig) (f : TyVar) (hf : s.Avoids f) (sl : List Slot) (xs : List Expr)
    (Bs : List (List Op)) (h : s.fvsRule f sl xs = .ok Bs) :
    ∃ is, s.bind sl = .ok is ∧ Bs.length = sl.length ∧
      ∀ (m i : Nat) (q : Param) (B : List Op), is[m]? = some i → s.params[i]? = some q → Bs[m]? = some B →
        B.Nodup ∧ ∀ v, v ∈ B ↔ ∃ (k j : Nat) (p : Param) (x : Expr), is[k]? = some j ∧ s.params[j]? = some p ∧
          xs[k]? = some x ∧ BindsIn s p q ∧ Passes p x v := by
  obtain ⟨_, is, as, hb, has, rfl⟩ := fvsRule_inv h
  refine ⟨is, hb, by rw [List.length_map, bind_length hb], ?_⟩
  intro m i q B hm hq hB
  rw [List.getElem?_map, hm] at hB
  simp only [Option.map_some, Option.some.injEq] at hB
  have h1 : ((s.joined (s.rootOr f)).params.map ((s.joined (s.rootOr f)).analyze is xs))[i]? =
      some ((s.joined (s.rootOr f)).analyze is xs { q with anno := q.anno.join (s.rootOr f) }) := by
    simp [Sig.joined, hq]
  rw [has, List.getElem?_map] at h1
  cases hi : as[i]? with
  | none => rw [hi] at h1; cases h1
  | some A =>
    rw [hi] at h1
    simp only [Option.map_some, Option.some.injEq] at h1
    have : A = B := by rw [← hB, List.getD_eq_getElem?_getD, hi]; rfl
    subst this
    exact analyze_ok hf (List.mem_of_getElem? hq) h1.symm

theorem argsOf_cons (i : Nat) (is : List Nat) (x : Expr) (xs : List Expr) (j : Nat) :
    argsOf (i :: is) (x :: xs) j = if i = j then x :: argsOf is xs j else argsOf is xs j := by
  unfold argsOf
  simp only [List.zip_cons_cons, List.filter_cons, decide_eq_true_eq]
  split <;> simp

theorem argsOf_nodup {is : List Nat} {xs : List Expr} {j : Nat} (h : (argsOf is xs j).Nodup)
    {k k' : Nat} {x : Expr} (hk : is[k]? = some j) (hk' : is[k']? = some j)
    (hx : xs[k]? = some x) (hx' : xs[k']? = some x) : k = k' := by
  induction is generalizing xs k k' with
  | nil => simp at hk
  | cons i is ih =>
    cases xs with
    | nil => simp at hx
    | cons y xs =>
      rw [argsOf_cons] at h
      have tl : (argsOf is xs j).Nodup := by
        split at h
        · exact (List.nodup_cons.1 h).2
        · exact h
      have hd : i = j → ∀ k : Nat, is[k]? = some j → xs[k]? = some y → False := by
        intro e k h1 h2
        rw [if_pos e] at h
        exact (List.nodup_cons.1 h).1 (mem_argsOf.2 ⟨k, h1, h2⟩)
      cases k with
      | zero =>
        cases k' with
        | zero => rfl
        | succ k' =>
          simp only [List.getElem?_cons_zero, Option.some.injEq, List.getElem?_cons_succ] at *
          exact (hd hk k' hk' (hx ▸ hx')).elim
      | succ k =>
        cases k' with
        | zero =>
          simp only [List.getElem?_cons_zero, Option.some.injEq, List.getElem?_cons_succ] at *
          exact (hd hk' k hk (hx' ▸ hx)).elim
        | succ k' =>
          simp only [List.getElem?_cons_succ] at *
          rw [ih tl hk hk' hx hx']

theorem analyzeLoop_distinct {is : List Nat} {xs : List Expr} {q r : Finset TyVar}
    (ps : List Param) (hne : ∀ p ∈ ps, p.anno.ordinal ≠ ∅) (j : Nat) (b0 b : List Op)
    (hn : b0.Nodup)
    (h : analyzeLoop is xs q r j ps b0 = .ok b) :
    (∀ (i : Nat) (p : Param), ps[i]? = some p → p.anno.ordinal ⊆ q → ¬ p.anno.ordinal ⊆ r →
      (p.isVar = true → (argsOf is xs (j + i)).Nodup) ∧
      ∀ x ∈ argsOf is xs (j + i), ∀ v, Passes p x v → v ∉ b0 ∧
        ∀ (i' : Nat) (p' : Param), i < i' → ps[i']? = some p' → p'.anno.ordinal ⊆ q →
          ¬ p'.anno.ordinal ⊆ r → ∀ x' ∈ argsOf is xs (j + i'), ¬ Passes p' x' v) := by
  induction ps generalizing j b0 with
  | nil => intro i p hp; simp at hp
  | cons p0 ps ih =>
    have hne' : ∀ p ∈ ps, p.anno.ordinal ≠ ∅ := fun p hp => hne p (List.mem_cons_of_mem _ hp)
    simp only [analyzeLoop] at h
    intro i p hp h1 h2
    split at h
    · rename_i hc
      cases h' : paramVars p0 (argsOf is xs j) with
      | error e => rw [h'] at h; cases h
      | ok vs =>
        rw [h'] at h
        simp only at h
        split at h
        · cases h
        · rename_i hd
          obtain ⟨k1, k2⟩ := paramVars_ok (hne p0 List.mem_cons_self) h'
          have hdis : ∀ v ∈ vs, v ∉ b0 := by
            intro v hv hb
            apply hd
            rw [List.any_eq_true]
            exact ⟨v, hv, by simpa using hb⟩
          have hnd : (b0 ++ vs).Nodup := by
            rw [List.nodup_append]
            refine ⟨hn, k1, ?_⟩
            intro a ha c hc e
            subst e
            exact hdis a hc ha
          have IH := ih hne' (j + 1) (b0 ++ vs) hnd h
          cases i with
          | zero =>
            simp only [List.getElem?_cons_zero, Option.some.injEq] at hp
            subst hp
            refine ⟨?_, ?_⟩
            · intro hv
              unfold paramVars at h'
              rw [if_pos hv] at h'
              cases h'' : varsOf (argsOf is xs j) with
              | error e => rw [h''] at h'; cases h'
              | ok ws =>
                rw [h''] at h'
                simp only at h'
                split at h'
                · rename_i hw
                  rw [Nat.add_zero, varsOf_ok h'']
                  exact hw.map (fun a b e => by simpa using e)
                · cases h'
            · intro x hx v hv
              have hvs : v ∈ vs := (k2 v).2 ⟨x, hx, hv⟩
              refine ⟨hdis v hvs, ?_⟩
              intro i' p' hi hp' ha hb x' hx' hpv
              cases i' with
              | zero => omega
              | succ i' =>
                simp only [List.getElem?_cons_succ] at hp'
                have e : j + (i' + 1) = j + 1 + i' := by omega
                rw [e] at hx'
                have := ((IH i' p' hp' ha hb).2 x' hx' v hpv).1
                exact this (List.mem_append_right _ hvs)
          | succ i =>
            simp only [List.getElem?_cons_succ] at hp
            have e : j + (i + 1) = j + 1 + i := by omega
            obtain ⟨m1, m2⟩ := IH i p hp h1 h2
            rw [e]
            refine ⟨m1, fun x hx v hv => ?_⟩
            obtain ⟨n1, n2⟩ := m2 x hx v hv
            refine ⟨fun hb => n1 (List.mem_append_left _ hb), ?_⟩
            intro i' p' hi hp' ha hb x' hx'
            cases i' with
            | zero => omega
            | succ i' =>
              have e' : j + (i' + 1) = j + 1 + i' := by omega
              rw [e'] at hx'
              exact n2 i' p' (by omega) (by simpa using hp') ha hb x' hx'
    · rename_i hc
      have IH := ih hne' (j + 1) b0 hn h
      cases i with
      | zero =>
        simp only [List.getElem?_cons_zero, Option.some.injEq] at hp
        subst hp
        exact absurd ⟨h1, h2⟩ hc
      | succ i =>
        simp only [List.getElem?_cons_succ] at hp
        have e : j + (i + 1) = j + 1 + i := by omega
        obtain ⟨m1, m2⟩ := IH i p hp h1 h2
        rw [e]
        refine ⟨m1, fun x hx v hv => ?_⟩
        obtain ⟨n1, n2⟩ := m2 x hx v hv
        refine ⟨n1, ?_⟩
        intro i' p' hi hp' ha hb x' hx'
        cases i' with
        | zero => omega
        | succ i' =>
          have e' : j + (i' + 1) = j + 1 + i' := by omega
          rw [e'] at hx'
          exact n2 i' p' (by omega) (by simpa using hp') ha hb x' hx'

/-- C22: if the same variable is passed by two different arguments for operation parameters that
both bind in some parameter `q`, the construction is rejected. -/
theorem C22_duplicates_rejected (s : Sig) (f : TyVar) (hf : s.Avoids f) (sl : List Slot)
    (xs : List Expr) (is : List Nat) (hb : s.bind sl = .ok is) (q : Param) (hq : q ∈ s.params)
    (m m' j j' : Nat) (p p' : Param) (v : Op) (hm : m ≠ m')
    (h1 : is[m]? = some j) (h2 : s.params[j]? = some p) (h3 : xs[m]? = some (.op v))
    (h4 : BindsIn s p q) (h5 : p.isVar = true)
    (h1' : is[m']? = some j') (h2' : s.params[j']? = some p') (h3' : xs[m']? = some (.op v))
    (h4' : BindsIn s p' q) (h5' : p'.isVar = true) :
    ∃ e, s.fvsRule f sl xs = .error e := by
  cases h : s.fvsRule f sl xs with
  | error e => exact ⟨e, rfl⟩
  | ok Bs =>
    exfalso
    obtain ⟨_, is', as, hb', has, -⟩ := fvsRule_inv h
    rw [hb] at hb'
    cases hb'
    obtain ⟨i, hi⟩ := List.mem_iff_getElem?.1 hq
    have k1 : ((s.joined (s.rootOr f)).params.map ((s.joined (s.rootOr f)).analyze is xs))[i]? =
        some ((s.joined (s.rootOr f)).analyze is xs { q with anno := q.anno.join (s.rootOr f) }) := by
      simp [Sig.joined, hi]
    rw [has, List.getElem?_map] at k1
    cases hA : as[i]? with
    | none => rw [hA] at k1; cases k1
    | some A =>
      rw [hA] at k1
      simp only [Option.map_some, Option.some.injEq] at k1
      have k2 := k1.symm
      unfold Sig.analyze at k2
      have hne : ∀ p ∈ (s.joined (s.rootOr f)).params, p.anno.ordinal ≠ ∅ := by
        intro p hp
        simp only [Sig.joined, List.mem_map] at hp
        obtain ⟨p', _, rfl⟩ := hp
        intro he
        apply rootOr_ne s f
        rw [← Finset.subset_empty, ← he]
        exact Finset.subset_union_right
      have D := analyzeLoop_distinct _ hne 0 [] A List.nodup_nil k2
      have conv : ∀ (j : Nat) (p : Param), s.params[j]? = some p → BindsIn s p q →
          (s.joined (s.rootOr f)).params[j]? = some { p with anno := p.anno.join (s.rootOr f) } ∧
          (p.anno.join (s.rootOr f)).ordinal ⊆ (q.anno.join (s.rootOr f)).ordinal ∧
          ¬ (p.anno.join (s.rootOr f)).ordinal ⊆ (s.ret.join (s.rootOr f)).ordinal := by
        intro j p hp ⟨ha, hc⟩
        have hpm := param_mem s p (List.mem_of_getElem? hp)
        refine ⟨by simp [Sig.joined, hp], (join_sub_iff s f hf _ _ hpm (param_mem s q hq)).2 ha, ?_⟩
        intro hx
        exact hc ((join_sub_iff s f hf _ _ hpm (ret_mem s)).1 hx)
      obtain ⟨a1, a2, a3⟩ := conv j p h2 h4
      obtain ⟨b1, b2, b3⟩ := conv j' p' h2' h4'
      have hx : Expr.op v ∈ argsOf is xs (0 + j) := mem_argsOf.2 ⟨m, (by simpa using h1), h3⟩
      have hx' : Expr.op v ∈ argsOf is xs (0 + j') := mem_argsOf.2 ⟨m', (by simpa using h1'), h3'⟩
      have pv : Passes { p with anno := p.anno.join (s.rootOr f) } (.op v) v := by
        unfold Passes; simp [h5]
      have pv' : Passes { p' with anno := p'.anno.join (s.rootOr f) } (.op v) v := by
        unfold Passes; simp [h5']
      rcases Nat.lt_trichotomy j j' with hlt | heq | hgt
      · exact ((D j _ a1 a2 a3).2 _ hx v pv).2 j' _ hlt b1 b2 b3 _ hx' pv'
      · subst heq
        have := (D j _ a1 a2 a3).1 h5
        rw [Nat.zero_add] at this
        exact hm (argsOf_nodup this h1 h1' h3 h3')
      · exact ((D j' _ b1 b2 b3).2 _ hx' v pv').2 j _ hgt a1 a2 a3 _ hx pv

/-- C22, example: `Let(x, val, body)` with `x = 7`: bound in the first and the last argument, not in
the value. -/
example : letSig.fvsRule 9 [.pos, .pos, .pos]
    [.op ⟨7, 0⟩, .atom (.val 0), .atom (.val 1)] = .ok [[⟨7, 0⟩], [], [⟨7, 0⟩]] := by
  decide

/-- C22, example: `deffn(body, x, y, k=z)`. -/
example : deffnSig.fvsRule 9 [.pos, .pos, .pos, .kw "k"]
    [.atom (.val 0), .op ⟨7, 0⟩, .op ⟨8, 0⟩, .op ⟨6, 0⟩] = .ok (List.replicate 4 [⟨7, 0⟩, ⟨8, 0⟩, ⟨6, 0⟩]) := by
  decide

/-- C22, example: `deffn(body, x, k=x)` is rejected. -/
example : deffnSig.fvsRule 9 [.pos, .pos, .kw "k"]
    [.atom (.val 0), .op ⟨7, 0⟩, .op ⟨7, 0⟩] = .error .assertion := by
  decide

end Verif.Scoped
