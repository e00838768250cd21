import Verif.Indexed.Naming

/-!
# C74: positional forms of masks and observations

Model of `handlers/pyro.py` `PyroShim._broadcast_to_named` 141-174, the frames made of its result 241-256, and the end of
`_pyro_post_sample` 321-327, on the tensors of `Named`.

Simplification: `expand` with named dimensions is taken to act for each value of the names (C70), which gives a tensor with the
names first, in the order of `sizesof`.
-/

namespace Verif.Indexed.Shim

open Verif.Indexed.Named

variable {α : Type}

/-- Whether dimensions `own` can be expanded to dimensions `target`, one by one. -/
def fits : List Nat → List Nat → Bool
  | [], [] => true
  | d :: own, e :: target => (d == e || d == 1) && fits own target
  | _, _ => false

/-- The index into a tensor of the given dimensions for an index into its expansion. -/
def squash : List Nat → List Nat → List Nat
  | d :: own, i :: ix => (if d = 1 then 0 else i) :: squash own ix
  | _, _ => []

/-- `v.expand(target)`. -/
def expand (v : Val α) (target : List Nat) : Except Err (Val α) :=
  match v.sizes with
  | none => .error .value
  | some s =>
    if target.length < v.shape.length then .error .runtime
    else
      let lead := target.length - v.shape.length
      if fits v.shape (target.drop lead) then
        .ok
          { arr :=
              { shape := s.map Prod.snd ++ target
                get := fun ix => den v (upd (fun _ => 0) (s.map Prod.fst) (ix.take s.length))
                  (squash v.shape ((ix.drop s.length).drop lead)) }
            dims := s.map (fun p => some p.1) ++ List.replicate target.length none }
      else .error .runtime

/-- The first loop (160-166), over the reversed indices from number `i` on. `known`: the names of `t_indices`. -/
def bindIndices (known : List Name) (base : Nat) : Nat → List (Name × Nat) → Val α → List (Name × Int) →
    Except Err (Val α × List (Name × Int))
  | _, [], t, naming => .ok (t, naming)
  | i, (k, v) :: r, t, naming =>
    match if known.contains k then bind t [k] else expand t (v :: t.shape) with
    | .error e => .error e
    | .ok t => bindIndices known base (i + 1) r t (dictSet naming k (-(base : Int) - i - 1))

/-- The second loop (168-172). -/
def bindRest (base : Nat) : Nat → List Name → Val α → List (Name × Int) → Except Err (Val α × List (Name × Int))
  | _, [], t, naming => .ok (t, naming)
  | i, k :: r, t, naming =>
    match bind t [k] with
    | .error e => .error e
    | .ok t => bindRest base (i + 1) r t (dictSet naming k (-(base : Int) - i - 1))

/-- `_broadcast_to_named(t, shape, indices)` (141-174). -/
def broadcastToNamed (t : Val α) (shape : List Nat) (indices : List (Name × Nat)) :
    Except Err (Val α × List (Name × Int)) :=
  match t.sizes with
  | none => .error .value
  | some ti =>
    match if t.shape.length < shape.length then expand t shape else .ok t with
    | .error e => .error e
    | .ok t =>
      match bindIndices (ti.map Prod.fst) shape.length 0 indices.reverse t [] with
      | .error e => .error e
      | .ok (t, naming) =>
        match t.sizes with
        | none => .error .value
        | some s => bindRest t.shape.length 0 (s.map Prod.fst).reverse t naming

/-- The frames added to the stack (243-256): name, dimension from the right of the batch shape, size. The last one is first. -/
def frames (naming : List (Name × Int)) (indices : List (Name × Nat)) (event : Nat) : List (Name × Int × Nat) :=
  naming.foldl (fun stack p =>
    match indices.lookup p.1 with
    | some size => (p.1, p.2 + event, size) :: stack
    | none => stack) []

/-- The value of a site (321-327): `full` is the shape of the distribution, without named dimensions. -/
def postSample (naming : List (Name × Int)) (full : List Nat) (v : Val α) : Except Err (Val α) :=
  match if v.shape.length < full.length then
      -- `broadcast_to(broadcast_shapes(value.shape, full))`, for a value that can be expanded to `full`
      expand v full
    else .ok v with
  | .error e => .error e
  | .ok v => applyNaming naming v

/-! ## Specification -/

/-- `own` can be expanded to `target`. -/
def Expands (own target : List Nat) : Prop :=
  own.length ≤ target.length ∧
    ∀ (i : Nat) d e, own[i]? = some d → target[target.length - own.length + i]? = some e → d = e ∨ d = 1

/-- The index into a tensor of dimensions `own` for an index into something it is broadcast to: dimensions are aligned at the
right, and dimensions of size 1 have one entry. -/
def below (own ix : List Nat) : List Nat :=
  own.zipWith (fun d i => if d = 1 then 0 else i) (ix.drop (ix.length - own.length))

/-- The dimensions of `t` after the expansion to the rank of `shape`. -/
def fullShape (own shape : List Nat) : List Nat := if own.length < shape.length then shape else own

/-- An index within the given dimensions. -/
def Within : List Nat → List Nat → Prop
  | [], [] => True
  | d :: sh, i :: ix => i < d ∧ Within sh ix
  | _, _ => False

/-- Each name stands for one dimension. -/
def Once (v : Val α) : Prop := ∀ n, v.dims.count (some n) ≤ 1

/-! ## Expansion -/

theorem fits_iff : ∀ (own target : List Nat), fits own target = true ↔ own.length = target.length ∧
    ∀ (i : Nat) d e, own[i]? = some d → target[i]? = some e → d = e ∨ d = 1 := by
  intro own
  induction own with
  | nil => intro target; cases target <;> simp [fits]
  | cons d own ih =>
    intro target
    cases target with
    | nil => simp [fits]
    | cons e target =>
      simp only [fits, Bool.and_eq_true, Bool.or_eq_true, beq_iff_eq, ih, List.length_cons, Nat.add_right_cancel_iff]
      constructor
      · rintro ⟨h1, h2, h3⟩
        refine ⟨h2, ?_⟩
        intro i a b ha hb
        cases i with
        | zero => simp at ha hb; subst ha; subst hb; exact h1
        | succ i => exact h3 i a b (by simpa using ha) (by simpa using hb)
      · rintro ⟨h1, h2⟩
        exact ⟨h2 0 d e rfl rfl, h1, fun i a b ha hb => h2 (i + 1) a b (by simpa using ha) (by simpa using hb)⟩

theorem fits_of_expands {own target : List Nat} (h : Expands own target) :
    fits own (target.drop (target.length - own.length)) = true := by
  rw [fits_iff]
  refine ⟨by have := h.1; simp; omega, ?_⟩
  intro i d e hd he
  rw [List.getElem?_drop] at he
  exact h.2 i d e hd he

theorem squash_eq : ∀ (own ix : List Nat), squash own ix = own.zipWith (fun d i => if d = 1 then 0 else i) ix := by
  intro own
  induction own with
  | nil => intro ix; simp [squash]
  | cons d own ih => intro ix; cases ix <;> simp [squash, ih]

theorem expand_spec {v : Val α} (hv : v.Wf) {target : List Nat} (h : Expands v.shape target) :
    ∃ w, expand v target = .ok w ∧ w.Wf ∧ w.shape = target ∧ (∀ n d, Occurs w n d ↔ Occurs v n d) ∧ Once w ∧
      ∀ env ix, ix.length = target.length → den w env ix = den v env (below v.shape ix) := by
  obtain ⟨s, h1, h2, h3⟩ := hv.sizesOf
  unfold expand
  rw [h1]
  simp only
  rw [if_neg (by have := h.1; omega), if_pos (fits_of_expands h)]
  have e : s.map (fun p => some p.1) = (s.map Prod.fst).map some := by simp
  have hocc : ∀ (g : List Nat → α) n d, Occurs (⟨⟨s.map Prod.snd ++ target, g⟩,
      s.map (fun p => some p.1) ++ List.replicate target.length none⟩ : Val α) n d ↔ Occurs v n d := by
    intro g n d
    rw [← h3]
    unfold Occurs
    simp only
    rw [mem_zip_pad]
    have : ∀ (s : List (Name × Nat)) (r : List Nat),
        (d, some n) ∈ (s.map Prod.snd ++ r).zip (s.map (fun p => some p.1)) ↔ (n, d) ∈ s := by
      intro s r
      induction s with
      | nil => simp
      | cons p s ih =>
        obtain ⟨m, e⟩ := p
        simp [ih]
        tauto
    exact this s _
  refine ⟨_, rfl, ⟨by simp, ?_⟩, ?_, hocc _, ?_, ?_⟩
  · intro n d e hd he
    exact hv.sizes n d e ((hocc _ n d).1 hd) ((hocc _ n e).1 he)
  · show visible (s.map Prod.snd ++ target) (s.map (fun p => some p.1) ++ List.replicate target.length none) = _
    rw [e, visible_names _ _ _ (by simp), visible_all]
  · intro n
    simp only
    rw [e, List.count_append, List.count_replicate]
    simp only [beq_iff_eq, reduceCtorEq, if_false, Nat.add_zero]
    exact List.nodup_iff_count_le_one.1 (List.Nodup.map (fun _ _ h => Option.some.inj h) h2) _
  · intro env ix hix
    conv => lhs; unfold den
    simp only
    rw [e, coords_names]
    have hnone := coords_none env target.length [] ix [] hix
    simp only [List.append_nil] at hnone
    rw [hnone]
    simp only [coords, List.append_nil]
    have hl : ((s.map Prod.fst).map env).length = s.length := by simp
    rw [List.take_left' hl, List.drop_left' hl]
    unfold den
    rw [squash_eq, below, hix]
    congr 1
    apply coords_congr
    intro n hn
    apply upd_map
    obtain ⟨i, hi, ei⟩ := List.getElem_of_mem hn
    have hi' : i < v.arr.shape.length := by rw [← hv.rank]; exact hi
    have : Occurs v n v.arr.shape[i] := by
      unfold Occurs
      rw [List.mem_iff_getElem]
      exact ⟨i, by simp only [List.length_zip]; omega, by simp only [List.getElem_zip]; rw [ei]⟩
    exact List.mem_map.2 ⟨_, (h3 _ _).2 this, rfl⟩

/-! ## Binding one name -/

theorem occurs_iff_mem {v : Val α} (hv : v.Wf) (n : Name) : (∃ d, Occurs v n d) ↔ some n ∈ v.dims := by
  constructor
  · rintro ⟨d, h⟩
    exact (List.of_mem_zip h).2
  · intro hn
    obtain ⟨i, hi, ei⟩ := List.getElem_of_mem hn
    have hi' : i < v.arr.shape.length := by rw [← hv.rank]; exact hi
    refine ⟨v.arr.shape[i], ?_⟩
    unfold Occurs
    rw [List.mem_iff_getElem]
    exact ⟨i, by simp only [List.length_zip]; omega, by simp only [List.getElem_zip]; rw [ei]⟩

theorem count_one {v : Val α} (hv : v.Wf) (ho : Once v) {n : Name} {d : Nat} (h : Occurs v n d) :
    v.dims.count (some n) = 1 := by
  have h1 := List.count_pos_iff.2 ((occurs_iff_mem hv n).1 ⟨d, h⟩)
  have h2 := ho n
  omega

theorem bind_once {v w : Val α} (hv : v.Wf) (ho : Once v) {names : List Name} (h : bind v names = .ok w)
    (hw : w.Wf) (hocc : ∀ n d, Occurs w n d ↔ Occurs v n d ∧ n ∉ names) : Once w := by
  intro n
  by_cases hn : ∃ d, Occurs w n d
  · obtain ⟨d, hd⟩ := hn
    obtain ⟨h1, h2⟩ := (hocc n d).1 hd
    have hc := count_one hv ho h1
    unfold Named.bind at h
    split at h
    · cases h
    · split at h
      · cases h
      · split at h
        · cases h; exact ho n
        · split at h
          · cases h
          · split at h
            · cases h
            · simp only at h
              split at h
              · cases h
              · next t ht =>
                apply Nat.le_of_eq
                apply getitem_count (plain_wf t).1 h
                rw [filter_range v.dims none (keep names), List.count_append, List.count_replicate]
                have : (plain t).dims.count (some n) = 0 := by
                  simp [plain, List.count_replicate]
                rw [this, List.count_filter (by simp [keep, h2]), hc]
                simp
  · have : w.dims.count (some n) = 0 := by
      rw [List.count_eq_zero]
      exact fun hm => hn ((occurs_iff_mem hw n).2 hm)
    omega

/-- Binding a name or adding a dimension: a dimension comes first, and its entries are those for the values of the name. -/
def Step (t t' : Val α) (k : Name) (d : Nat) : Prop :=
  t'.Wf ∧ Once t' ∧ t'.shape = d :: t.shape ∧ (∀ n e, Occurs t' n e ↔ Occurs t n e ∧ n ≠ k) ∧
    ∀ env ix, Within t.shape ix → den t' env (env k :: ix) = den t env ix

theorem bind_step {t : Val α} (ht : t.Wf) (ho : Once t) {k : Name} {d : Nat} (h : Occurs t k d) :
    ∃ t', Named.bind t [k] = .ok t' ∧ Step t t' k d := by
  obtain ⟨w, sz, h1, h2, h3, h4, h5, h6, h7⟩ := C37_bind_partial ht [k] (by simp) (by
    intro n hn
    simp only [List.mem_singleton] at hn
    subst hn
    exact count_one ht ho h)
  refine ⟨w, h1, h2, bind_once ht ho h1 h2 h6, ?_, by simpa using h6, ?_⟩
  · obtain ⟨e, rfl⟩ : ∃ e, sz = [e] := List.length_eq_one_iff.1 h3
    have := h4 0 k e rfl rfl
    rw [h5, ht.sizes k e d this h]
    rfl
  · intro env ix _
    have := h7 env [env k] ix rfl
    simp only [List.singleton_append] at this
    rw [this]
    unfold den
    congr 1
    apply coords_congr
    intro n _
    by_cases hn : n = k
    · subst hn; simp [upd]
    · simp [upd, hn]

theorem Expands.lead (own : List Nat) (d : Nat) : Expands own (d :: own) := by
  refine ⟨by simp, ?_⟩
  intro i a b ha hb
  rw [List.length_cons, Nat.add_sub_cancel_left, Nat.add_comm, List.getElem?_cons_succ, ha] at hb
  exact Or.inl (Option.some.inj hb)

theorem zipWith_within : ∀ (own ix : List Nat), Within own ix →
    own.zipWith (fun d i => if d = 1 then 0 else i) ix = ix := by
  intro own
  induction own with
  | nil => intro ix h; cases ix with | nil => rfl | cons _ _ => simp [Within] at h
  | cons d own ih =>
    intro ix h
    cases ix with
    | nil => simp [Within] at h
    | cons i ix =>
      simp only [Within] at h
      simp only [List.zipWith_cons_cons, ih ix h.2, List.cons.injEq, and_true]
      split <;> omega

theorem within_length : ∀ {own ix : List Nat}, Within own ix → ix.length = own.length := by
  intro own
  induction own with
  | nil => intro ix h; cases ix with | nil => rfl | cons _ _ => simp [Within] at h
  | cons d own ih =>
    intro ix h
    cases ix with
    | nil => simp [Within] at h
    | cons i ix => simp [ih h.2]

theorem expand_step {t : Val α} (ht : t.Wf) {k : Name} (d : Nat) (h : ∀ e, ¬ Occurs t k e) :
    ∃ t', expand t (d :: t.shape) = .ok t' ∧ Step t t' k d := by
  obtain ⟨w, h1, h2, h3, h4, h5, h6⟩ := expand_spec ht (Expands.lead t.shape d)
  refine ⟨w, h1, h2, h5, h3, ?_, ?_⟩
  · intro n e
    rw [h4]
    exact ⟨fun hh => ⟨hh, fun hk => h e (hk ▸ hh)⟩, fun hh => hh.1⟩
  · intro env ix hix
    have hl := within_length hix
    rw [h6 env _ (by simp [hl])]
    congr 1
    unfold below
    rw [List.length_cons, hl]
    simp only [Nat.add_sub_cancel_left, List.drop_succ_cons, List.drop_zero]
    exact zipWith_within _ _ hix

/-! ## The loops -/

/-- `ps` bound in front, the last one first. -/
def Steps (t t' : Val α) (ps : List (Name × Nat)) : Prop :=
  t'.Wf ∧ Once t' ∧ t'.shape = ps.map Prod.snd ++ t.shape ∧
    (∀ n e, Occurs t' n e ↔ Occurs t n e ∧ n ∉ ps.map Prod.fst) ∧
    ∀ env ix, (∀ n d, (n, d) ∈ ps → env n < d) → Within t.shape ix →
      den t' env ((ps.map Prod.fst).map env ++ ix) = den t env ix

/-- The dimensions given to names by the loops: the first one the dimension `base + i + 1` from the right. -/
def dimsFrom (base : Nat) : Nat → List Name → List (Name × Int)
  | _, [] => []
  | i, n :: ns => (n, -(base : Int) - i - 1) :: dimsFrom base (i + 1) ns

theorem Steps.cons {t t1 t' : Val α} {k : Name} {d : Nat} {ps : List (Name × Nat)} (h1 : Step t t1 k d) (h2 : Steps t1 t' ps)
    : Steps t t' (ps ++ [(k, d)]) := by
  obtain ⟨_, _, a3, a4, a5⟩ := h1
  obtain ⟨b1, b2, b3, b4, b5⟩ := h2
  refine ⟨b1, b2, ?_, ?_, ?_⟩
  · rw [b3, a3]; simp
  · intro n e
    rw [b4, a4]
    simp only [List.map_append, List.map_cons, List.map_nil, List.mem_append, List.mem_singleton, not_or]
    tauto
  · intro env ix henv hix
    have := b5 env (env k :: ix) (fun n d h => henv n d (List.mem_append_left _ h)) (by
      rw [a3]; exact ⟨henv k d (by simp), hix⟩)
    rw [a5 env ix hix] at this
    simpa using this

theorem Steps.refl {t : Val α} (ht : t.Wf) (ho : Once t) : Steps t t [] :=
  ⟨ht, ho, rfl, by simp, fun _ _ _ _ => rfl⟩

theorem mem_dimsFrom (base : Nat) : ∀ (ns : List Name) (i : Nat), (dimsFrom base i ns).map Prod.fst = ns := by
  intro ns
  induction ns with
  | nil => intro i; rfl
  | cons n ns ih => intro i; simp [dimsFrom, ih]

theorem bindIndices_spec (known : List Name) (base : Nat) : ∀ (r : List (Name × Nat)) (i : Nat) (t : Val α) (nm : List (Name × Int)),
    t.Wf → Once t → (r.map Prod.fst).Nodup → (∀ n ∈ r.map Prod.fst, n ∉ nm.map Prod.fst) →
    (∀ n ∈ r.map Prod.fst, n ∈ known ↔ ∃ d, Occurs t n d) → (∀ n d e, (n, d) ∈ r → Occurs t n e → e = d) →
    ∃ t', bindIndices known base i r t nm = .ok (t', nm ++ dimsFrom base i (r.map Prod.fst)) ∧ Steps t t' r.reverse := by
  intro r
  induction r with
  | nil =>
    intro i t nm ht ho _ _ _ _
    exact ⟨t, by simp [bindIndices, dimsFrom], Steps.refl ht ho⟩
  | cons p r ih =>
    obtain ⟨k, d⟩ := p
    intro i t nm ht ho hn hnm hkn hsz
    simp only [List.map_cons, List.nodup_cons] at hn
    have hstep : ∃ t1, (if known.contains k then Named.bind t [k] else expand t (d :: t.shape)) = .ok t1 ∧ Step t t1 k d := by
      by_cases hk : k ∈ known
      · rw [if_pos (by simpa using hk)]
        obtain ⟨e, he⟩ := (hkn k (by simp)).1 hk
        have := hsz k d e (by simp) he
        subst this
        exact bind_step ht ho he
      · rw [if_neg (by simpa using hk)]
        exact expand_step ht d (fun e he => hk ((hkn k (by simp)).2 ⟨e, he⟩))
    obtain ⟨t1, e1, s1⟩ := hstep
    have s1' := s1
    obtain ⟨c1, c2, _, c4, _⟩ := s1'
    have hfr := dictSet_fresh nm k (-(base : Int) - i - 1) (hnm k (by simp))
    obtain ⟨t', e2, s2⟩ := ih (i + 1) t1 (nm ++ [(k, -(base : Int) - i - 1)]) c1 c2 hn.2
      (by
        intro n hm
        simp only [List.map_append, List.map_cons, List.map_nil, List.mem_append, List.mem_singleton, not_or]
        exact ⟨hnm n (by simp at hm ⊢; tauto), fun h => hn.1 (h ▸ hm)⟩)
      (by
        intro n hm
        rw [hkn n (List.mem_cons_of_mem _ hm)]
        constructor
        · rintro ⟨e, he⟩
          exact ⟨e, (c4 n e).2 ⟨he, fun h => hn.1 (h ▸ hm)⟩⟩
        · rintro ⟨e, he⟩
          exact ⟨e, ((c4 n e).1 he).1⟩)
      (by
        intro n d' e hm he
        exact hsz n d' e (List.mem_cons_of_mem _ hm) ((c4 n e).1 he).1)
    refine ⟨t', ?_, ?_⟩
    · simp only [bindIndices, e1, hfr, e2, List.map_cons, dimsFrom, List.append_assoc, List.singleton_append]
    · rw [List.reverse_cons]
      exact Steps.cons s1 s2

theorem bindRest_spec (base : Nat) : ∀ (r : List (Name × Nat)) (i : Nat) (t : Val α) (nm : List (Name × Int)),
    t.Wf → Once t → (r.map Prod.fst).Nodup → (∀ n ∈ r.map Prod.fst, n ∉ nm.map Prod.fst) →
    (∀ n d, (n, d) ∈ r → Occurs t n d) →
    ∃ t', bindRest base i (r.map Prod.fst) t nm = .ok (t', nm ++ dimsFrom base i (r.map Prod.fst)) ∧ Steps t t' r.reverse := by
  intro r
  induction r with
  | nil =>
    intro i t nm ht ho _ _ _
    exact ⟨t, by simp [bindRest, dimsFrom], Steps.refl ht ho⟩
  | cons p r ih =>
    obtain ⟨k, d⟩ := p
    intro i t nm ht ho hn hnm hocc
    simp only [List.map_cons, List.nodup_cons] at hn
    obtain ⟨t1, e1, s1⟩ := bind_step ht ho (hocc k d (by simp))
    have s1' := s1
    obtain ⟨c1, c2, _, c4, _⟩ := s1'
    have hfr := dictSet_fresh nm k (-(base : Int) - i - 1) (hnm k (by simp))
    obtain ⟨t', e2, s2⟩ := ih (i + 1) t1 (nm ++ [(k, -(base : Int) - i - 1)]) c1 c2 hn.2
      (by
        intro n hm
        simp only [List.map_append, List.map_cons, List.map_nil, List.mem_append, List.mem_singleton, not_or]
        exact ⟨hnm n (by simp at hm ⊢; tauto), fun h => hn.1 (h ▸ hm)⟩)
      (by
        intro n e hm
        exact (c4 n e).2 ⟨hocc n e (List.mem_cons_of_mem _ hm), fun h => hn.1 (h ▸ List.mem_map.2 ⟨_, hm, rfl⟩)⟩)
    refine ⟨t', ?_, ?_⟩
    · simp only [List.map_cons, bindRest, e1, hfr, e2, dimsFrom, List.append_assoc, List.singleton_append]
    · rw [List.reverse_cons]
      exact Steps.cons s1 s2

theorem Steps.trans {t t1 t' : Val α} {ps qs : List (Name × Nat)} (h1 : Steps t t1 ps) (h2 : Steps t1 t' qs) :
    Steps t t' (qs ++ ps) := by
  obtain ⟨_, _, a3, a4, a5⟩ := h1
  obtain ⟨b1, b2, b3, b4, b5⟩ := h2
  refine ⟨b1, b2, ?_, ?_, ?_⟩
  · rw [b3, a3]; simp
  · intro n e
    rw [b4, a4]
    simp only [List.map_append, List.mem_append, not_or]
    tauto
  · intro env ix henv hix
    have hw : Within t1.shape ((ps.map Prod.fst).map env ++ ix) := by
      rw [a3]
      have : ∀ (ps : List (Name × Nat)), (∀ n d, (n, d) ∈ ps → env n < d) →
          Within (ps.map Prod.snd ++ t.shape) ((ps.map Prod.fst).map env ++ ix) := by
        intro ps
        induction ps with
        | nil => intro _; exact hix
        | cons p ps ih =>
          intro h
          exact ⟨h p.1 p.2 (by simp), ih (fun n d hm => h n d (List.mem_cons_of_mem _ hm))⟩
      exact this ps (fun n d h => henv n d (List.mem_append_right _ h))
    have := b5 env _ (fun n d h => henv n d (List.mem_append_left _ h)) hw
    rw [a5 env ix (fun n d h => henv n d (List.mem_append_right _ h)) hix] at this
    simpa using this

/-! ## The naming -/

theorem dimsFrom_shift (b : Nat) : ∀ (ns : List Name) (i j : Nat), dimsFrom (b + j) i ns = dimsFrom b (i + j) ns := by
  intro ns
  induction ns with
  | nil => intro i j; rfl
  | cons n ns ih =>
    intro i j
    simp only [dimsFrom, ih, List.cons.injEq, Prod.mk.injEq, true_and]
    exact ⟨by omega, by congr 1; omega⟩

theorem dimsFrom_append (b : Nat) : ∀ (ms ns : List Name) (i : Nat),
    dimsFrom b i (ms ++ ns) = dimsFrom b i ms ++ dimsFrom b (i + ms.length) ns := by
  intro ms
  induction ms with
  | nil => intro ns i; rfl
  | cons m ms ih =>
    intro ns i
    simp only [List.cons_append, dimsFrom, ih, List.length_cons, List.cons.injEq, true_and]
    congr 2
    omega

theorem setNames_right (b : Nat) : ∀ (r : List Name) (i m : Nat) (tail : List (Option Name)), tail.length = b + i →
    setNames (m + r.length + tail.length) (dimsFrom b i r) (List.replicate (m + r.length) none ++ tail) =
      some (List.replicate m none ++ r.reverse.map some ++ tail) := by
  intro r
  induction r with
  | nil => intro i m tail _; simp [dimsFrom, setNames]
  | cons n r ih =>
    intro i m tail ht
    simp only [dimsFrom, setNames]
    have hset : pySet (List.replicate (m + (n :: r).length) none ++ tail)
        (((m + (n :: r).length + tail.length : Nat) : Int) + (-(b : Int) - i - 1)) (some n) =
        some (List.replicate (m + r.length) none ++ (some n :: tail)) := by
      have hi : (((m + (n :: r).length + tail.length : Nat) : Int) + (-(b : Int) - i - 1)) = ((m + r.length : Nat) : Int) := by
        simp only [List.length_cons]
        omega
      rw [hi]
      unfold pySet
      rw [if_neg (by omega), if_pos (by simp only [List.length_append, List.length_replicate, List.length_cons]; omega)]
      simp only [Int.toNat_natCast, List.length_cons, Option.some.injEq]
      have e : m + (r.length + 1) = (m + r.length) + 1 := by omega
      rw [e, List.replicate_succ', List.append_assoc, List.set_append_right _ _ (by simp)]
      simp
    rw [hset]
    simp only
    have := ih (i + 1) m (some n :: tail) (by simp only [List.length_cons]; omega)
    have e : m + (n :: r).length + tail.length = m + r.length + (some n :: tail).length := by
      simp only [List.length_cons]; omega
    rw [e, this]
    simp

theorem apply_naming {p : Val α} (hp : p.Wf) (hno : ∀ n d, ¬ Occurs p n d) (ps : List (Name × Nat))
    (hn : (ps.map Prod.fst).Nodup) (full : List Nat) (hs : p.shape = ps.map Prod.snd ++ full) :
    ∃ w, applyNaming (dimsFrom full.length 0 (ps.map Prod.fst).reverse) p = .ok w ∧ w.Wf ∧ w.shape = full ∧
      (∀ n d, Occurs w n d ↔ (n, d) ∈ ps) ∧
      ∀ env ix, ix.length = full.length → den w env ix = den p env ((ps.map Prod.fst).map env ++ ix) := by
  have hlen : p.shape.length = ps.length + full.length := by rw [hs]; simp
  have hkey : setNames p.shape.length (dimsFrom full.length 0 (ps.map Prod.fst).reverse)
      (List.replicate p.shape.length none) =
      some ((ps.map Prod.fst).map some ++ List.replicate full.length none) := by
    have := setNames_right full.length (ps.map Prod.fst).reverse 0 0 (List.replicate full.length none) (by simp)
    simp only [List.length_reverse, List.length_map, List.length_replicate, Nat.zero_add, List.replicate_zero,
      List.nil_append, List.reverse_reverse] at this
    rw [List.replicate_append_replicate] at this
    rw [hlen]
    exact this
  have hz : ∀ n d, (d, some n) ∈ p.shape.zip ((ps.map Prod.fst).map some ++ List.replicate full.length none) ↔ (n, d) ∈ ps := by
    intro n d
    rw [mem_zip_pad, hs]
    clear hs hlen hkey hn
    induction ps with
    | nil => simp
    | cons q ps ih =>
      obtain ⟨m, e⟩ := q
      simp only [List.map_cons, List.cons_append, List.zip_cons_cons, List.mem_cons, Prod.mk.injEq, Option.some.injEq, ih]
      tauto
  have hfun : ∀ n d e, (n, d) ∈ ps → (n, e) ∈ ps → d = e := by
    intro n d e hd he
    have := (lookup_some hn n d).2 hd
    rw [(lookup_some hn n e).2 he] at this
    exact (Option.some.inj this).symm
  obtain ⟨w, g1, g2, g3, g4, g5⟩ := getitem_ok hp ((ps.map Prod.fst).map some ++ List.replicate full.length none)
    (by rw [hlen]; simp)
    (by
      intro n d e hd he
      have hd := hd.resolve_left (hno n d)
      have he := he.resolve_left (hno n e)
      exact hfun n d e ((hz n d).1 hd) ((hz n e).1 he))
  have hpad : pad p.shape.length ((ps.map Prod.fst).map some ++ List.replicate full.length none) =
      (ps.map Prod.fst).map some ++ List.replicate full.length none := by
    unfold pad
    rw [hlen]
    simp
  rw [hpad] at g3 g5
  refine ⟨w, ?_, g2, ?_, ?_, ?_⟩
  · unfold applyNaming
    rw [hkey]
    exact g1
  · rw [g3, hs, visible_names _ _ _ (by simp), visible_all]
  · intro n d
    rw [g4, hz]
    simp [hno]
  · intro env ix hix
    rw [g5, coords_names]
    have := coords_none env full.length [] ix [] hix
    simp only [List.append_nil] at this
    rw [this]
    simp [coords]

/-! ## C74 -/

/-- What `_broadcast_to_named` needs: each name of `t` stands for one dimension, the indices have the sizes that they have in
`t`, and `t` has at most the dimensions of `shape`, and can be expanded to it. -/
structure Pre (t : Val α) (shape : List Nat) (indices : List (Name × Nat)) : Prop where
  wf : t.Wf
  once : Once t
  nodup : (indices.map Prod.fst).Nodup
  sizes : ∀ n d e, (n, d) ∈ indices → Occurs t n e → e = d
  rank : t.shape.length ≤ shape.length
  expands : t.shape.length < shape.length → Expands t.shape shape

/-- The result: a tensor with the dimensions of other names `ps` first, then those of the indices, then those of the shape. -/
theorem broadcast_spec {t : Val α} {shape : List Nat} {indices : List (Name × Nat)} (h : Pre t shape indices) :
    ∃ p ps, broadcastToNamed t shape indices =
        .ok (p, dimsFrom shape.length 0 ((ps ++ indices).map Prod.fst).reverse) ∧ p.Wf ∧ (∀ n d, ¬ Occurs p n d) ∧
      ((ps ++ indices).map Prod.fst).Nodup ∧ (∀ n d, (n, d) ∈ ps ↔ Occurs t n d ∧ n ∉ indices.map Prod.fst) ∧
      p.shape = (ps ++ indices).map Prod.snd ++ fullShape t.shape shape ∧
      ∀ env ix, (∀ n d, (n, d) ∈ ps ++ indices → env n < d) → Within (fullShape t.shape shape) ix →
        den p env (((ps ++ indices).map Prod.fst).map env ++ ix) = den t env (below t.shape ix) := by
  obtain ⟨ti, a1, a2, a3⟩ := h.wf.sizesOf
  have hex : ∃ t1, (if t.shape.length < shape.length then expand t shape else .ok t) = .ok t1 ∧ t1.Wf ∧ Once t1 ∧
      t1.shape = fullShape t.shape shape ∧ (∀ n d, Occurs t1 n d ↔ Occurs t n d) ∧
      ∀ env ix, Within (fullShape t.shape shape) ix → den t1 env ix = den t env (below t.shape ix) := by
    unfold fullShape
    by_cases hl : t.shape.length < shape.length
    · obtain ⟨t1, b1, b2, b3, b4, b5, b6⟩ := expand_spec h.wf (h.expands hl)
      rw [if_pos hl, if_pos hl]
      exact ⟨t1, b1, b2, b5, b3, b4, fun env ix hix => b6 env ix (within_length hix)⟩
    · rw [if_neg hl, if_neg hl]
      refine ⟨t, rfl, h.wf, h.once, rfl, fun _ _ => Iff.rfl, ?_⟩
      intro env ix hix
      unfold below
      rw [within_length hix, Nat.sub_self, List.drop_zero, zipWith_within _ _ hix]
  obtain ⟨t1, b1, b2, b3, b4, b5, b6⟩ := hex
  obtain ⟨t2, c1, c2⟩ := bindIndices_spec (ti.map Prod.fst) shape.length indices.reverse 0 t1 [] b2 b3
    (by rw [List.map_reverse, List.nodup_reverse]; exact h.nodup) (by simp)
    (by
      intro n _
      rw [List.mem_map]
      constructor
      · rintro ⟨⟨m, d⟩, hm, rfl⟩
        exact ⟨d, (b5 m d).2 ((a3 m d).1 hm)⟩
      · rintro ⟨d, hd⟩
        exact ⟨(n, d), (a3 n d).2 ((b5 n d).1 hd), rfl⟩)
    (by
      intro n d e hm he
      exact h.sizes n d e (by simpa using hm) ((b5 n e).1 he))
  rw [List.reverse_reverse] at c2
  have c2' := c2
  obtain ⟨d1, d2, d3, d4, _⟩ := c2'
  obtain ⟨s, e1, e2, e3⟩ := d1.sizesOf
  have hps : ∀ n d, (n, d) ∈ s ↔ Occurs t n d ∧ n ∉ indices.map Prod.fst := by
    intro n d
    rw [e3, d4, b5]
  obtain ⟨p, f1, f2⟩ := bindRest_spec t2.shape.length s.reverse 0 t2
    (dimsFrom shape.length 0 (indices.reverse.map Prod.fst)) d1 d2
    (by rw [List.map_reverse, List.nodup_reverse]; exact e2)
    (by
      intro n hn
      rw [mem_dimsFrom]
      rw [List.map_reverse, List.mem_reverse] at hn ⊢
      obtain ⟨⟨m, d⟩, hm, rfl⟩ := List.mem_map.1 hn
      exact ((hps m d).1 hm).2)
    (by
      intro n d hm
      exact (e3 n d).1 (by simpa using hm))
  rw [List.reverse_reverse] at f2
  have hst := c2.trans f2
  obtain ⟨g1, g2, g3, g4, g5⟩ := hst
  have hlen : t2.shape.length = shape.length + indices.length := by
    rw [d3, b4]
    unfold fullShape
    have := h.rank
    split <;> simp <;> omega
  refine ⟨p, s, ?_, g1, ?_, ?_, hps, ?_, ?_⟩
  · unfold broadcastToNamed
    rw [a1]
    simp only
    rw [b1]
    simp only
    rw [c1]
    simp only
    rw [e1]
    simp only
    rw [List.nil_append, ← List.map_reverse, f1]
    congr 2
    rw [List.map_append, List.reverse_append, dimsFrom_append, hlen, dimsFrom_shift]
    simp
  · intro n d hh
    rw [g4, List.map_append, List.mem_append, not_or] at hh
    have hs := (e3 n d).2 ((d4 n d).2 ⟨hh.1, hh.2.2⟩)
    exact hh.2.1 (List.mem_map.2 ⟨_, hs, rfl⟩)
  · rw [List.map_append, List.nodup_append]
    refine ⟨e2, h.nodup, ?_⟩
    intro a ha b hb hab
    subst hab
    obtain ⟨⟨m, d⟩, hm, rfl⟩ := List.mem_map.1 ha
    exact ((hps m d).1 hm).2 hb
  · rw [g3, b4]
  · intro env ix henv hix
    rw [g5 env ix henv (by rw [b4]; exact hix), b6 env ix hix]

/-- **C74.** The positional form of `t` and its naming: applying the naming to the positional form gives `t`, expanded to the
shape and to the indices. -/
theorem C74_naming_partial {t : Val α} {shape : List Nat} {indices : List (Name × Nat)} (h : Pre t shape indices) :
    ∃ p naming w, broadcastToNamed t shape indices = .ok (p, naming) ∧ (∀ n d, ¬ Occurs p n d) ∧
      applyNaming naming p = .ok w ∧ w.Wf ∧ w.shape = fullShape t.shape shape ∧
      (∀ n d, Occurs w n d ↔ Occurs t n d ∨ (n, d) ∈ indices) ∧
      ∀ env ix, (∀ n d, Occurs w n d → env n < d) → Within (fullShape t.shape shape) ix →
        den w env ix = den t env (below t.shape ix) := by
  obtain ⟨p, ps, h1, h2, h3, h4, h5, h6, h7⟩ := broadcast_spec h
  have hlen : (fullShape t.shape shape).length = shape.length := by
    unfold fullShape
    have := h.rank
    split <;> omega
  obtain ⟨w, g1, g2, g3, g4, g5⟩ := apply_naming h2 h3 (ps ++ indices) h4 _ h6
  rw [hlen] at g1
  refine ⟨p, _, w, h1, h3, g1, g2, g3, ?_, ?_⟩
  · intro n d
    rw [g4, List.mem_append, h5]
    constructor
    · rintro (hh | hh)
      · exact Or.inl hh.1
      · exact Or.inr hh
    · rintro (hh | hh)
      · by_cases hn : n ∈ indices.map Prod.fst
        · obtain ⟨⟨m, e⟩, hm, rfl⟩ := List.mem_map.1 hn
          rw [h.sizes m e d hm hh]
          exact Or.inr hm
        · exact Or.inl ⟨hh, hn⟩
      · exact Or.inr hh
  · intro env ix henv hix
    rw [g5 env ix (within_length hix), h7 env ix (fun n d hm => henv n d ((g4 n d).2 hm)) hix]

/-- **C74.** The positional form is aligned with the positional form of the distribution, which has the dimensions of the
indices and then those of the shape. -/
theorem C74_aligned_partial {t : Val α} {shape : List Nat} {indices : List (Name × Nat)} (h : Pre t shape indices)
    (hn : ∀ n d, Occurs t n d → n ∈ indices.map Prod.fst) :
    ∃ p naming, broadcastToNamed t shape indices = .ok (p, naming) ∧
      p.shape = indices.map Prod.snd ++ fullShape t.shape shape ∧
      ∀ env env' ix, (∀ n d, (n, d) ∈ indices → env n < d) → Within (fullShape t.shape shape) ix →
        den p env' ((indices.map Prod.fst).map env ++ ix) = den t env (below t.shape ix) := by
  obtain ⟨p, ps, h1, h2, h3, h4, h5, h6, h7⟩ := broadcast_spec h
  have hps : ps = [] := by
    cases ps with
    | nil => rfl
    | cons q ps =>
      obtain ⟨m, d⟩ := q
      have := (h5 m d).1 (by simp)
      exact absurd (hn m d this.1) this.2
  subst hps
  refine ⟨p, _, h1, by simpa using h6, ?_⟩
  intro env env' ix henv hix
  have := h7 env ix (by simpa using henv) hix
  simp only [List.nil_append] at this
  rw [← this]
  unfold den
  congr 1
  apply coords_congr
  intro n hm
  obtain ⟨d, hd⟩ := (occurs_iff_mem h2 n).2 hm
  exact absurd hd (h3 n d)

/-! ## Frames -/

theorem mem_frames (indices : List (Name × Nat)) (event : Nat) (n : Name) (d : Int) (size : Nat) :
    ∀ (naming : List (Name × Int)) (stack : List (Name × Int × Nat)),
    (n, d, size) ∈ naming.foldl (fun stack p =>
      match indices.lookup p.1 with
      | some size => (p.1, p.2 + (event : Int), size) :: stack
      | none => stack) stack ↔
    (n, d, size) ∈ stack ∨ ((n, d - event) ∈ naming ∧ indices.lookup n = some size) := by
  intro naming
  induction naming with
  | nil => intro stack; simp
  | cons p naming ih =>
    obtain ⟨m, e⟩ := p
    intro stack
    simp only [List.foldl_cons]
    rw [ih]
    cases hl : indices.lookup m with
    | none =>
      simp only [List.mem_cons, Prod.mk.injEq]
      constructor
      · rintro (h | h)
        · exact Or.inl h
        · exact Or.inr ⟨Or.inr h.1, h.2⟩
      · rintro (h | ⟨⟨rfl, _⟩ | h, h2⟩)
        · exact Or.inl h
        · rw [hl] at h2; cases h2
        · exact Or.inr ⟨h, h2⟩
    | some z =>
      simp only [List.mem_cons, Prod.mk.injEq]
      constructor
      · rintro ((⟨rfl, rfl, rfl⟩ | h) | h)
        · exact Or.inr ⟨Or.inl ⟨rfl, by omega⟩, hl⟩
        · exact Or.inl h
        · exact Or.inr ⟨Or.inr h.1, h.2⟩
      · rintro (h | ⟨⟨rfl, h1⟩ | h, h2⟩)
        · exact Or.inl (Or.inr h)
        · rw [hl] at h2
          cases h2
          exact Or.inl (Or.inl ⟨rfl, by omega, rfl⟩)
        · exact Or.inr ⟨h, h2⟩

theorem frames_names (indices : List (Name × Nat)) (event : Nat) : ∀ (naming : List (Name × Int)) (stack : List (Name × Int × Nat)),
    (naming.map Prod.fst).Nodup → (stack.map Prod.fst).Nodup → (∀ n ∈ naming.map Prod.fst, n ∉ stack.map Prod.fst) →
    ((naming.foldl (fun stack p =>
      match indices.lookup p.1 with
      | some size => (p.1, p.2 + (event : Int), size) :: stack
      | none => stack) stack).map Prod.fst).Nodup := by
  intro naming
  induction naming with
  | nil => intro stack _ h _; simpa using h
  | cons p naming ih =>
    intro stack h1 h2 h3
    simp only [List.map_cons, List.nodup_cons] at h1
    simp only [List.foldl_cons]
    apply ih _ h1.2
    · split
      · simp only [List.map_cons, List.nodup_cons]
        exact ⟨h3 p.1 (by simp), h2⟩
      · exact h2
    · intro n hn
      have hns := h3 n (by simp only [List.map_cons, List.mem_cons]; exact Or.inr hn)
      split
      · simp only [List.map_cons, List.mem_cons, not_or]
        exact ⟨fun h => h1.1 (h ▸ hn), hns⟩
      · exact hns

theorem mem_dimsFrom_iff (base : Nat) (n : Name) (d : Int) : ∀ (r : List Name) (i : Nat),
    (n, d) ∈ dimsFrom base i r ↔ ∃ k : Nat, r[k]? = some n ∧ d = -(base : Int) - (i + k : Nat) - 1 := by
  intro r
  induction r with
  | nil => intro i; simp [dimsFrom]
  | cons m r ih =>
    intro i
    simp only [dimsFrom, List.mem_cons, Prod.mk.injEq, ih]
    constructor
    · rintro (⟨rfl, rfl⟩ | ⟨k, h1, h2⟩)
      · exact ⟨0, rfl, by omega⟩
      · exact ⟨k + 1, by simpa using h1, by omega⟩
    · rintro ⟨k, h1, h2⟩
      cases k with
      | zero =>
        simp only [List.getElem?_cons_zero, Option.some.injEq] at h1
        exact Or.inl ⟨h1.symm, by omega⟩
      | succ k => exact Or.inr ⟨k, by simpa using h1, by omega⟩

/-- The frames for a distribution with the indices: each index has one, for its own dimension of the batch shape, which has
the dimensions of the indices and then `batch`. -/
def RightFrames (fs : List (Name × Int × Nat)) (indices : List (Name × Nat)) (batch : List Nat) : Prop :=
  (fs.map Prod.fst).Nodup ∧
    ∀ n d size, (n, d, size) ∈ fs ↔ ∃ k : Nat, indices[k]? = some (n, size) ∧ d = (k : Int) - (indices.map Prod.snd ++ batch).length

theorem frames_right (naming : List (Name × Int)) (indices : List (Name × Nat)) (batch event : List Nat)
    (hn : (naming.map Prod.fst).Nodup) (hi : (indices.map Prod.fst).Nodup)
    (h : ∀ n d, n ∈ indices.map Prod.fst → ((n, d) ∈ naming ↔ ∃ k : Nat, (indices.map Prod.fst)[k]? = some n ∧
      d = (k : Int) - indices.length - (batch ++ event).length)) :
    RightFrames (frames naming indices event.length) indices batch := by
  refine ⟨frames_names indices event.length naming [] hn (by simp) (by simp), ?_⟩
  intro n d size
  unfold frames
  rw [mem_frames]
  simp only [List.not_mem_nil, false_or]
  constructor
  · rintro ⟨h1, h2⟩
    have hm := (lookup_some hi n size).1 h2
    have hmem : n ∈ indices.map Prod.fst := List.mem_map.2 ⟨_, hm, rfl⟩
    obtain ⟨k, hk, hd⟩ := (h n _ hmem).1 h1
    rw [List.getElem?_map] at hk
    cases hp : indices[k]? with
    | none => rw [hp] at hk; cases hk
    | some q =>
      obtain ⟨m, z⟩ := q
      rw [hp] at hk
      simp only [Option.map_some, Option.some.injEq] at hk
      subst hk
      have hz := (lookup_some hi m z).2 (List.mem_of_getElem? hp)
      rw [h2] at hz
      cases hz
      refine ⟨k, hp, ?_⟩
      simp only [List.length_append, List.length_map] at hd ⊢
      omega
  · rintro ⟨k, hk, hd⟩
    have hmem : n ∈ indices.map Prod.fst := List.mem_map.2 ⟨_, List.mem_of_getElem? hk, rfl⟩
    refine ⟨(h n _ hmem).2 ⟨k, by rw [List.getElem?_map, hk]; rfl, ?_⟩, (lookup_some hi n size).2 (List.mem_of_getElem? hk)⟩
    simp only [List.length_append, List.length_map] at hd ⊢
    omega

/-- **C74.** The frames made of the naming of an observation. -/
theorem C74_frames_partial {t : Val α} {batch event : List Nat} {indices : List (Name × Nat)}
    (h : Pre t (batch ++ event) indices) :
    ∃ p naming, broadcastToNamed t (batch ++ event) indices = .ok (p, naming) ∧
      RightFrames (frames naming indices event.length) indices batch := by
  obtain ⟨p, ps, h1, _, _, h4, _, _, _⟩ := broadcast_spec h
  refine ⟨p, _, h1, frames_right _ _ _ _ ?_ h.nodup ?_⟩
  · rw [mem_dimsFrom, List.nodup_reverse]
    exact h4
  · intro n d hn
    rw [mem_dimsFrom_iff]
    have hnps : n ∉ ps.map Prod.fst := by
      intro hps
      rw [List.map_append, List.nodup_append] at h4
      exact h4.2.2 n hps n hn rfl
    constructor
    · rintro ⟨k, hk, hd⟩
      have hlt : k < ((ps ++ indices).map Prod.fst).length := by
        have := (List.getElem?_eq_some_iff.1 hk).1
        rwa [List.length_reverse] at this
      rw [List.getElem?_reverse hlt, List.map_append] at hk
      simp only [List.length_append, List.length_map] at hlt hk
      by_cases hlt2 : ps.length + indices.length - 1 - k < ps.length
      · rw [List.getElem?_append_left (by simpa using hlt2)] at hk
        exact absurd (List.mem_of_getElem? hk) hnps
      · rw [List.getElem?_append_right (by simp; omega)] at hk
        refine ⟨_, hk, ?_⟩
        simp only [List.length_map]
        omega
    · rintro ⟨k, hk, hd⟩
      have hlt : k < indices.length := by
        have := (List.getElem?_eq_some_iff.1 hk).1
        simpa using this
      refine ⟨indices.length - 1 - k, ?_, by omega⟩
      rw [List.getElem?_reverse (by simp; omega), List.map_append, List.getElem?_append_right (by simp; omega)]
      simp only [List.length_append, List.length_map]
      have : ps.length + indices.length - 1 - (indices.length - 1 - k) - ps.length = k := by omega
      rw [this]
      exact hk

/-- **C74.** The frames made of the naming of a site that is not observed. -/
theorem C74_frames_sampled (batch event : List Nat) (indices : List (Name × Nat)) (hn : (indices.map Prod.fst).Nodup) :
    RightFrames (frames (fromShape (indices.map Prod.fst) (batch ++ event).length) indices event.length) indices batch := by
  have hf := fold_fresh (fun i => -(((batch ++ event).length : Nat) : Int) - (indices.map Prod.fst).length + i)
    (indices.map Prod.fst) 0 [] hn (by simp)
  simp only [List.nil_append] at hf
  have hf' : fromShape (indices.map Prod.fst) (batch ++ event).length =
      ((indices.map Prod.fst).zipIdx 0).map
        (fun p => (p.1, -(((batch ++ event).length : Nat) : Int) - (indices.map Prod.fst).length + (p.2 : Int))) := hf
  apply frames_right _ _ _ _ _ hn
  · intro n d _
    rw [hf', List.mem_map]
    constructor
    · rintro ⟨⟨m, k⟩, hm, he⟩
      simp only [Prod.mk.injEq] at he
      obtain ⟨rfl, hd⟩ := he
      have := List.mem_zipIdx_iff_getElem?.1 hm
      refine ⟨k, this, ?_⟩
      simp only [List.length_map] at hd
      omega
    · rintro ⟨k, hk, hd⟩
      refine ⟨(n, k), List.mem_zipIdx_iff_getElem?.2 hk, ?_⟩
      simp only [Prod.mk.injEq, true_and, List.length_map]
      omega
  · rw [(C38_from_shape_partial _ _ hn).1]
    exact hn

/-! ## Values of sites -/

/-- **C74.** The value of an observed site is the observation, expanded to the shape and the indices of the distribution. -/
theorem C74_observed_partial {t : Val α} {shape : List Nat} {indices : List (Name × Nat)} (h : Pre t shape indices) :
    ∃ p naming w, broadcastToNamed t shape indices = .ok (p, naming) ∧
      postSample naming (indices.map Prod.snd ++ shape) p = .ok w ∧ w.shape = fullShape t.shape shape ∧
      (∀ n d, Occurs w n d ↔ Occurs t n d ∨ (n, d) ∈ indices) ∧
      ∀ env ix, (∀ n d, Occurs w n d → env n < d) → Within (fullShape t.shape shape) ix →
        den w env ix = den t env (below t.shape ix) := by
  obtain ⟨p, ps, h1, _, _, _, _, h6, _⟩ := broadcast_spec h
  obtain ⟨p', naming, w, g1, _, g3, _, g5, g6, g7⟩ := C74_naming_partial h
  rw [h1] at g1
  cases g1
  refine ⟨p, _, w, h1, ?_, g5, g6, g7⟩
  have hlen : ¬ p.shape.length < (indices.map Prod.snd ++ shape).length := by
    have := h.rank
    rw [h6]
    unfold fullShape
    split
    · simp
    · simp; omega
  unfold postSample
  rw [if_neg hlen]
  exact g3

/-- **C74.** The value of a site that is not observed: a sample of the positional distribution gets the names back. -/
theorem C74_sampled (x : Arr α) (shape : List Nat) (indices : List (Name × Nat)) (hn : (indices.map Prod.fst).Nodup)
    (hx : x.shape = indices.map Prod.snd ++ shape) :
    ∃ w, postSample (fromShape (indices.map Prod.fst) shape.length) x.shape (plain x) = .ok w ∧ w.shape = shape ∧
      (∀ n d, Occurs w n d ↔ (n, d) ∈ indices) ∧
      ∀ env ix, ix.length = shape.length → den w env ix = x.get ((indices.map Prod.fst).map env ++ ix) := by
  obtain ⟨pw, psh, pocc⟩ := plain_wf x
  obtain ⟨w, g1, g2, g3, g4, g5⟩ := C38_apply_partial pw (indices.map Prod.fst) hn (fun n _ d => pocc n d) [] (indices.map Prod.snd)
    shape (by rw [psh, hx]; simp) (by simp)
  refine ⟨w, ?_, by simpa using g3, ?_, ?_⟩
  · unfold postSample
    rw [if_neg (by rw [psh]; omega)]
    exact g1
  · intro n d
    rw [g4]
    have : (d, n) ∈ (indices.map Prod.snd).zip (indices.map Prod.fst) ↔ (n, d) ∈ indices := by
      clear hx hn g1 g2 g3 g4 g5
      induction indices with
      | nil => simp
      | cons q r ih =>
        obtain ⟨m, e⟩ := q
        simp only [List.map_cons, List.zip_cons_cons, List.mem_cons, Prod.mk.injEq, ih]
        tauto
    rw [this]
    simp [pocc]
  · intro env ix hix
    have := g5 env [] ix rfl hix
    simp only [List.nil_append] at this
    rw [this, plain_den]
    rw [hx]
    simp [hix]

/-! ## Examples -/

/-- An observation with the name `a` of the distribution and another name `c`. -/
def obs : Val (List Nat) := ⟨⟨[2, 4, 3], id⟩, [some "a", some "c", none]⟩

example : (broadcastToNamed obs [3] [("a", 2), ("b", 5)]).toOption.map (fun r => (r.1.shape, r.2)) =
    some ([4, 2, 5, 3], [("b", -2), ("a", -3), ("c", -4)]) := by decide

example : (broadcastToNamed obs [3] [("a", 2), ("b", 5)]).toOption.map (fun r => r.1.arr.get [3, 1, 4, 2]) =
    some [1, 3, 2] := by decide

example : Pre obs [3] [("a", 2), ("b", 5)] := by
  refine ⟨⟨rfl, ?_⟩, ?_, by decide, ?_, by decide, fun h => absurd h (by decide)⟩
  · intro n d e hd he
    simp [Occurs, obs] at hd he
    rcases hd with ⟨rfl, rfl⟩ | ⟨rfl, rfl⟩ <;> simp_all
  · intro n
    have hnd : obs.dims.Nodup := by decide
    exact List.nodup_iff_count_le_one.1 hnd _
  · intro n d e hd he
    simp [Occurs, obs] at hd he
    rcases hd with ⟨rfl, rfl⟩ | ⟨rfl, rfl⟩ <;> simp_all

example : frames [("b", -2), ("a", -3), ("c", -4)] [("a", 2), ("b", 5)] 1 = [("a", -2, 2), ("b", -1, 5)] := by decide

/-! ## Negations -/

/-- **C74, negation.** An observation with more dimensions than the distribution: the naming is off by these dimensions. Here
the index `a` of size 2 gets the dimension of size 3 of the observation. -/
theorem C74_rank_fails : ∃ p naming w, broadcastToNamed (plain ⟨[3], id⟩ : Val (List Nat)) [] [("a", 2)] = .ok (p, naming) ∧
    applyNaming naming p = .ok w ∧ w.shape = [2] ∧ Occurs w "a" 3 :=
  ⟨_, _, _, rfl, rfl, by decide, by unfold Occurs; decide⟩

/-- **C74, negation.** An observation with names `a` and `b` and a mask with the name `a`, which the distribution does not
have: the mask is applied along `b`. -/
theorem C74_mask_fails : ∃ pobs no pmask nm, broadcastToNamed (⟨⟨[2, 2], id⟩, [some "a", some "b"]⟩ : Val (List Nat)) [] [] = .ok (pobs, no) ∧
    broadcastToNamed (⟨⟨[2], id⟩, [some "a"]⟩ : Val (List Nat)) [] [] = .ok (pmask, nm) ∧
    -- entry `a = i`, `b = j` of the observation, and what the mask is there
    ∀ env (i j : Nat), den pobs env [i, j] = [i, j] ∧ den pmask env (below pmask.shape [i, j]) = [j] :=
  ⟨_, _, _, _, rfl, rfl, fun _ _ _ => ⟨rfl, rfl⟩⟩

end Verif.Indexed.Shim
