import Verif.Indexed.Dist

/-!
# C99: naming batch dimensions of a distribution, and back

Model of `handlers/numpyro.py`: `_unbind_distribution` 56-102 and `_bind_dims_distribution` 106-145, for distribution terms:
constructors applied to parameters, and `Independent(d, k)` (1160-1177) or `d.to_event(k)` (357-359) of such terms.

The dimensions of an array are all its dimensions, those of the batch first and then those of events. An array without names is
a `jax.Array`; one with names is a term and is not (`isinstance`, line 83). Indexing, `sizesof`, `unbind_dims` and `bind_dims` of
arrays are those of C37, binding of one parameter is that of C75.

Simplifications: `evaluate(d)` (91, 131) gives the term back (C15). Distributions of numpyro itself are left out, because `jax`
takes them for containers of their parameters (`_handlers.py` 211, 224). Positional and keyword parameters are one list, as the
code goes through both in this order.
-/

namespace Verif.Indexed.UnbindDist

open Verif.Indexed.Named Verif.Indexed.Shim Verif.Indexed.Dist

variable {α : Type}

/-! ## Model -/

/-- A distribution term. -/
inductive DT (α : Type) where
  /-- A constructor of a distribution with its parameters. -/
  | con (args : List (Arg α))
  /-- `Independent(d, k)` or `d.to_event(k)`. -/
  | wrap (d : DT α) (k : Nat)

/-- Errors of operations on arrays, and `KeyError`. -/
inductive DErr where
  | arr (e : Err)
  | key

/-- `isinstance(a, Term)` for an array: some dimension has a name. -/
def isTerm (v : Val α) : Bool := v.dims.any Option.isSome

/-- `_to_named` with `_validate_batch_shape` (61-89) for all parameters; `batch` is `batch_shape`. -/
def unbindArgs (names : List Name) : Option (List Nat) → List (Arg α) → Except Err (List (Arg α))
  | _, [] => .ok []
  | batch, .other x :: r =>
    match unbindArgs names batch r with
    | .error e => .error e
    | .ok as => .ok (.other x :: as)
  | batch, .arr v :: r =>
    -- 83: an array term is no jax.Array, and scalars are ignored
    if isTerm v = true ∨ v.shape = [] then
      match unbindArgs names batch r with
      | .error e => .error e
      | .ok as => .ok (.arr v :: as)
    -- 63-66
    else if v.shape.length < names.length then .error .value
    else
      -- 68-69
      let b := batch.getD (v.shape.take names.length)
      -- 71-75
      if v.shape.length < b.length ∨ v.shape.take b.length ≠ b then .error .value
      else
        match unbind v names with
        | .error e => .error e
        | .ok w =>
          match unbindArgs names (some b) r with
          | .error e => .error e
          | .ok as => .ok (.arr w :: as)

/-- `unbind_dims(d, *names)` (56-102). The distribution in a wrapper has its own `batch_shape` (86-87). -/
def unbindDist (names : List Name) : DT α → Except Err (DT α)
  | .con args =>
    match unbindArgs names none args with
    | .error e => .error e
    | .ok as => .ok (.con as)
  | .wrap d k =>
    match unbindDist names d with
    | .error e => .error e
    | .ok d => .ok (.wrap d k)

/-- `{k: sizes[k] for k in names}` (139); `none` for `KeyError`. -/
def indices (sizes : List (Name × Nat)) : List Name → Option (List (Name × Nat))
  | [] => some []
  | n :: r =>
    match sizes.lookup n, indices sizes r with
    | some d, some s => some ((n, d) :: s.filter (fun p => p.1 != n))
    | _, _ => none

/-- `_to_positional` (109-129) for all parameters. -/
def bindArgs (order : List Name → List Name) (idx : List (Name × Nat)) : List (Arg α) → Except Err (List (Arg α))
  | [] => .ok []
  | .other x :: r =>
    match bindArgs order idx r with
    | .error e => .error e
    | .ok as => .ok (.other x :: as)
  | .arr v :: r =>
    match toPositional order idx v with
    | .error e => .error e
    | .ok w =>
      match bindArgs order idx r with
      | .error e => .error e
      | .ok as => .ok (.arr w :: as)

/-- `bind_dims(d, *names)` (106-145). A wrapper has the sizes of the distribution in it, which computes its indices again. -/
def bindDist (order : List Name → List Name) (names : List Name) : DT α → Except DErr (DT α)
  | .con args =>
    match sizesOf args with
    | none => .error (.arr .value)
    | some sizes =>
      match indices sizes names with
      | none => .error .key
      | some idx =>
        match bindArgs order idx args with
        | .error e => .error (.arr e)
        | .ok as => .ok (.con as)
  | .wrap d k =>
    match bindDist order names d with
    | .error e => .error e
    | .ok d => .ok (.wrap d k)

/-! ## Specification -/

/-- The parameters of a distribution. -/
def DT.params : DT α → List (Arg α)
  | .con args => args
  | .wrap d _ => d.params

/-- The numbers of the wrappers around the constructor. -/
def DT.wraps : DT α → List Nat
  | .con _ => []
  | .wrap d k => k :: d.wraps

/-- The same parameters, with arrays that are related. -/
inductive Rel (R : Val α → Val α → Prop) : List (Arg α) → List (Arg α) → Prop where
  | nil : Rel R [] []
  | other {x : α} {l m : List (Arg α)} : Rel R l m → Rel R (.other x :: l) (.other x :: m)
  | arr {v w : Val α} {l m : List (Arg α)} : R v w → Rel R l m → Rel R (.arr v :: l) (.arr w :: m)

/-- Arrays without names, which are scalars or start with dimensions of the given sizes. -/
def Batched (sizes : List Nat) (args : List (Arg α)) : Prop :=
  ∀ v, Arg.arr v ∈ args → v.Wf ∧ (∀ n d, ¬ Occurs v n d) ∧ (v.shape = [] ∨ ∃ rest, v.shape = sizes ++ rest)

/-- `w` is `v` with names for the first dimensions, or the same scalar. -/
def Slices (names : List Name) (sizes : List Nat) (v w : Val α) : Prop :=
  (v.shape = [] → w = v) ∧
  (v.shape ≠ [] → w.Wf ∧ v.shape = sizes ++ w.shape ∧ (∀ n d, Occurs w n d ↔ (n, d) ∈ names.zip sizes) ∧
    ∀ env ix, ix.length = w.shape.length → den w env ix = den v env (names.map env ++ ix))

/-- `u` is the array `v`, or the scalar `v` for each index of the given sizes. -/
def Back (sizes : List Nat) (v u : Val α) : Prop :=
  u.Wf ∧ (∀ n d, ¬ Occurs u n d) ∧
  (v.shape ≠ [] → u.shape = v.shape ∧ ∀ env ix, Within v.shape ix → den u env ix = den v env ix) ∧
  (v.shape = [] → u.shape = sizes ∧ ∀ env ix, Within sizes ix → den u env ix = den v env [])

/-- `w` has the entries of `v` for all values of the names, and the names of the distribution. -/
def Family (args : List (Arg α)) (v w : Val α) : Prop :=
  w.Wf ∧ w.shape = v.shape ∧ (∀ n d, Occurs w n d ↔ Has args n d) ∧
    ∀ env ix, Within v.shape ix → den w env ix = den v env ix

/-! ## Parameters -/

theorem mem_zip_swap {β γ : Type} : ∀ (l : List β) (m : List γ) (a : β) (b : γ), (a, b) ∈ l.zip m ↔ (b, a) ∈ m.zip l
  | [], m, a, b => by simp
  | _ :: _, [], a, b => by simp
  | x :: l, y :: m, a, b => by
    simp only [List.zip_cons_cons, List.mem_cons, Prod.mk.injEq, mem_zip_swap l m a b]
    rw [and_comm]

theorem isTerm_iff {v : Val α} (hv : v.Wf) : isTerm v = true ↔ ∃ n d, Occurs v n d := by
  unfold isTerm
  rw [List.any_eq_true]
  constructor
  · rintro ⟨x, hx, hs⟩
    cases x with
    | none => simp at hs
    | some n => exact ⟨n, (occurs_iff_mem hv n).2 hx⟩
  · rintro ⟨n, hd⟩
    exact ⟨some n, (occurs_iff_mem hv n).1 hd, rfl⟩

theorem unbindArgs_spec (names : List Name) (hn : names.Nodup) (sizes : List Nat) (hl : sizes.length = names.length) :
    ∀ (args : List (Arg α)) (batch : Option (List Nat)), batch = none ∨ batch = some sizes → Batched sizes args →
      ∃ out, unbindArgs names batch args = .ok out ∧ Rel (Slices names sizes) args out := by
  intro args
  induction args with
  | nil => intro batch _ _; exact ⟨[], rfl, .nil⟩
  | cons a r ih =>
    intro batch hb h
    have hr : Batched sizes r := fun v hv => h v (List.mem_cons_of_mem _ hv)
    cases a with
    | other x =>
      obtain ⟨out, h1, h2⟩ := ih batch hb hr
      exact ⟨.other x :: out, by simp [unbindArgs, h1], .other h2⟩
    | arr v =>
      obtain ⟨wf, closed, hs⟩ := h v (List.mem_cons_self ..)
      have ht : ¬ isTerm v = true := fun ht => by
        obtain ⟨n, d, ho⟩ := (isTerm_iff wf).1 ht
        exact closed n d ho
      by_cases he : v.shape = []
      · obtain ⟨out, h1, h2⟩ := ih batch hb hr
        exact ⟨.arr v :: out, by simp [unbindArgs, he, h1], .arr ⟨fun _ => rfl, fun hne => absurd he hne⟩ h2⟩
      · obtain ⟨rest, hrest⟩ : ∃ rest, v.shape = sizes ++ rest := hs.resolve_left he
        obtain ⟨w, w1, w2, w3, w4, w5⟩ := C37_unbind_partial wf names hn (by rw [hrest]; simp [hl]) (fun n _ d => closed n d)
        obtain ⟨out, h1, h2⟩ := ih (some sizes) (Or.inr rfl) hr
        have htake : v.shape.take names.length = sizes := by rw [hrest, ← hl, List.take_left]
        have hg : batch.getD (v.shape.take names.length) = sizes := by
          rcases hb with rfl | rfl
          · exact htake
          · rfl
        refine ⟨.arr w :: out, ?_, .arr ⟨fun hh => absurd hh he, fun _ => ⟨w2, ?_, ?_, ?_⟩⟩ h2⟩
        · simp only [unbindArgs]
          rw [if_neg (by rintro (hh | hh); exact ht hh; exact he hh), if_neg (by rw [hrest]; simp [hl]), hg,
            if_neg (by rw [hl, htake, hrest]; simp [hl]), w1, h1]
        · rw [w3, hrest, ← hl, List.drop_left]
        · intro n d
          rw [w4]
          constructor
          · rintro (ho | hz)
            · exact absurd ho (closed n d)
            · rw [hrest] at hz
              have : (sizes ++ rest).zip names = sizes.zip names := by
                have := List.zip_append (l₁ := sizes) (r₁ := rest) (l₂ := names) (r₂ := []) hl
                simpa using this
              rw [this] at hz
              exact (mem_zip_swap sizes names d n).1 hz
          · intro hz
            right
            have : (sizes ++ rest).zip names = sizes.zip names := by
              have := List.zip_append (l₁ := sizes) (r₁ := rest) (l₂ := names) (r₂ := []) hl
              simpa using this
            rw [hrest, this]
            exact (mem_zip_swap sizes names d n).2 hz
        · intro env ix hix
          exact w5 env ix (by rw [hix, w3, List.length_drop])

theorem unbindArgs_inv (names : List Name) : ∀ (args : List (Arg α)) (batch : Option (List Nat)),
    (∀ v, Arg.arr v ∈ args → v.Wf ∧ ∀ n d, ¬ Occurs v n d) → (∀ b, batch = some b → b.length = names.length) →
    ∀ out, unbindArgs names batch args = .ok out →
      ∃ sizes, sizes.length = names.length ∧ (∀ b, batch = some b → sizes = b) ∧ Batched sizes args := by
  intro args
  induction args with
  | nil =>
    intro batch _ hb out _
    cases batch with
    | none => exact ⟨List.replicate names.length 0, by simp, by simp, fun v hv => by simp at hv⟩
    | some b => exact ⟨b, hb b rfl, fun b' h => Option.some.inj h, fun v hv => by simp at hv⟩
  | cons a r ih =>
    intro batch hw hb out hok
    have hwr : ∀ v, Arg.arr v ∈ r → v.Wf ∧ ∀ n d, ¬ Occurs v n d := fun v hv => hw v (List.mem_cons_of_mem _ hv)
    cases a with
    | other x =>
      simp only [unbindArgs] at hok
      split at hok
      · cases hok
      · rename_i as hr
        obtain ⟨sizes, h1, h2, h3⟩ := ih batch hwr hb as hr
        exact ⟨sizes, h1, h2, fun v hv => h3 v (by simpa using hv)⟩
    | arr v =>
      obtain ⟨wf, closed⟩ := hw v (List.mem_cons_self ..)
      have ht : ¬ isTerm v = true := fun ht => by
        obtain ⟨n, d, ho⟩ := (isTerm_iff wf).1 ht
        exact closed n d ho
      simp only [unbindArgs] at hok
      split at hok
      · rename_i he
        have he : v.shape = [] := he.resolve_left ht
        split at hok
        · cases hok
        · rename_i as hr
          obtain ⟨sizes, h1, h2, h3⟩ := ih batch hwr hb as hr
          refine ⟨sizes, h1, h2, fun u hu => ?_⟩
          rcases List.mem_cons.1 hu with hu | hu
          · cases hu
            exact ⟨wf, closed, Or.inl he⟩
          · exact h3 u hu
      · split at hok
        · cases hok
        · rename_i hlen
          split at hok
          · cases hok
          · rename_i hb2
            split at hok
            · cases hok
            · split at hok
              · cases hok
              · rename_i as hr
                have hbl : (batch.getD (v.shape.take names.length)).length = names.length := by
                  cases batch with
                  | none => simp only [Option.getD_none, List.length_take]; omega
                  | some b => exact hb b rfl
                obtain ⟨sizes, h1, h2, h3⟩ := ih (some (batch.getD (v.shape.take names.length))) hwr
                  (fun b hbb => by cases hbb; exact hbl) as hr
                have hs := h2 _ rfl
                refine ⟨sizes, h1, ?_, fun u hu => ?_⟩
                · rintro b rfl
                  exact hs
                · rcases List.mem_cons.1 hu with hu | hu
                  · cases hu
                    refine ⟨wf, closed, Or.inr ⟨v.shape.drop sizes.length, ?_⟩⟩
                    have : v.shape.take sizes.length = sizes := by
                      rw [hs]
                      by_contra hc
                      exact hb2 (Or.inr hc)
                    conv => lhs; rw [← List.take_append_drop sizes.length v.shape, this]
                  · exact h3 u hu

theorem unbind_error {v : Val α} (wf : v.Wf) (closed : ∀ n d, ¬ Occurs v n d) (names : List Name) (hn : names.Nodup)
    (hl : names.length ≤ v.shape.length) : ∃ w, unbind v names = .ok w := by
  obtain ⟨w, w1, _⟩ := C37_unbind_partial wf names hn hl (fun n _ d => closed n d)
  exact ⟨w, w1⟩

theorem unbindArgs_error (names : List Name) (hn : names.Nodup) : ∀ (args : List (Arg α)) (batch : Option (List Nat)),
    (∀ v, Arg.arr v ∈ args → v.Wf ∧ ∀ n d, ¬ Occurs v n d) →
    ∀ e, unbindArgs names batch args = .error e → e = .value := by
  intro args
  induction args with
  | nil => intro batch _ e h; cases h
  | cons a r ih =>
    intro batch hw e herr
    have hwr : ∀ v, Arg.arr v ∈ r → v.Wf ∧ ∀ n d, ¬ Occurs v n d := fun v hv => hw v (List.mem_cons_of_mem _ hv)
    cases a with
    | other x =>
      simp only [unbindArgs] at herr
      split at herr
      · rename_i hr
        cases herr
        exact ih batch hwr _ hr
      · cases herr
    | arr v =>
      obtain ⟨wf, closed⟩ := hw v (List.mem_cons_self ..)
      simp only [unbindArgs] at herr
      split at herr
      · split at herr
        · rename_i hr
          cases herr
          exact ih batch hwr _ hr
        · cases herr
      · split at herr
        · cases herr; rfl
        · rename_i hlen
          split at herr
          · cases herr; rfl
          · obtain ⟨w, hw'⟩ := unbind_error wf closed names hn (by omega)
            rw [hw'] at herr
            simp only at herr
            split at herr
            · rename_i hr
              cases herr
              exact ih _ hwr _ hr
            · cases herr

theorem unbindArgs_terms (names : List Name) : ∀ (args : List (Arg α)) (batch : Option (List Nat)),
    (∀ v, Arg.arr v ∈ args → isTerm v = true ∨ v.shape = []) → unbindArgs names batch args = .ok args := by
  intro args
  induction args with
  | nil => intro batch _; rfl
  | cons a r ih =>
    intro batch h
    have hr := ih batch (fun v hv => h v (List.mem_cons_of_mem _ hv))
    cases a with
    | other x => simp [unbindArgs, hr]
    | arr v => simp only [unbindArgs]; rw [if_pos (h v (List.mem_cons_self ..)), hr]

/-- A distribution is unbound if its parameters are. -/
theorem unbindDist_con (names : List Name) : ∀ d : DT α,
    (∀ e, unbindArgs names none d.params = .error e → unbindDist names d = .error e) ∧
    ∀ out, unbindArgs names none d.params = .ok out →
      ∃ e, unbindDist names d = .ok e ∧ e.wraps = d.wraps ∧ e.params = out := by
  intro d
  induction d with
  | con args =>
    refine ⟨fun e h => ?_, fun out h => ?_⟩
    · simp only [DT.params] at h
      simp [unbindDist, h]
    · simp only [DT.params] at h
      exact ⟨.con out, by simp [unbindDist, h], rfl, rfl⟩
  | wrap d k ih =>
    refine ⟨fun e h => ?_, fun out h => ?_⟩
    · simp [unbindDist, ih.1 e h]
    · obtain ⟨e, h1, h2, h3⟩ := ih.2 out h
      exact ⟨.wrap e k, by simp [unbindDist, h1], by simp [DT.wraps, h2], h3⟩

theorem unbindDist_inv (names : List Name) : ∀ (d e : DT α), unbindDist names d = .ok e →
    unbindArgs names none d.params = .ok e.params := by
  intro d e h
  cases hu : unbindArgs names none d.params with
  | error er => rw [(unbindDist_con names d).1 er hu] at h; cases h
  | ok out =>
    obtain ⟨e', h1, _, h3⟩ := (unbindDist_con names d).2 out hu
    rw [h1] at h
    cases h
    rw [h3]

/-! ## Binding -/

theorem indices_spec {sizes : List (Name × Nat)} : ∀ (names : List Name), names.Nodup →
    (∀ n ∈ names, ∃ d, (n, d) ∈ sizes) → (sizes.map Prod.fst).Nodup →
    ∃ idx, indices sizes names = some idx ∧ idx.map Prod.fst = names ∧ ∀ p ∈ idx, p ∈ sizes := by
  intro names
  induction names with
  | nil => intro _ _ _; exact ⟨[], rfl, rfl, by simp⟩
  | cons n r ih =>
    intro hn hs hk
    rw [List.nodup_cons] at hn
    obtain ⟨idx, h1, h2, h3⟩ := ih hn.2 (fun m hm => hs m (List.mem_cons_of_mem _ hm)) hk
    obtain ⟨d, hd⟩ := hs n (List.mem_cons_self ..)
    have hf : idx.filter (fun p => p.1 != n) = idx := by
      rw [List.filter_eq_self]
      intro p hp
      have : p.1 ∈ r := by rw [← h2]; exact List.mem_map.2 ⟨p, hp, rfl⟩
      simp only [bne_iff_ne, ne_eq]
      rintro rfl
      exact hn.1 this
    refine ⟨(n, d) :: idx, ?_, by simp [h2], ?_⟩
    · simp [indices, (lookup_some hk n d).2 hd, h1, hf]
    · intro p hp
      rcases List.mem_cons.1 hp with rfl | hp
      · exact hd
      · exact h3 p hp

theorem indices_none {sizes : List (Name × Nat)} {n : Name} (h : ∀ d, (n, d) ∉ sizes) (hk : (sizes.map Prod.fst).Nodup) :
    ∀ (names : List Name), n ∈ names → indices sizes names = none := by
  intro names
  induction names with
  | nil => intro hn; simp at hn
  | cons m r ih =>
    intro hn
    simp only [indices]
    rcases List.mem_cons.1 hn with rfl | hn
    · cases hl : sizes.lookup n with
      | none => rfl
      | some d => exact absurd ((lookup_some hk n d).1 hl) (h d)
    · rw [ih hn]
      cases sizes.lookup m <;> rfl

theorem bindDist_con (order : List Name → List Name) (names : List Name) {sizes idx : List (Name × Nat)} : ∀ d : DT α,
    sizesOf d.params = some sizes → indices sizes names = some idx → ∀ out, bindArgs order idx d.params = .ok out →
      ∃ e, bindDist order names d = .ok e ∧ e.wraps = d.wraps ∧ e.params = out := by
  intro d
  induction d with
  | con args =>
    intro h1 h2 out h3
    simp only [DT.params] at h1 h3
    exact ⟨.con out, by simp [bindDist, h1, h2, h3], rfl, rfl⟩
  | wrap d k ih =>
    intro h1 h2 out h3
    obtain ⟨e, e1, e2, e3⟩ := ih h1 h2 out h3
    exact ⟨.wrap e k, by simp [bindDist, e1], by simp [DT.wraps, e2], e3⟩

theorem bindDist_key (order : List Name → List Name) (names : List Name) {sizes : List (Name × Nat)} : ∀ d : DT α,
    sizesOf d.params = some sizes → indices sizes names = none → bindDist order names d = .error .key := by
  intro d
  induction d with
  | con args =>
    intro h1 h2
    simp only [DT.params] at h1
    simp [bindDist, h1, h2]
  | wrap d k ih =>
    intro h1 h2
    simp [bindDist, ih h1 h2]

/-- Binding one parameter to names, among them all of its names. -/
theorem toPositional_at {order : List Name → List Name} (ho : ∀ l, (order l).Perm l) {idx : List (Name × Nat)}
    (hn : (idx.map Prod.fst).Nodup) {a : Val α} (ha : a.Wf) (hs : ∀ n d e, (n, d) ∈ idx → Occurs a n e → e = d)
    (hall : ∀ n d, Occurs a n d → n ∈ idx.map Prod.fst) :
    ∃ p, toPositional order idx a = .ok p ∧ p.Wf ∧ p.shape = idx.map Prod.snd ++ a.shape ∧ (∀ n d, ¬ Occurs p n d) ∧
      ∀ env env' ix, Within a.shape ix → den p env ((idx.map Prod.fst).map env' ++ ix) = den a env' ix := by
  obtain ⟨p, h1, h2, h3, h4, h5⟩ := toPositional_spec ho hn ha hs
  have hc : ∀ n d, ¬ Occurs p n d := fun n d hh => ((h4 n d).1 hh).2 (hall n d ((h4 n d).1 hh).1)
  refine ⟨p, h1, h2, h3, hc, ?_⟩
  intro env env' ix hix
  have hl := within_length hix
  rw [den_closed h2 hc env env', h5 env' ix hl, below_eq hl, squash_within hix]

theorem bindArgs_spec {order : List Name → List Name} (ho : ∀ l, (order l).Perm l) {idx : List (Name × Nat)}
    (hn : (idx.map Prod.fst).Nodup) : ∀ (args : List (Arg α)), (∀ v, Arg.arr v ∈ args → v.Wf) →
    (∀ n d e, (n, d) ∈ idx → Has args n e → e = d) → (∀ n d, Has args n d → n ∈ idx.map Prod.fst) →
    ∃ out, bindArgs order idx args = .ok out ∧
      Rel (fun a p => p.Wf ∧ p.shape = idx.map Prod.snd ++ a.shape ∧ (∀ n d, ¬ Occurs p n d) ∧
        ∀ env env' ix, Within a.shape ix → den p env ((idx.map Prod.fst).map env' ++ ix) = den a env' ix) args out := by
  intro args
  induction args with
  | nil => intro _ _ _; exact ⟨[], rfl, .nil⟩
  | cons a r ih =>
    intro hw hs hall
    obtain ⟨out, h1, h2⟩ := ih (fun v hv => hw v (List.mem_cons_of_mem _ hv))
      (fun n d e h ⟨v, hv, hh⟩ => hs n d e h ⟨v, List.mem_cons_of_mem _ hv, hh⟩)
      (fun n d ⟨v, hv, hh⟩ => hall n d ⟨v, List.mem_cons_of_mem _ hv, hh⟩)
    cases a with
    | other x => exact ⟨.other x :: out, by simp [bindArgs, h1], .other h2⟩
    | arr v =>
      obtain ⟨p, p1, p2⟩ := toPositional_at ho hn (hw v (List.mem_cons_self ..))
        (fun n d e h hh => hs n d e h ⟨v, List.mem_cons_self .., hh⟩)
        (fun n d hh => hall n d ⟨v, List.mem_cons_self .., hh⟩)
      exact ⟨.arr p :: out, by simp [bindArgs, p1, h1], .arr p2 h2⟩

theorem Rel.mono {R S : Val α → Val α → Prop} : ∀ {l m : List (Arg α)}, Rel R l m →
    (∀ v w, Arg.arr v ∈ l → R v w → S v w) → Rel S l m := by
  intro l m h
  induction h with
  | nil => intro _; exact .nil
  | other _ ih => intro hs; exact .other (ih (fun v w hv => hs v w (List.mem_cons_of_mem _ hv)))
  | arr hr _ ih =>
    intro hs
    exact .arr (hs _ _ (List.mem_cons_self ..) hr) (ih (fun v w hv => hs v w (List.mem_cons_of_mem _ hv)))

theorem Rel.comp {R S T : Val α → Val α → Prop} : ∀ {l m k : List (Arg α)}, Rel R l m → Rel S m k →
    (∀ v w u, Arg.arr v ∈ l → R v w → S w u → T v u) → Rel T l k := by
  intro l m k h
  induction h generalizing k with
  | nil => intro h2 _; cases h2; exact .nil
  | other _ ih => intro h2 hs; cases h2 with | other h2 => exact .other (ih h2 (fun v w u hv => hs v w u (List.mem_cons_of_mem _ hv)))
  | arr hr _ ih =>
    intro h2 hs
    cases h2 with
    | arr hr2 h2 =>
      exact .arr (hs _ _ _ (List.mem_cons_self ..) hr hr2) (ih h2 (fun v w u hv => hs v w u (List.mem_cons_of_mem _ hv)))

theorem Rel.right {R : Val α → Val α → Prop} : ∀ {l m : List (Arg α)}, Rel R l m → ∀ {w}, Arg.arr w ∈ m →
    ∃ v, Arg.arr v ∈ l ∧ R v w := by
  intro l m h
  induction h with
  | nil => intro w hw; simp at hw
  | other _ ih =>
    intro w hw
    obtain ⟨v, h1, h2⟩ := ih (by simpa using hw)
    exact ⟨v, List.mem_cons_of_mem _ h1, h2⟩
  | arr hr _ ih =>
    intro w hw
    rcases List.mem_cons.1 hw with hw | hw
    · cases hw
      exact ⟨_, List.mem_cons_self .., hr⟩
    · obtain ⟨v, h1, h2⟩ := ih hw
      exact ⟨v, List.mem_cons_of_mem _ h1, h2⟩

theorem Rel.left {R : Val α → Val α → Prop} : ∀ {l m : List (Arg α)}, Rel R l m → ∀ {v}, Arg.arr v ∈ l →
    ∃ w, Arg.arr w ∈ m ∧ R v w := by
  intro l m h
  induction h with
  | nil => intro w hw; simp at hw
  | other _ ih =>
    intro w hw
    obtain ⟨v, h1, h2⟩ := ih (by simpa using hw)
    exact ⟨v, List.mem_cons_of_mem _ h1, h2⟩
  | arr hr _ ih =>
    intro w hw
    rcases List.mem_cons.1 hw with hw | hw
    · cases hw
      exact ⟨_, List.mem_cons_self .., hr⟩
    · obtain ⟨v, h1, h2⟩ := ih hw
      exact ⟨v, List.mem_cons_of_mem _ h1, h2⟩

theorem map_upd (env : Name → Nat) {names : List Name} (hn : names.Nodup) {js : List Nat} (hl : js.length = names.length) :
    names.map (upd env names js) = js := by
  apply List.ext_getElem
  · simp [hl]
  · intro i h1 h2
    simp only [List.getElem_map]
    have hm : names[i]'(by omega) ∈ names := List.getElem_mem _
    unfold upd
    rw [if_pos hm, hn.idxOf_getElem i (by omega)]
    simp [h2]

theorem within_append : ∀ {s t ix : List Nat}, Within (s ++ t) ix →
    ∃ js ks, ix = js ++ ks ∧ Within s js ∧ Within t ks := by
  intro s
  induction s with
  | nil => intro t ix h; exact ⟨[], ix, rfl, trivial, h⟩
  | cons d s ih =>
    intro t ix h
    cases ix with
    | nil => exact absurd h (by simp [Within])
    | cons i ix =>
      obtain ⟨js, ks, h1, h2, h3⟩ := ih h.2
      exact ⟨i :: js, ks, by simp [h1], ⟨h.1, h2⟩, h3⟩

/-! ## Theorems -/

/-- **C99.** `unbind_dims(d, *names)` of a distribution whose parameters are scalars or start with dimensions of the same sizes:
each array has the names for its first dimensions, and for each value of the names its entries are those at this place.
Scalars, numbers and the wrappers stay as they are. -/
theorem C99_unbind_partial (names : List Name) (hn : names.Nodup) (sizes : List Nat) (hl : sizes.length = names.length)
    (d : DT α) (h : Batched sizes d.params) :
    ∃ e, unbindDist names d = .ok e ∧ e.wraps = d.wraps ∧ Rel (Slices names sizes) d.params e.params := by
  obtain ⟨out, h1, h2⟩ := unbindArgs_spec names hn sizes hl d.params none (Or.inl rfl) h
  obtain ⟨e, e1, e2, e3⟩ := (unbindDist_con names d).2 out h1
  exact ⟨e, e1, e2, by rw [e3]; exact h2⟩

/-- **C99.** Arrays without names are rejected, with ValueError, exactly if they do not start with dimensions of the same sizes,
one for each name. -/
theorem C99_rejects (names : List Name) (hn : names.Nodup) (d : DT α)
    (h : ∀ v, Arg.arr v ∈ d.params → v.Wf ∧ ∀ n k, ¬ Occurs v n k) :
    (unbindDist names d = .error .value ↔ ¬ ∃ sizes : List Nat, sizes.length = names.length ∧ Batched sizes d.params) ∧
    ∀ e, unbindDist names d = .error e → e = .value := by
  have hcase : (∃ out, unbindArgs names none d.params = .ok out ∧ ∃ e, unbindDist names d = .ok e) ∨
      unbindArgs names none d.params = .error .value ∧ unbindDist names d = .error .value := by
    cases hu : unbindArgs names none d.params with
    | error e =>
      have he := unbindArgs_error names hn d.params none h e hu
      subst he
      exact Or.inr ⟨rfl, (unbindDist_con names d).1 _ hu⟩
    | ok out =>
      obtain ⟨e, e1, _⟩ := (unbindDist_con names d).2 out hu
      exact Or.inl ⟨out, rfl, e, e1⟩
  refine ⟨⟨?_, ?_⟩, ?_⟩
  · rintro herr ⟨sizes, hl, hb⟩
    obtain ⟨e, h1, _⟩ := C99_unbind_partial names hn sizes hl d hb
    rw [h1] at herr
    cases herr
  · intro hno
    rcases hcase with ⟨out, ho, _⟩ | ⟨_, he⟩
    · obtain ⟨sizes, h1, _, h3⟩ := unbindArgs_inv names d.params none h (by simp) out ho
      exact absurd ⟨sizes, h1, h3⟩ hno
    · exact he
  · intro e he
    rcases hcase with ⟨_, _, e', ho⟩ | ⟨_, he'⟩
    · rw [ho] at he; cases he
    · rw [he'] at he; cases he; rfl

/-- **C99.** Binding the names again gives the parameters back; scalars become arrays with the dimensions of the names. Some array
has to carry the names. -/
theorem C99_bind_unbind_partial {order : List Name → List Name} (ho : ∀ l, (order l).Perm l) (names : List Name)
    (hn : names.Nodup) (sizes : List Nat) (hl : sizes.length = names.length) (d : DT α) (h : Batched sizes d.params)
    (hsome : names = [] ∨ ∃ v, Arg.arr v ∈ d.params ∧ v.shape ≠ []) :
    ∃ e f, unbindDist names d = .ok e ∧ bindDist order names e = .ok f ∧ f.wraps = d.wraps ∧
      Rel (Back sizes) d.params f.params := by
  obtain ⟨e, e1, e2, e3⟩ := C99_unbind_partial names hn sizes hl d h
  have hwf : ∀ w, Arg.arr w ∈ e.params → w.Wf := by
    intro w hw
    obtain ⟨v, hv, h1, h2⟩ := e3.right hw
    by_cases hs : v.shape = []
    · rw [h1 hs]; exact (h v hv).1
    · exact (h2 hs).1
  have hocc : ∀ n k, Has e.params n k → (n, k) ∈ names.zip sizes := by
    rintro n k ⟨w, hw, hoc⟩
    obtain ⟨v, hv, h1, h2⟩ := e3.right hw
    by_cases hs : v.shape = []
    · rw [h1 hs] at hoc
      exact absurd hoc ((h v hv).2.1 n k)
    · exact ((h2 hs).2.2.1 n k).1 hoc
  have hzn : ((names.zip sizes).map Prod.fst).Nodup := by
    rw [List.map_fst_zip (by omega)]
    exact hn
  have hfun : ∀ n k k', (n, k) ∈ names.zip sizes → (n, k') ∈ names.zip sizes → k = k' := by
    intro n k k' h1 h2
    have e1 := (lookup_some hzn n k).2 h1
    rw [(lookup_some hzn n k').2 h2] at e1
    exact (Option.some.inj e1).symm
  have hhas : ∀ n k, (n, k) ∈ names.zip sizes → Has e.params n k := by
    intro n k hz
    rcases hsome with hnil | ⟨v, hv, hs⟩
    · rw [hnil] at hz; simp at hz
    · obtain ⟨w, hw, _, h2⟩ := e3.left hv
      exact ⟨w, hw, ((h2 hs).2.2.1 n k).2 hz⟩
  obtain ⟨sz, s1, s2, s3⟩ := sizesOf_spec (args := e.params)
    (fun n k k' hk hk' => hfun n k k' (hocc n k hk) (hocc n k' hk'))
  obtain ⟨idx, i1, i2, i3⟩ := indices_spec (sizes := sz) names hn (by
    intro n hm
    obtain ⟨i, hi, hg⟩ := List.getElem_of_mem hm
    refine ⟨sizes[i]'(by omega), (s3 _ _).2 (hhas _ _ ?_)⟩
    rw [List.mem_iff_getElem]
    exact ⟨i, by simp only [List.length_zip]; omega, by simp [hg]⟩) s2
  have hidx : idx.map Prod.snd = sizes := by
    apply List.ext_getElem
    · have : idx.length = names.length := by rw [← i2, List.length_map]
      simp [this, hl]
    · intro i h1 h2
      have hi : i < idx.length := by simpa using h1
      have hin := hocc _ _ ((s3 _ _).1 (i3 _ (List.getElem_mem hi)))
      have hname : idx[i].1 = names[i]'(by omega) := by
        have : (idx.map Prod.fst)[i]'(by simpa using hi) = names[i]'(by omega) := by
          simp only [i2]
        simpa using this
      have : (names[i]'(by omega), sizes[i]) ∈ names.zip sizes := by
        rw [List.mem_iff_getElem]
        exact ⟨i, by simp only [List.length_zip]; omega, by simp⟩
      rw [List.getElem_map]
      exact hfun _ _ _ (by rw [← hname]; exact hin) this
  obtain ⟨out, o1, o2⟩ := bindArgs_spec ho (idx := idx) (by rw [i2]; exact hn) e.params hwf
    (fun n k k' hk hk' => hfun n k' k (hocc n k' hk') (hocc n k ((s3 _ _).1 (i3 _ hk))))
    (fun n k hk => by rw [i2]; exact (List.of_mem_zip (hocc n k hk)).1)
  obtain ⟨f, f1, f2, f3⟩ := bindDist_con order names e s1 i1 out o1
  refine ⟨e, f, e1, f1, by rw [f2, e2], ?_⟩
  rw [f3]
  refine e3.comp o2 ?_
  rintro v w u hv ⟨a1, a2⟩ ⟨b1, b2, b3, b4⟩
  rw [hidx] at b2
  rw [i2] at b4
  refine ⟨b1, b3, ?_, ?_⟩
  · intro hs
    obtain ⟨_, c2, _, c4⟩ := a2 hs
    refine ⟨by rw [b2, c2], ?_⟩
    intro env ix hix
    rw [c2] at hix
    obtain ⟨js, ks, rfl, hj, hk⟩ := within_append hix
    have hjl : js.length = names.length := by rw [within_length hj, hl]
    have := b4 env (upd env names js) ks hk
    rw [c4 _ _ (within_length hk), map_upd env hn hjl] at this
    rw [this]
    exact den_closed (h v hv).1 (h v hv).2.1 _ _ _
  · intro hs
    have hw := a1 hs
    subst hw
    refine ⟨by rw [b2, hs, List.append_nil], ?_⟩
    intro env ix hix
    have hjl : ix.length = names.length := by rw [within_length hix, hl]
    have := b4 env (upd env names ix) [] (by rw [hs]; trivial)
    rw [map_upd env hn hjl, List.append_nil] at this
    rw [this]
    exact den_closed (h _ hv).1 (h _ hv).2.1 _ _ _

/-- **C99.** Binding all names of a distribution and unbinding them again: the same distribution for all values of the names. Each
array has all the names then. -/
theorem C99_unbind_bind_partial {order : List Name → List Name} (ho : ∀ l, (order l).Perm l) (names : List Name)
    (hn : names.Nodup) (d : DT α) (hw : ∀ v, Arg.arr v ∈ d.params → v.Wf)
    (hs : ∀ n k k', Has d.params n k → Has d.params n k' → k = k') (hall : ∀ n, n ∈ names ↔ ∃ k, Has d.params n k) :
    ∃ e f, bindDist order names d = .ok e ∧ unbindDist names e = .ok f ∧ f.wraps = d.wraps ∧
      Rel (Family d.params) d.params f.params := by
  obtain ⟨sz, s1, s2, s3⟩ := sizesOf_spec (args := d.params) hs
  obtain ⟨idx, i1, i2, i3⟩ := indices_spec (sizes := sz) names hn (by
    intro n hm
    obtain ⟨k, hk⟩ := (hall n).1 hm
    exact ⟨k, (s3 _ _).2 hk⟩) s2
  obtain ⟨out, o1, o2⟩ := bindArgs_spec ho (idx := idx) (by rw [i2]; exact hn) d.params hw
    (fun n k k' hk hk' => hs n k' k hk' ((s3 _ _).1 (i3 _ hk)))
    (fun n k hk => by rw [i2]; exact (hall n).2 ⟨k, hk⟩)
  obtain ⟨e, e1, e2, e3⟩ := bindDist_con order names d s1 i1 out o1
  have hil : (idx.map Prod.snd).length = names.length := by
    rw [← i2]; simp
  obtain ⟨f, f1, f2, f3⟩ := C99_unbind_partial names hn (idx.map Prod.snd) hil e (by
    rw [e3]
    intro p hp
    obtain ⟨v, hv, r1, r2, r3, r4⟩ := o2.right hp
    exact ⟨r1, r3, Or.inr ⟨_, r2⟩⟩)
  refine ⟨e, f, e1, f1, by rw [f2, e2], ?_⟩
  rw [e3] at f3
  refine o2.comp f3 ?_
  rintro v p w hv ⟨b1, b2, b3, b4⟩ ⟨c1, c2⟩
  rw [i2] at b4
  have hzip : names.zip (idx.map Prod.snd) = idx := by
    rw [← i2]
    exact (List.zip_of_prod rfl rfl).symm
  have hin : ∀ n k, (n, k) ∈ idx ↔ Has d.params n k := by
    intro n k
    constructor
    · intro h
      exact (s3 _ _).1 (i3 _ h)
    · intro h
      have hm : n ∈ idx.map Prod.fst := by rw [i2]; exact (hall n).2 ⟨k, h⟩
      obtain ⟨⟨n', k'⟩, hp, rfl⟩ := List.mem_map.1 hm
      rw [hs _ k k' h ((s3 _ _).1 (i3 _ hp))]
      exact hp
  by_cases hp : p.shape = []
  · have hwp := c1 hp
    subst hwp
    rw [b2] at hp
    obtain ⟨hp1, hp2⟩ := List.append_eq_nil_iff.1 hp
    have hnames : names = [] := by
      apply List.eq_nil_of_length_eq_zero
      rw [← hil, hp1]
      rfl
    refine ⟨b1, by rw [b2, hp1]; rfl, ?_, ?_⟩
    · intro n k
      constructor
      · intro hh; exact absurd hh (b3 n k)
      · intro hh
        have := (hall n).2 ⟨k, hh⟩
        rw [hnames] at this
        simp at this
    · intro env ix hix
      have := b4 env env ix hix
      rw [hnames] at this
      exact this
  · obtain ⟨d1, d2, d3, d4⟩ := c2 hp
    have hsh : w.shape = v.shape := by
      rw [b2] at d2
      exact (List.append_cancel_left d2).symm
    refine ⟨d1, hsh, ?_, ?_⟩
    · intro n k
      rw [d3, hzip]
      exact hin n k
    · intro env ix hix
      rw [d4 env ix (by rw [hsh]; exact within_length hix)]
      exact b4 env env ix hix

/-- **C99.** Names are not given to arrays that have names already, nor to scalars: if there are only such arrays, the result is the
distribution without the names. Binding them is then a KeyError, if the distribution does not have them. -/
theorem C99_ignored (names : List Name) (d : DT α) (h : ∀ v, Arg.arr v ∈ d.params → isTerm v = true ∨ v.shape = []) :
    (∃ e, unbindDist names d = .ok e ∧ e.wraps = d.wraps ∧ e.params = d.params) ∧
    ∀ order, (∀ n k k', Has d.params n k → Has d.params n k' → k = k') → (∃ n ∈ names, ∀ k, ¬ Has d.params n k) →
      bindDist order names d = .error .key := by
  refine ⟨(unbindDist_con names d).2 _ (unbindArgs_terms names d.params none h), ?_⟩
  rintro order hs ⟨n, hn, hno⟩
  obtain ⟨sz, s1, s2, s3⟩ := sizesOf_spec (args := d.params) hs
  exact bindDist_key order names d s1 (indices_none (fun k hk => hno k ((s3 _ _).1 hk)) s2 names hn)

theorem lookup_indices (sizes : List (Name × Nat)) (l r : List Name) (n : Name) (hn : n ∈ l) :
    indices sizes (l ++ n :: r) = indices sizes (l ++ r) := by
  have key : ∀ (l : List Name) (s t : List (Name × Nat)), indices sizes (l ++ n :: r) = some s → indices sizes (l ++ r) = some t →
      s.filter (fun p => p.1 != n) = t.filter (fun p => p.1 != n) := by
    intro l
    induction l with
    | nil =>
      intro s t hs ht
      simp only [List.nil_append] at hs ht
      simp only [indices, ht] at hs
      split at hs
      · rename_i d u h1 h2
        cases h2
        cases hs
        simp [List.filter_filter]
      · cases hs
    | cons m l ih =>
      intro s t hs ht
      simp only [List.cons_append, indices] at hs ht
      cases hm : sizes.lookup m with
      | none => simp [hm] at hs
      | some d =>
        cases h1 : indices sizes (l ++ n :: r) with
        | none => simp [h1] at hs
        | some u =>
          cases h2 : indices sizes (l ++ r) with
          | none => simp [h2] at ht
          | some w =>
            simp only [hm, h1, h2, Option.some.injEq] at hs ht
            subst hs ht
            have := ih u w h1 h2
            have h3 : (u.filter (fun p => p.1 != m)).filter (fun p => p.1 != n) =
                (w.filter (fun p => p.1 != m)).filter (fun p => p.1 != n) := by
              rw [List.filter_filter, List.filter_filter]
              have hc : ∀ x : List (Name × Nat), x.filter (fun p => (p.1 != n) && (p.1 != m)) =
                  (x.filter (fun p => p.1 != n)).filter (fun p => p.1 != m) := by
                intro x
                rw [List.filter_filter]
                exact List.filter_congr (fun p _ => Bool.and_comm _ _)
              rw [hc, hc, this]
            simp only [List.filter_cons, h3]
  have nones : ∀ (l : List Name), (indices sizes l = none ↔ ∃ m ∈ l, sizes.lookup m = none) := by
    intro l
    induction l with
    | nil => simp [indices]
    | cons m l ih =>
      simp only [List.mem_cons, exists_eq_or_imp, indices, ← ih]
      cases sizes.lookup m <;> cases indices sizes l <;> simp
  induction l with
  | nil => cases hn
  | cons m l ih =>
    by_cases hnl : n ∈ l
    · simp only [List.cons_append, indices, ih hnl]
    · have hnm : n = m := by simpa [hnl] using hn
      subst hnm
      simp only [List.cons_append, indices]
      cases hm : sizes.lookup n with
      | none => simp
      | some d =>
        cases h1 : indices sizes (l ++ n :: r) with
        | none =>
          obtain ⟨m, hm1, hm2⟩ := (nones _).1 h1
          have : indices sizes (l ++ r) = none := (nones _).2 ⟨m, by
            simp only [List.mem_append, List.mem_cons] at hm1 ⊢
            rcases hm1 with h | rfl | h
            · exact .inl h
            · rw [hm] at hm2; cases hm2
            · exact .inr h, hm2⟩
          rw [this]
        | some u =>
          cases h2 : indices sizes (l ++ r) with
          | none =>
            obtain ⟨m, hm1, hm2⟩ := (nones _).1 h2
            have : indices sizes (l ++ n :: r) = none := (nones _).2 ⟨m, by
              simp only [List.mem_append, List.mem_cons] at hm1 ⊢
              rcases hm1 with h | h
              · exact .inl h
              · exact .inr (.inr h), hm2⟩
            rw [this] at h1; cases h1
          | some w => simp only [key l u w h1 h2]

/-- **C99.** If a name is given to `bind_dims` again, the second time makes no difference. (An array is then rejected.) -/
theorem C99_repeated (order : List Name → List Name) (l r : List Name) (n : Name) (hn : n ∈ l) (d : DT α) :
    bindDist order (l ++ n :: r) d = bindDist order (l ++ r) d := by
  induction d with
  | con args =>
    simp only [bindDist, lookup_indices _ l r n hn]
  | wrap d k ih => simp only [bindDist, ih]

/-! ## Examples and failures -/

/-- `Independent(Normal(x, 1.0), 1)` for `x` of shape `(2, 3)`. -/
def exD : DT (List Nat) := .wrap (.con [.arr (plain ⟨[2, 3], id⟩), .other [], .arr (plain ⟨[], id⟩)]) 1

theorem exD_batched : Batched [2] exD.params := by
  intro v hv
  simp only [exD, DT.params, List.mem_cons, Arg.arr.injEq, reduceCtorEq, List.not_mem_nil, or_false, false_or] at hv
  rcases hv with rfl | rfl
  · exact ⟨(plain_wf _).1, (plain_wf _).2.2, Or.inr ⟨[3], rfl⟩⟩
  · exact ⟨(plain_wf _).1, (plain_wf _).2.2, Or.inl rfl⟩

example : ∃ e, unbindDist ["a"] exD = .ok e ∧ e.wraps = [1] ∧
    ∃ w x y, e.params = [.arr w, x, y] ∧ w.shape = [3] ∧ den w (fun _ => 1) [2] = [1, 2] :=
  ⟨_, rfl, rfl, _, _, _, rfl, rfl, rfl⟩

example : ∃ e f, unbindDist ["a"] exD = .ok e ∧ bindDist id ["a"] e = .ok f ∧
    ∃ w x y, f.params = [.arr w, x, .arr y] ∧ w.shape = [2, 3] ∧ y.shape = [2] ∧ den w (fun _ => 0) [1, 2] = [1, 2] :=
  ⟨_, _, rfl, rfl, _, _, _, rfl, rfl, rfl, rfl⟩

example : ∃ e f, unbindDist ["a"] exD = .ok e ∧ bindDist id ["a"] e = .ok f ∧ f.wraps = exD.wraps ∧
    Rel (Back [2]) exD.params f.params :=
  C99_bind_unbind_partial (fun _ => List.Perm.refl _) ["a"] (by simp) [2] rfl exD exD_batched
    (Or.inr ⟨_, List.mem_cons_self .., by decide⟩)

/-- A location with the name `a` and a scale without: after binding and unbinding both have the name. -/
example : ∃ e f, bindDist id ["a"] (.con [.arr ⟨⟨[3, 2], id⟩, [none, some "a"]⟩, .arr (plain ⟨[3], (id : List Nat → List Nat)⟩)]) = .ok e ∧
    unbindDist ["a"] e = .ok f ∧ ∃ v w, f.params = [.arr v, .arr w] ∧ v.shape = [3] ∧ w.shape = [3] ∧ Occurs w "a" 2 ∧
      den v (fun _ => 1) [2] = [2, 1] ∧ den w (fun _ => 1) [2] = [2] :=
  ⟨_, _, rfl, rfl, _, _, rfl, rfl, rfl, by unfold Occurs; decide, rfl, rfl⟩

/-- Scalars: no name is given, and it cannot be bound. -/
example : (∃ e, unbindDist ["a"] (.con [.arr (plain ⟨[], id⟩), .other ([] : List Nat)]) = .ok e ∧ ∀ k, ¬ Has e.params "a" k) ∧
    bindDist id ["a"] (.con [.arr (plain ⟨[], id⟩), .other ([] : List Nat)]) = .error .key := by
  refine ⟨⟨_, rfl, ?_⟩, rfl⟩
  rintro k ⟨v, hv, ho⟩
  simp only [DT.params, List.mem_cons, Arg.arr.injEq, reduceCtorEq, List.not_mem_nil, or_false] at hv
  subst hv
  exact (plain_wf _).2.2 _ _ ho

/-- Sizes 2 and 3 for one name are rejected. -/
example : (match unbindDist ["a"] (.con [.arr (plain ⟨[2], id⟩), .arr (plain ⟨[3], (id : List Nat → List Nat)⟩)]) with
    | .error .value => True | _ => False) := trivial

/-- **C99, negation.** Names given one after the other: `unbind_dims(unbind_dims(d, a), b)` does not have the name `b`, though
`unbind_dims(d, a, b)` has both names. -/
theorem C99_twice_fails : ∃ (d e f g : DT (List Nat)), unbindDist ["a"] d = .ok e ∧ unbindDist ["b"] e = .ok f ∧
    unbindDist ["a", "b"] d = .ok g ∧ f.params = e.params ∧ (∀ k, ¬ Has f.params "b" k) ∧ Has g.params "a" 2 ∧
    Has g.params "b" 3 := by
  refine ⟨.con [.arr (plain ⟨[2, 3], id⟩)], .con [.arr ⟨⟨[2, 3], id⟩, [some "a", none]⟩], _,
    .con [.arr ⟨⟨[2, 3], id⟩, [some "a", some "b"]⟩], rfl, rfl, rfl, rfl, ?_, ?_, ?_⟩
  · rintro k ⟨v, hv, ho⟩
    simp only [DT.params, List.mem_singleton, Arg.arr.injEq] at hv
    subst hv
    simp [Occurs] at ho
  · exact ⟨_, List.mem_cons_self .., by unfold Occurs; decide⟩
  · exact ⟨_, List.mem_cons_self .., by unfold Occurs; decide⟩

/-- **C99, negation.** A name bound and given back to a distribution with another name: `unbind_dims(bind_dims(d, a), a)` does not
have the name `a`. -/
theorem C99_other_name_fails : ∃ (d e f : DT (List Nat)), Has d.params "a" 2 ∧ bindDist id ["a"] d = .ok e ∧
    unbindDist ["a"] e = .ok f ∧ ∀ k, ¬ Has f.params "a" k := by
  refine ⟨.con [.arr ⟨⟨[2, 3], id⟩, [some "a", some "b"]⟩], _, _, ⟨_, List.mem_cons_self .., by unfold Occurs; decide⟩,
    rfl, rfl, ?_⟩
  rintro k ⟨v, hv, ho⟩
  simp only [DT.params, List.mem_singleton, Arg.arr.injEq] at hv
  subst hv
  have hz : (k, some "a") ∈ [(3, some "b"), (2, none)] := ho
  simp at hz

/-- **C99, negation.** Parameters that are broadcast. With a location of shape `(2,)` and a scale of shape `(2, 2)` the batch shape
is `(2, 2)`, and the location of the entry `(0, 1)` is the one at 1. With the name `i` for the first dimension, the location for
`i = 0` and the entry 1 is the one at 0. With a location of shape `(1, 3)` and a scale of shape `(2, 3)` there is ValueError. -/
theorem C99_broadcast_fails :
    (∃ out, unbindArgs ["i"] none [.arr (plain ⟨[2], id⟩ : Val (List Nat)), .arr (plain ⟨[2, 2], id⟩)] = .ok out ∧
      params out (fun _ => 0) [1] = [[0], [0, 1]]) ∧
    bcastAll [] [[2], [2, 2]] = some [2, 2] ∧
    params [.arr (plain ⟨[2], id⟩ : Val (List Nat)), .arr (plain ⟨[2, 2], id⟩)] (fun _ => 0) [0, 1] = [[1], [0, 1]] ∧
    bcastAll [] [[1, 3], [2, 3]] = some [2, 3] ∧
    unbindArgs ["i"] none [.arr (plain ⟨[1, 3], id⟩ : Val (List Nat)), .arr (plain ⟨[2, 3], id⟩)] = .error .value :=
  ⟨⟨_, rfl, rfl⟩, rfl, rfl, rfl, rfl⟩

end Verif.Indexed.UnbindDist
