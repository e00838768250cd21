import Verif.Indexed.Dist

/-!
# C78: distributions of pyro as terms

Model of `handlers/pyro.py`: the embeddings of distributions as terms 527-847 with `_register_distribution_op` 423-432, and
`_unbind_dims_distribution` 336-382 and `_bind_dims_distribution` 387-420. The embeddings of `handlers/numpyro.py` 428-1177 are
in a table too.

Simplifications: the parameters of the constructors and the attributes of distributions are those of torch, pyro and numpyro as
documented; they are tables here, in which attributes have the names of the parameters (`base_dist` of `Independent` and
`_mask` of `MaskedDistribution` have other names). `validate_args` is left out. The embeddings of numpyro do not evaluate the
attributes. The assertion about `event_shape` and the test that the result of `evaluate` is a term are
left out. Operations on tensors act for each value of the remaining names (C70).
-/

namespace Verif.Indexed.PyroDist

open Verif.Indexed.Named Verif.Indexed.Shim Verif.Indexed.Dist

variable {α β : Type}

/-! ## Embeddings -/

/-- An embedding: the class, the parameters of its constructor in order, those that determine the distribution, the attributes
given by position and those given by keyword. -/
structure Entry where
  cls : String
  ctor : List String
  full : List String
  pos : List String
  kw : List (String × String) := []

/-- The parameters of a constructor from arguments given by position and by keyword. `none` for TypeError. -/
def callArgs (ctor : List String) (pos : List β) (kw : List (String × β)) : Option (List (String × β)) :=
  if ctor.length < pos.length then none
  else if kw.all (fun k => (ctor.drop pos.length).contains k.1) then some (ctor.zip pos ++ kw)
  else none

/-- `_register_distribution_op(cls)(…)` on the evaluated attributes: the parameters of the distribution built. -/
def rebuild (e : Entry) (ev : β → β) (attr : String → β) : Option (List (String × β)) :=
  callArgs e.ctor (e.pos.map fun a => ev (attr a)) (e.kw.map fun k => (k.1, ev (attr k.2)))

private def same (cls : String) (ps : List String) : Entry := ⟨cls, ps, ps, ps, []⟩

/-- The embeddings of pyro (527-847), but for those of `StudentT` (583), `Wishart` (821-831) and `ExpandedDistribution`. -/
def pyroTable : List Entry :=
  [ same "Independent" ["base_distribution", "reinterpreted_batch_ndims"],
    same "FoldedDistribution" ["base_dist"],
    same "MaskedDistribution" ["base_dist", "mask"],
    same "Cauchy" ["loc", "scale"],
    same "Gumbel" ["loc", "scale"],
    same "Laplace" ["loc", "scale"],
    same "LogNormal" ["loc", "scale"],
    same "Logistic" ["loc", "scale"],
    same "LogisticNormal" ["loc", "scale"],
    same "Normal" ["loc", "scale"],
    ⟨"Bernoulli", ["probs", "logits"], ["probs"], ["probs"], []⟩,
    ⟨"Categorical", ["probs", "logits"], ["probs"], ["probs"], []⟩,
    ⟨"ContinuousBernoulli", ["probs", "logits"], ["probs"], ["probs"], []⟩,
    ⟨"Geometric", ["probs", "logits"], ["probs"], ["probs"], []⟩,
    ⟨"OneHotCategorical", ["probs", "logits"], ["probs"], ["probs"], []⟩,
    ⟨"OneHotCategoricalStraightThrough", ["probs", "logits"], ["probs"], ["probs"], []⟩,
    same "Beta" ["concentration1", "concentration0"],
    same "Kumaraswamy" ["concentration1", "concentration0"],
    ⟨"Binomial", ["total_count", "probs", "logits"], ["total_count", "probs"], ["total_count", "probs"], []⟩,
    same "Chi2" ["df"],
    same "Dirichlet" ["concentration"],
    same "Exponential" ["rate"],
    same "FisherSnedecor" ["df1", "df2"],
    same "Gamma" ["concentration", "rate"],
    same "HalfCauchy" ["scale"],
    same "HalfNormal" ["scale"],
    ⟨"LKJCholesky", ["dim", "concentration"], ["dim", "concentration"], ["dim"], [("concentration", "concentration")]⟩,
    ⟨"Multinomial", ["total_count", "probs", "logits"], ["total_count", "probs"], ["total_count", "probs"], []⟩,
    ⟨"MultivariateNormal", ["loc", "covariance_matrix", "precision_matrix", "scale_tril"], ["loc", "scale_tril"], ["loc"],
      [("scale_tril", "scale_tril")]⟩,
    ⟨"NegativeBinomial", ["total_count", "probs", "logits"], ["total_count", "probs"], ["total_count", "probs"], []⟩,
    same "Pareto" ["scale", "alpha"],
    same "Poisson" ["rate"],
    ⟨"RelaxedBernoulli", ["temperature", "probs", "logits"], ["temperature", "probs"], ["temperature", "probs"], []⟩,
    ⟨"RelaxedOneHotCategorical", ["temperature", "probs", "logits"], ["temperature", "probs"], ["temperature", "probs"], []⟩,
    same "Uniform" ["low", "high"],
    same "VonMises" ["loc", "concentration"],
    same "Weibull" ["scale", "concentration"],
    ⟨"Delta", ["v", "log_density", "event_dim"], ["v", "log_density", "event_dim"], ["v"],
      [("log_density", "log_density"), ("event_dim", "event_dim")]⟩ ]

/-- `_embed_loc_scale` (576-593), registered for `StudentT` (583). -/
def studentT : Entry := ⟨"StudentT", ["df", "loc", "scale"], ["df", "loc", "scale"], ["loc", "scale"], []⟩

/-- `_embed_wishart` (821-831). -/
def wishart : Entry :=
  ⟨"Wishart", ["df", "covariance_matrix", "precision_matrix", "scale_tril"], ["df", "scale_tril"], ["df", "scale_tril"], []⟩

/-- The embeddings of numpyro (428-1177), but for the one of `Wishart`. -/
def numpyroTable : List Entry :=
  [ same "Cauchy" ["loc", "scale"],
    same "Gumbel" ["loc", "scale"],
    same "Laplace" ["loc", "scale"],
    same "LogNormal" ["loc", "scale"],
    same "Logistic" ["loc", "scale"],
    same "Normal" ["loc", "scale"],
    same "StudentT" ["df", "loc", "scale"],
    same "BernoulliProbs" ["probs"],
    same "CategoricalProbs" ["probs"],
    same "GeometricProbs" ["probs"],
    same "BernoulliLogits" ["logits"],
    same "CategoricalLogits" ["logits"],
    same "GeometricLogits" ["logits"],
    same "Beta" ["concentration1", "concentration0"],
    same "Kumaraswamy" ["concentration1", "concentration0"],
    same "BinomialProbs" ["probs", "total_count"],
    same "NegativeBinomialProbs" ["total_count", "probs"],
    ⟨"MultinomialProbs", ["probs", "total_count", "total_count_max"], ["probs", "total_count"], ["probs", "total_count"], []⟩,
    same "BinomialLogits" ["logits", "total_count"],
    same "NegativeBinomialLogits" ["total_count", "logits"],
    ⟨"MultinomialLogits", ["logits", "total_count", "total_count_max"], ["logits", "total_count"], ["logits", "total_count"], []⟩,
    same "Chi2" ["df"],
    same "Dirichlet" ["concentration"],
    ⟨"DirichletMultinomial", ["concentration", "total_count", "total_count_max"], ["concentration", "total_count"],
      ["concentration", "total_count"], []⟩,
    same "Exponential" ["rate"],
    same "Poisson" ["rate"],
    same "Gamma" ["concentration", "rate"],
    same "HalfCauchy" ["scale"],
    same "HalfNormal" ["scale"],
    ⟨"LKJCholesky", ["dim", "concentration", "sample_method"], ["dim", "concentration"], ["dim", "concentration"], []⟩,
    same "MultivariateNormal" ["loc", "covariance_matrix", "precision_matrix", "scale_tril"],
    same "Pareto" ["scale", "alpha"],
    same "Uniform" ["low", "high"],
    same "VonMises" ["loc", "concentration"],
    same "Weibull" ["scale", "concentration"],
    same "Delta" ["v", "log_density", "event_dim"],
    same "LowRankMultivariateNormal" ["loc", "cov_factor", "cov_diag"],
    same "RelaxedBernoulliLogits" ["temperature", "logits"],
    same "Independent" ["base_dist", "reinterpreted_batch_ndims"] ]

/-! ## Binding dimensions -/

/-- A distribution as a term: the class, and the arguments given by position followed by those given by keyword. An argument is
a tensor, something else, or a distribution. -/
inductive Dst (α : Type) where
  | tensor (v : Val α)
  | other (x : Nat)
  | dist (cls : Nat) (args : List (Dst α))

/-- An exception. -/
inductive Fail where
  | err (e : Err)
  | key
deriving DecidableEq

/-- Exceptions of operations on tensors. -/
def lift : Except Err β → Except Fail β
  | .error e => .error (.err e)
  | .ok x => .ok x

mutual

/-- All tensors of a term. -/
def leaves : Dst α → List (Val α)
  | .tensor v => [v]
  | .other _ => []
  | .dist _ args => leavesL args

/-- All tensors of terms. -/
def leavesL : List (Dst α) → List (Val α)
  | [] => []
  | a :: as => leaves a ++ leavesL as

end

/-- `sizesof(d)`. -/
def sizesIn (vs : List (Val α)) : Option (List (Name × Nat)) := sizesLoop [] (vs.flatMap fun v => v.arr.shape.zip v.dims)

/-- `{k: sizes[k] for k in names}` (413). -/
def indices (sizes : List (Name × Nat)) : List Name → Option (List (Name × Nat))
  | [] => some []
  | n :: ns =>
    match sizes.lookup n, indices sizes ns with
    | some d, some r => some ((n, d) :: r)
    | _, _ => none

mutual

/-- `_to_positional(a, indices)` (391-404), and `bind_dims(a, *names)` of a distribution (406-420), which has its own
`indices`. -/
def bindArg (order : List Name → List Name) (names : List Name) (ind : List (Name × Nat)) : Dst α → Except Fail (Dst α)
  | .tensor v =>
    match lift (toPositional order ind v) with
    | .error e => .error e
    | .ok w => .ok (.tensor w)
  | .other x => .ok (.other x)
  | .dist c args =>
    match sizesIn (leavesL args) with
    | none => .error (.err .value)
    | some s =>
      match indices s names with
      | none => .error .key
      | some ind =>
        match bindArgs order names ind args with
        | .error e => .error e
        | .ok args => .ok (.dist c args)

/-- The loops over the arguments (415-416). -/
def bindArgs (order : List Name → List Name) (names : List Name) (ind : List (Name × Nat)) :
    List (Dst α) → Except Fail (List (Dst α))
  | [] => .ok []
  | a :: as =>
    match bindArg order names ind a with
    | .error e => .error e
    | .ok a =>
      match bindArgs order names ind as with
      | .error e => .error e
      | .ok as => .ok (a :: as)

end

/-- `bind_dims(d, *names)`. -/
def bindDist (order : List Name → List Name) (names : List Name) (d : Dst α) : Except Fail (Dst α) := bindArg order names [] d

/-- `_validate_batch_shape(t)` (344-358), with the value of `batch_shape` before and after. -/
def checkBatch (k : Nat) (batch : Option (List Nat)) (shape : List Nat) : Except Fail (List Nat) :=
  if shape.length < k then .error (.err .value)
  else
    let b := batch.getD (shape.take k)
    if shape.length < b.length ∨ shape.take b.length ≠ b then .error (.err .value) else .ok b

mutual

/-- `_to_named(a)` (360-368), with the value of `batch_shape` before and after, and `unbind_dims(a, *names)` of a distribution
(371-382). -/
def unbindArg (names : List Name) (batch : Option (List Nat)) : Dst α → Except Fail (Dst α × Option (List Nat))
  | .tensor v =>
    match checkBatch names.length batch v.shape with
    | .error e => .error e
    | .ok b =>
      match lift (unbind v names) with
      | .error e => .error e
      | .ok w => .ok (.tensor w, some b)
  | .other x => .ok (.other x, batch)
  | .dist c args =>
    match unbindArgs names none args with
    | .error e => .error e
    | .ok args => .ok (.dist c args, batch)

/-- The loops over the arguments (378-379). -/
def unbindArgs (names : List Name) (batch : Option (List Nat)) : List (Dst α) → Except Fail (List (Dst α))
  | [] => .ok []
  | a :: as =>
    match unbindArg names batch a with
    | .error e => .error e
    | .ok (a, batch) =>
      match unbindArgs names batch as with
      | .error e => .error e
      | .ok as => .ok (a :: as)

end

/-- `unbind_dims(d, *names)`. -/
def unbindDist (names : List Name) (d : Dst α) : Except Fail (Dst α) :=
  match unbindArg names none d with
  | .error e => .error e
  | .ok (d, _) => .ok d

/-! ## Specification -/

mutual

/-- The same distribution, with related tensors. -/
def Along (R : Val α → Val β → Prop) : Dst α → Dst β → Prop
  | .tensor v, .tensor w => R v w
  | .other x, .other y => x = y
  | .dist c args, .dist c' args' => c = c' ∧ AlongL R args args'
  | _, _ => False

/-- The same arguments, with related tensors. -/
def AlongL (R : Val α → Val β → Prop) : List (Dst α) → List (Dst β) → Prop
  | [], [] => True
  | a :: as, b :: bs => Along R a b ∧ AlongL R as bs
  | _, _ => False

end

mutual

/-- Each distribution in the term has a tensor with each of the names. -/
def Covered (names : List Name) : Dst α → Prop
  | .tensor _ => True
  | .other _ => True
  | .dist _ args => (∀ n ∈ names, ∃ v ∈ leavesL args, ∃ d, Occurs v n d) ∧ CoveredL names args

def CoveredL (names : List Name) : List (Dst α) → Prop
  | [] => True
  | a :: as => Covered names a ∧ CoveredL names as

end

/-- A distribution of which the tensors have named dimensions of the given sizes. -/
def Sized (sz : Name → Nat) (d : Dst α) : Prop := ∀ v ∈ leaves d, v.Wf ∧ ∀ n e, Occurs v n e → e = sz n

/-- A tensor of the distribution bound: the dimensions of the names come first, and for each value of the names the entries are
those of the tensor. -/
structure Bound (names : List Name) (sz : Name → Nat) (v w : Val α) : Prop where
  wf : w.Wf
  shape : w.shape = names.map sz ++ v.shape
  named : ∀ n d, Occurs w n d ↔ Occurs v n d ∧ n ∉ names
  den : ∀ env js ix, js.length = names.length → Within v.shape ix → den w env (js ++ ix) = den v (upd env names js) ix

/-- A tensor of the distribution unbound. -/
structure Unbound (names : List Name) (sz : Name → Nat) (v w : Val α) : Prop where
  wf : w.Wf
  shape : v.shape = names.map sz ++ w.shape
  named : ∀ n d, Occurs w n d ↔ Occurs v n d ∨ n ∈ names ∧ d = sz n
  den : ∀ env ix, ix.length = w.shape.length → den w env ix = den v env (names.map env ++ ix)

/-- The tensor with the dimensions of the names, along which it is constant where it lacks them. -/
structure Spread (names : List Name) (sz : Name → Nat) (v w : Val α) : Prop where
  wf : w.Wf
  shape : w.shape = v.shape
  named : ∀ n d, Occurs w n d ↔ Occurs v n d ∨ n ∈ names ∧ d = sz n
  den : ∀ env ix, Within v.shape ix → den w env ix = den v env ix

/-! ## Proofs: embeddings -/

/-- The arguments of the constructor are the attributes of the same name. -/
def aligned (e : Entry) : Bool :=
  e.pos == e.ctor.take e.pos.length && decide (e.pos.length ≤ e.ctor.length) &&
    e.kw.all (fun k => k.1 == k.2 && (e.ctor.drop e.pos.length).contains k.1) &&
    e.pos ++ e.kw.map Prod.fst == e.full

theorem rebuild_aligned {e : Entry} (h : aligned e = true) (ev : β → β) (attr : String → β) :
    rebuild e ev attr = some (e.full.map fun p => (p, ev (attr p))) := by
  unfold aligned at h
  simp only [Bool.and_eq_true, beq_iff_eq, decide_eq_true_eq, List.all_eq_true] at h
  obtain ⟨⟨⟨h1, h2⟩, h3⟩, h4⟩ := h
  unfold rebuild callArgs
  rw [if_neg (by rw [List.length_map]; omega), if_pos]
  · rw [← h4, List.map_append]
    congr 2
    · have : ∀ (l c : List String), l = c.take l.length →
          c.zip (l.map fun a => ev (attr a)) = l.map fun p => (p, ev (attr p)) := by
        intro l
        induction l with
        | nil => intro c _; simp
        | cons x xs ih =>
          intro c hc
          cases c with
          | nil => simp at hc
          | cons y ys =>
            rw [List.length_cons, List.take_succ_cons, List.cons.injEq] at hc
            rw [List.map_cons, List.zip_cons_cons, List.map_cons, ih ys hc.2, hc.1]
      exact this _ _ h1
    · rw [List.map_map]
      apply List.map_congr_left
      intro k hk
      simp only [Function.comp]
      rw [← (h3 k hk).1]
  · rw [List.all_eq_true]
    intro k hk
    rw [List.mem_map] at hk
    obtain ⟨k', hk', rfl⟩ := hk
    rw [List.length_map]
    exact (h3 k' hk').2

/-- The embedding of a distribution of pyro builds the distribution whose parameters are the evaluated parameters; that of a
distribution of numpyro builds the distribution. -/
theorem C78_embed_partial (ev : β → β) (attr : String → β) :
    (∀ e ∈ pyroTable, rebuild e ev attr = some (e.full.map fun p => (p, ev (attr p)))) ∧
    (∀ e ∈ numpyroTable, rebuild e id attr = some (e.full.map fun p => (p, attr p))) := by
  have h : ∀ e ∈ pyroTable ++ numpyroTable, aligned e = true := by decide
  exact ⟨fun e he => rebuild_aligned (h e (List.mem_append_left _ he)) ev attr,
    fun e he => rebuild_aligned (h e (List.mem_append_right _ he)) id attr⟩

/-- The parameters of an entry of the table that determine the distribution are parameters of its constructor, without
repetition. -/
theorem table_full : ∀ e ∈ pyroTable ++ numpyroTable, e.full.Nodup ∧ (∀ p ∈ e.full, p ∈ e.ctor) := by decide

example : pyroTable.length = 38 ∧ numpyroTable.length = 39 := by decide
example : (pyroTable.map Entry.cls).Nodup ∧ (numpyroTable.map Entry.cls).Nodup := by decide

/-- The embedding of `StudentT` builds a distribution with `loc` for the degrees of freedom and `scale` for the location: its
own degrees of freedom are lost. -/
theorem C78_student_fails (ev : β → β) (attr : String → β) :
    rebuild studentT ev attr = some [("df", ev (attr "loc")), ("loc", ev (attr "scale"))] := rfl

/-- The embedding of `Wishart` gives the Cholesky factor as the covariance matrix. -/
theorem C78_wishart_fails (ev : β → β) (attr : String → β) :
    rebuild wishart ev attr = some [("df", ev (attr "df")), ("covariance_matrix", ev (attr "scale_tril"))] := rfl

/-- Thus with distinct parameters neither builds the distribution. -/
example : rebuild studentT id (fun s : String => s) ≠ some (studentT.full.map fun p => (p, p)) := by decide
example : rebuild wishart id (fun s : String => s) ≠ some (wishart.full.map fun p => (p, p)) := by decide

/-! ## Proofs: binding -/

theorem sizesIn_spec {vs : List (Val α)} {sz : Name → Nat} (h : ∀ v ∈ vs, ∀ n e, Occurs v n e → e = sz n) :
    ∃ s, sizesIn vs = some s ∧ (s.map Prod.fst).Nodup ∧ ∀ n d, (n, d) ∈ s ↔ ∃ v ∈ vs, Occurs v n d := by
  have hm : ∀ n d, (d, some n) ∈ (vs.flatMap fun v => v.arr.shape.zip v.dims) ↔ ∃ v ∈ vs, Occurs v n d := by
    intro n d
    rw [List.mem_flatMap]
    exact Iff.rfl
  obtain ⟨s, h1, h2, h3⟩ := sizesLoop_spec (vs.flatMap fun v => v.arr.shape.zip v.dims) [] (by simp) (by
    intro n d e hd he
    simp only [List.not_mem_nil, false_or] at hd he
    obtain ⟨v, hv, ho⟩ := (hm n d).1 hd
    obtain ⟨w, hw, hp⟩ := (hm n e).1 he
    rw [h v hv n d ho, h w hw n e hp])
  refine ⟨s, h1, h2, fun n d => ?_⟩
  rw [h3 n d, ← hm n d]
  simp

theorem indices_spec {s : List (Name × Nat)} {sz : Name → Nat} (h : ∀ n d, (n, d) ∈ s → d = sz n) : ∀ (names : List Name),
    (∀ n ∈ names, ∃ d, (n, d) ∈ s) → indices s names = some (names.map fun n => (n, sz n)) := by
  intro names
  induction names with
  | nil => intro _; rfl
  | cons n ns ih =>
    intro hn
    rw [indices, ih fun m hm => hn m (List.mem_cons_of_mem _ hm)]
    obtain ⟨d, hd⟩ := hn n List.mem_cons_self
    cases hl : s.lookup n with
    | none =>
      rw [List.lookup_eq_none_iff] at hl
      have := hl _ hd
      simp at this
    | some e =>
      obtain ⟨l₁, l₂, h1, _⟩ := List.lookup_eq_some_iff.1 hl
      rw [h n e (by rw [h1]; simp)]
      rfl

theorem within_length : ∀ {s ix : List Nat}, Within s ix → ix.length = s.length
  | [], [], _ => rfl
  | _ :: _, _ :: _, h => by rw [List.length_cons, List.length_cons, within_length h.2]
  | [], _ :: _, h => by simp [Within] at h
  | _ :: _, [], h => by simp [Within] at h

theorem map_upd (env : Name → Nat) {names : List Name} (hn : names.Nodup) {js : List Nat} (hj : js.length = names.length) :
    names.map (upd env names js) = js := by
  apply List.ext_getElem
  · rw [List.length_map, hj]
  · intro i h1 h2
    rw [List.length_map] at h1
    rw [List.getElem_map]
    unfold upd
    rw [if_pos (List.getElem_mem h1), hn.idxOf_getElem i h1, List.getD_eq_getElem?_getD, List.getElem?_eq_getElem h2, Option.getD_some]

theorem bound_spec {order : List Name → List Name} (ho : ∀ l, (order l).Perm l) {names : List Name} (hn : names.Nodup)
    {sz : Name → Nat} {v : Val α} (hv : v.Wf) (hs : ∀ n e, Occurs v n e → e = sz n) :
    ∃ w, toPositional order (names.map fun n => (n, sz n)) v = .ok w ∧ Bound names sz v w := by
  have hf : (names.map fun n => (n, sz n)).map Prod.fst = names := by
    rw [List.map_map]
    exact (List.map_congr_left fun _ _ => rfl).trans (List.map_id _)
  have hd : (names.map fun n => (n, sz n)).map Prod.snd = names.map sz := by
    rw [List.map_map]
    rfl
  obtain ⟨w, h1, h2, h3, h4, h5⟩ := toPositional_spec ho (sizes := names.map fun n => (n, sz n)) (by rw [hf]; exact hn) hv (by
    intro n d e hm hoc
    rw [List.mem_map] at hm
    obtain ⟨m, _, hm⟩ := hm
    injection hm with ha hb
    subst ha
    rw [hs m e hoc, hb])
  rw [hf] at h4 h5
  rw [hd] at h3
  refine ⟨w, h1, h2, h3, h4, fun env js ix hj hw => ?_⟩
  have := h5 (upd env names js) ix (within_length hw)
  rw [map_upd env hn hj, below_eq (within_length hw), squash_within hw] at this
  rw [← this]
  unfold den
  congr 1
  apply coords_congr
  intro n hm
  obtain ⟨d, hd⟩ := (occurs_iff_mem h2 n).2 hm
  unfold upd
  rw [if_neg ((h4 n d).1 hd).2]

mutual

theorem bindArg_spec {order : List Name → List Name} (ho : ∀ l, (order l).Perm l) {names : List Name} (hn : names.Nodup)
    {sz : Name → Nat} : ∀ (d : Dst α), (∀ v ∈ leaves d, v.Wf ∧ ∀ n e, Occurs v n e → e = sz n) → Covered names d →
    ∀ ind, ((∃ c args, d = .dist c args) ∨ ind = names.map fun n => (n, sz n)) →
    ∃ d', bindArg order names ind d = .ok d' ∧ Along (Bound names sz) d d'
  | .tensor v, hs, _, ind, hi => by
    rcases hi with ⟨c, args, h⟩ | rfl
    · cases h
    · obtain ⟨h1, h2⟩ := hs v (by simp [leaves])
      obtain ⟨w, hw, hb⟩ := bound_spec ho hn h1 h2
      exact ⟨.tensor w, by rw [bindArg, hw]; rfl, hb⟩
  | .other x, _, _, ind, _ => ⟨.other x, rfl, by simp [Along]⟩
  | .dist c args, hs, hc, ind, _ => by
    rw [leaves] at hs
    rw [Covered] at hc
    obtain ⟨s, h1, _, h3⟩ := sizesIn_spec (vs := leavesL args) (sz := sz) fun v hv => (hs v hv).2
    have hix := indices_spec (s := s) (sz := sz) (fun n d hm => by
      obtain ⟨v, hv, hoc⟩ := (h3 n d).1 hm
      exact (hs v hv).2 n d hoc) names (fun n hm => by
        obtain ⟨v, hv, d, hoc⟩ := hc.1 n hm
        exact ⟨d, (h3 n d).2 ⟨v, hv, hoc⟩⟩)
    obtain ⟨args', h4, h5⟩ := bindArgs_spec ho hn args hs hc.2
    refine ⟨.dist c args', ?_, ?_⟩
    · rw [bindArg, h1]
      simp only
      rw [hix]
      simp only
      rw [h4]
    · exact ⟨rfl, h5⟩

theorem bindArgs_spec {order : List Name → List Name} (ho : ∀ l, (order l).Perm l) {names : List Name} (hn : names.Nodup)
    {sz : Name → Nat} : ∀ (args : List (Dst α)), (∀ v ∈ leavesL args, v.Wf ∧ ∀ n e, Occurs v n e → e = sz n) →
    CoveredL names args →
    ∃ args', bindArgs order names (names.map fun n => (n, sz n)) args = .ok args' ∧ AlongL (Bound names sz) args args'
  | [], _, _ => ⟨[], rfl, trivial⟩
  | a :: as, hs, hc => by
    rw [leavesL] at hs
    rw [CoveredL] at hc
    obtain ⟨a', h1, h2⟩ := bindArg_spec ho hn a (fun v hv => hs v (List.mem_append_left _ hv)) hc.1 _ (.inr rfl)
    obtain ⟨as', h3, h4⟩ := bindArgs_spec ho hn as (fun v hv => hs v (List.mem_append_right _ hv)) hc.2
    exact ⟨a' :: as', by rw [bindArgs, h1]; simp only; rw [h3], h2, h4⟩

end

/-- A distribution bound to names has the same tensors with the dimensions of the names in front, at each depth, provided that
each distribution inside has each of the names. -/
theorem C78_bind_partial {order : List Name → List Name} (ho : ∀ l, (order l).Perm l) {names : List Name} (hn : names.Nodup)
    {sz : Name → Nat} {c : Nat} {args : List (Dst α)} (hs : Sized sz (.dist c args)) (hc : Covered names (.dist c args)) :
    ∃ d', bindDist order names (.dist c args) = .ok d' ∧ Along (Bound names sz) (.dist c args) d' :=
  bindArg_spec ho hn _ hs hc [] (.inl ⟨c, args, rfl⟩)

theorem indices_none {s : List (Name × Nat)} : ∀ (names : List Name) (n : Name), n ∈ names → s.lookup n = none →
    indices s names = none := by
  intro names
  induction names with
  | nil => intro n h; cases h
  | cons m ms ih =>
    intro n h hl
    rw [indices]
    rcases List.mem_cons.1 h with rfl | h
    · rw [hl]
    · rw [ih n h hl]
      cases s.lookup m <;> rfl

/-- A name that no tensor of a distribution has is a KeyError; for a tensor it is not an error. -/
theorem C78_absent_fails (order : List Name → List Name) {names : List Name} {n : Name} (hm : n ∈ names) {sz : Name → Nat}
    {c : Nat} {args : List (Dst α)} (hs : Sized sz (.dist c args)) (ha : ∀ v ∈ leavesL args, ∀ d, ¬ Occurs v n d) :
    bindDist order names (.dist c args) = .error .key := by
  rw [Sized, leaves] at hs
  obtain ⟨s, h1, _, h3⟩ := sizesIn_spec (vs := leavesL args) (sz := sz) fun v hv => (hs v hv).2
  rw [bindDist, bindArg, h1]
  simp only
  rw [indices_none names n hm]
  rw [List.lookup_eq_none_iff]
  intro p hp
  obtain ⟨m, d⟩ := p
  obtain ⟨v, hv, hoc⟩ := (h3 m d).1 hp
  simp only [bne_iff_ne, ne_eq]
  rintro rfl
  exact ha v hv d hoc

/-- For a tensor it is not an error. -/
theorem tensor_absent {v : Val α} (hv : v.Wf) (n : Name) (ha : ∀ d, ¬ Occurs v n d) : Named.bind v [n] = .ok v := by
  obtain ⟨s, h1, _, h3⟩ := hv.sizesOf
  unfold Named.bind
  rw [if_neg (by simp), h1]
  simp only
  rw [if_pos]
  simp only [List.all_cons, List.all_nil, Bool.and_true, Bool.not_eq_true', List.contains_eq_mem, decide_eq_false_iff_not,
    List.mem_map, not_exists, not_and]
  rintro ⟨m, d⟩ hm rfl
  exact ha d ((h3 m d).1 hm)

/-! ## Proofs: unbinding -/

theorem zip_map_take {names : List Name} {sz : Name → Nat} (rest : List Nat) (n : Name) (d : Nat) :
    (d, n) ∈ (names.map sz ++ rest).zip names ↔ n ∈ names ∧ d = sz n := by
  induction names generalizing rest with
  | nil => simp
  | cons m ms ih =>
    rw [List.map_cons, List.cons_append, List.zip_cons_cons, List.mem_cons, List.mem_cons, ih]
    constructor
    · rintro (h | ⟨h1, h2⟩)
      · injection h with h1 h2
        subst h2
        exact ⟨.inl rfl, h1⟩
      · exact ⟨.inr h1, h2⟩
    · rintro ⟨rfl | h1, h2⟩
      · left; rw [h2]
      · exact .inr ⟨h1, h2⟩

theorem unbound_spec {names : List Name} (hn : names.Nodup) {sz : Name → Nat} {v : Val α} (hv : v.Wf) {rest : List Nat}
    (hs : v.shape = names.map sz ++ rest) (hf : ∀ n ∈ names, ∀ d, ¬ Occurs v n d) :
    ∃ w, unbind v names = .ok w ∧ Unbound names sz v w := by
  have hl : v.shape.length = names.length + rest.length := by rw [hs, List.length_append, List.length_map]
  obtain ⟨w, h1, h2, h3, h4, h5⟩ := C37_unbind_partial hv names hn (by omega) hf
  have hw : w.shape = rest := by
    rw [h3, hs, List.drop_left' (List.length_map _)]
  refine ⟨w, h1, h2, by rw [hw, hs], fun n d => ?_, fun env ix hi => h5 env ix (by rw [hi, hw, hl]; omega)⟩
  rw [h4, hs, zip_map_take]

theorem checkBatch_ok {k : Nat} {lead rest : List Nat} (hk : lead.length = k) {batch : Option (List Nat)}
    (hb : ∀ b, batch = some b → b = lead) : checkBatch k batch (lead ++ rest) = .ok lead := by
  unfold checkBatch
  rw [if_neg (by rw [List.length_append]; omega)]
  have : batch.getD ((lead ++ rest).take k) = lead := by
    cases batch with
    | none => exact List.take_left' hk
    | some b => exact hb b rfl
  simp only [this]
  rw [if_neg]
  rintro (h | h)
  · rw [List.length_append] at h; omega
  · exact h (List.take_left' rfl)

mutual

theorem unbindArg_spec {names : List Name} (hn : names.Nodup) {sz : Name → Nat} : ∀ (d : Dst α),
    (∀ v ∈ leaves d, v.Wf ∧ (∃ rest, v.shape = names.map sz ++ rest) ∧ ∀ n ∈ names, ∀ d, ¬ Occurs v n d) →
    ∀ batch, (∀ b, batch = some b → b = names.map sz) →
    ∃ d' batch', unbindArg names batch d = .ok (d', batch') ∧ Along (Unbound names sz) d d' ∧
      ∀ b, batch' = some b → b = names.map sz
  | .tensor v, hs, batch, hb => by
    obtain ⟨h1, ⟨rest, h2⟩, h3⟩ := hs v (by simp [leaves])
    obtain ⟨w, hw, hu⟩ := unbound_spec hn h1 h2 h3
    refine ⟨.tensor w, some (names.map sz), ?_, hu, fun b h => (Option.some.inj h).symm⟩
    rw [unbindArg, h2, checkBatch_ok (List.length_map _) hb]
    simp only
    rw [hw]
    rfl
  | .other x, _, batch, hb => ⟨.other x, batch, rfl, by simp [Along], hb⟩
  | .dist c args, hs, batch, hb => by
    rw [leaves] at hs
    obtain ⟨args', h1, h2⟩ := unbindArgs_spec hn args hs none (fun b h => by cases h)
    exact ⟨.dist c args', batch, by rw [unbindArg, h1], ⟨rfl, h2⟩, hb⟩

theorem unbindArgs_spec {names : List Name} (hn : names.Nodup) {sz : Name → Nat} : ∀ (args : List (Dst α)),
    (∀ v ∈ leavesL args, v.Wf ∧ (∃ rest, v.shape = names.map sz ++ rest) ∧ ∀ n ∈ names, ∀ d, ¬ Occurs v n d) →
    ∀ batch, (∀ b, batch = some b → b = names.map sz) →
    ∃ args', unbindArgs names batch args = .ok args' ∧ AlongL (Unbound names sz) args args'
  | [], _, _, _ => ⟨[], rfl, trivial⟩
  | a :: as, hs, batch, hb => by
    rw [leavesL] at hs
    obtain ⟨a', batch', h1, h2, h3⟩ := unbindArg_spec hn a (fun v hv => hs v (List.mem_append_left _ hv)) batch hb
    obtain ⟨as', h4, h5⟩ := unbindArgs_spec hn as (fun v hv => hs v (List.mem_append_right _ hv)) batch' h3
    exact ⟨a' :: as', by rw [unbindArgs, h1]; simp only; rw [h4], h2, h5⟩

end

/-- A distribution of which the tensors have the dimensions in front: they get the names, at each depth. -/
theorem C78_unbind_partial {names : List Name} (hn : names.Nodup) {sz : Name → Nat} {d : Dst α}
    (hs : ∀ v ∈ leaves d, v.Wf ∧ (∃ rest, v.shape = names.map sz ++ rest) ∧ ∀ n ∈ names, ∀ d, ¬ Occurs v n d) :
    ∃ d', unbindDist names d = .ok d' ∧ Along (Unbound names sz) d d' := by
  obtain ⟨d', b, h1, h2, _⟩ := unbindArg_spec hn d hs none (fun b h => by cases h)
  exact ⟨d', by rw [unbindDist, h1], h2⟩

/-- The tensors given to one distribution. -/
def direct : List (Dst α) → List (Val α)
  | [] => []
  | .tensor v :: as => v :: direct as
  | _ :: as => direct as

theorem unbindArgs_checked {names : List Name} : ∀ (args : List (Dst α)) (batch : Option (List Nat)) (args' : List (Dst α)),
    unbindArgs names batch args = .ok args' → (∀ b, batch = some b → b.length = names.length) →
    ∃ lead : List Nat, (∀ b, batch = some b → lead = b) ∧
      ∀ v ∈ direct args, lead.length = names.length ∧ v.shape.take names.length = lead := by
  intro args
  induction args with
  | nil =>
    intro batch args' _ _
    cases batch with
    | none => exact ⟨[], fun b h => (nomatch h), fun v h => (nomatch h)⟩
    | some b => exact ⟨b, fun b' h => Option.some.inj h, fun v h => (nomatch h)⟩
  | cons a as ih =>
    intro batch args' h hb
    rw [unbindArgs] at h
    cases a with
    | tensor v =>
      rw [unbindArg] at h
      cases hc : checkBatch names.length batch v.shape with
      | error e => rw [hc] at h; cases h
      | ok b =>
        rw [hc] at h
        simp only at h
        have hb2 : (∀ b', batch = some b' → b = b') ∧ b.length = names.length ∧ v.shape.take names.length = b := by
          unfold checkBatch at hc
          split at hc
          · cases hc
          · next hlen =>
            simp only at hc
            split at hc
            · cases hc
            · next hne =>
              rw [not_or] at hne
              injection hc with hc
              cases batch with
              | none =>
                rw [Option.getD_none] at hc
                refine ⟨fun b' h' => (nomatch h'), ?_, hc⟩
                rw [← hc, List.length_take]
                omega
              | some b0 =>
                rw [Option.getD_some] at hc hne
                subst hc
                have hl := hb b0 rfl
                refine ⟨fun b' h => Option.some.inj h, hl, ?_⟩
                rw [← hl]
                exact Decidable.not_not.1 hne.2
        cases hu : lift (unbind v names) with
        | error e => rw [hu] at h; cases h
        | ok w =>
          rw [hu] at h
          simp only at h
          cases hr : unbindArgs names (some b) as with
          | error e => rw [hr] at h; cases h
          | ok as' =>
            obtain ⟨lead, h1, h2⟩ := ih (some b) as' hr (fun b' hb' => by rw [← Option.some.inj hb']; exact hb2.2.1)
            have := h1 b rfl
            subst this
            refine ⟨lead, fun b' hb' => hb2.1 b' hb', fun u hu => ?_⟩
            rw [direct] at hu
            rcases List.mem_cons.1 hu with rfl | hu
            · exact hb2.2
            · exact h2 u hu
    | other x =>
      rw [unbindArg] at h
      simp only at h
      cases hr : unbindArgs names batch as with
      | error e => rw [hr] at h; cases h
      | ok as' => exact ih batch as' hr hb
    | dist c args =>
      rw [unbindArg] at h
      cases hd : unbindArgs names none args with
      | error e => rw [hd] at h; cases h
      | ok args' =>
        rw [hd] at h
        simp only at h
        cases hr : unbindArgs names batch as with
        | error e => rw [hr] at h; cases h
        | ok as' => exact ih batch as' hr hb

/-- When a distribution has been unbound, all the tensors given to it had the same sizes in front: there is no broadcasting. -/
theorem C78_unbind_checked_partial {names : List Name} {c : Nat} {args : List (Dst α)} {d' : Dst α}
    (h : unbindDist names (.dist c args) = .ok d') :
    ∃ lead : List Nat, ∀ v ∈ direct args, lead.length = names.length ∧ v.shape.take names.length = lead := by
  unfold unbindDist at h
  rw [unbindArg] at h
  cases hr : unbindArgs names none args with
  | error e => rw [hr] at h; cases h
  | ok args' =>
    obtain ⟨lead, _, h2⟩ := unbindArgs_checked args none args' hr (fun b h => nomatch h)
    exact ⟨lead, h2⟩

/-! ## Proofs: round trips -/

mutual

theorem along_leaves {R : Val α → Val β → Prop} : ∀ {d : Dst α} {e : Dst β}, Along R d e → ∀ w ∈ leaves e, ∃ v ∈ leaves d, R v w
  | .tensor v, .tensor w, h, u, hu => by
    rw [leaves, List.mem_singleton] at hu
    subst hu
    exact ⟨v, by simp [leaves], h⟩
  | .other _, .other _, _, u, hu => by simp [leaves] at hu
  | .dist c args, .dist c' args', h, u, hu => alongL_leaves h.2 u hu
  | .tensor _, .other _, h, _, _ => by simp [Along] at h
  | .tensor _, .dist _ _, h, _, _ => by simp [Along] at h
  | .other _, .tensor _, h, _, _ => by simp [Along] at h
  | .other _, .dist _ _, h, _, _ => by simp [Along] at h
  | .dist _ _, .tensor _, h, _, _ => by simp [Along] at h
  | .dist _ _, .other _, h, _, _ => by simp [Along] at h

theorem alongL_leaves {R : Val α → Val β → Prop} : ∀ {d : List (Dst α)} {e : List (Dst β)}, AlongL R d e →
    ∀ w ∈ leavesL e, ∃ v ∈ leavesL d, R v w
  | [], [], _, u, hu => by simp [leavesL] at hu
  | a :: as, b :: bs, h, u, hu => by
    rw [leavesL, List.mem_append] at hu
    rcases hu with hu | hu
    · obtain ⟨v, h1, h2⟩ := along_leaves h.1 u hu
      exact ⟨v, by rw [leavesL]; exact List.mem_append_left _ h1, h2⟩
    · obtain ⟨v, h1, h2⟩ := alongL_leaves h.2 u hu
      exact ⟨v, by rw [leavesL]; exact List.mem_append_right _ h1, h2⟩
  | [], _ :: _, h, _, _ => by simp [AlongL] at h
  | _ :: _, [], h, _, _ => by simp [AlongL] at h

end

mutual

theorem along_trans {R : Val α → Val α → Prop} {S T : Val α → Val α → Prop} (hRS : ∀ u v w, R u v → S v w → T u w) :
    ∀ {d e f : Dst α}, Along R d e → Along S e f → Along T d f
  | .tensor _, .tensor _, .tensor _, h, k => hRS _ _ _ h k
  | .other _, .other _, .other _, h, k => by
    simp only [Along] at h k ⊢
    rw [h, k]
  | .dist _ _, .dist _ _, .dist _ _, h, k => ⟨h.1.trans k.1, alongL_trans hRS h.2 k.2⟩
  | .tensor _, .other _, _, h, _ => by simp [Along] at h
  | .tensor _, .dist _ _, _, h, _ => by simp [Along] at h
  | .other _, .tensor _, _, h, _ => by simp [Along] at h
  | .other _, .dist _ _, _, h, _ => by simp [Along] at h
  | .dist _ _, .tensor _, _, h, _ => by simp [Along] at h
  | .dist _ _, .other _, _, h, _ => by simp [Along] at h
  | _, .tensor _, .other _, _, k => by simp [Along] at k
  | _, .tensor _, .dist _ _, _, k => by simp [Along] at k
  | _, .other _, .tensor _, _, k => by simp [Along] at k
  | _, .other _, .dist _ _, _, k => by simp [Along] at k
  | _, .dist _ _, .tensor _, _, k => by simp [Along] at k
  | _, .dist _ _, .other _, _, k => by simp [Along] at k

theorem alongL_trans {R : Val α → Val α → Prop} {S T : Val α → Val α → Prop} (hRS : ∀ u v w, R u v → S v w → T u w) :
    ∀ {d e f : List (Dst α)}, AlongL R d e → AlongL S e f → AlongL T d f
  | [], [], [], _, _ => trivial
  | _ :: _, _ :: _, _ :: _, h, k => ⟨along_trans hRS h.1 k.1, alongL_trans hRS h.2 k.2⟩
  | [], _ :: _, _, h, _ => by simp [AlongL] at h
  | _ :: _, [], _, h, _ => by simp [AlongL] at h
  | _, [], _ :: _, _, k => by simp [AlongL] at k
  | _, _ :: _, [], _, k => by simp [AlongL] at k

end

mutual

theorem along_with {R : Val α → Val β → Prop} {P : Val α → Prop} : ∀ {d : Dst α} {e : Dst β}, Along R d e →
    (∀ v ∈ leaves d, P v) → Along (fun u v => R u v ∧ P u) d e
  | .tensor v, .tensor _, h, hp => ⟨h, hp v (by simp [leaves])⟩
  | .other _, .other _, h, _ => by
    simp only [Along] at h ⊢
    exact h
  | .dist _ args, .dist _ _, h, hp => ⟨h.1, alongL_with h.2 hp⟩
  | .tensor _, .other _, h, _ => by simp [Along] at h
  | .tensor _, .dist _ _, h, _ => by simp [Along] at h
  | .other _, .tensor _, h, _ => by simp [Along] at h
  | .other _, .dist _ _, h, _ => by simp [Along] at h
  | .dist _ _, .tensor _, h, _ => by simp [Along] at h
  | .dist _ _, .other _, h, _ => by simp [Along] at h

theorem alongL_with {R : Val α → Val β → Prop} {P : Val α → Prop} : ∀ {d : List (Dst α)} {e : List (Dst β)}, AlongL R d e →
    (∀ v ∈ leavesL d, P v) → AlongL (fun u v => R u v ∧ P u) d e
  | [], [], _, _ => trivial
  | _ :: _, _ :: _, h, hp =>
    ⟨along_with h.1 fun v hv => hp v (by rw [leavesL]; exact List.mem_append_left _ hv),
      alongL_with h.2 fun v hv => hp v (by rw [leavesL]; exact List.mem_append_right _ hv)⟩
  | [], _ :: _, h, _ => by simp [AlongL] at h
  | _ :: _, [], h, _ => by simp [AlongL] at h

end

mutual

/-- Each distribution in the term has a tensor. -/
def Tensors : Dst α → Prop
  | .tensor _ => True
  | .other _ => True
  | .dist _ args => leavesL args ≠ [] ∧ TensorsL args

def TensorsL : List (Dst α) → Prop
  | [] => True
  | a :: as => Tensors a ∧ TensorsL as

end

mutual

theorem along_nonempty {R : Val α → Val β → Prop} : ∀ {d : Dst α} {e : Dst β}, Along R d e → leaves d ≠ [] → leaves e ≠ []
  | .tensor _, .tensor _, _, _ => by simp [leaves]
  | .other _, .other _, _, hn => by simp [leaves] at hn
  | .dist _ _, .dist _ _, h, hn => alongL_nonempty h.2 hn
  | .tensor _, .other _, h, _ => by simp [Along] at h
  | .tensor _, .dist _ _, h, _ => by simp [Along] at h
  | .other _, .tensor _, h, _ => by simp [Along] at h
  | .other _, .dist _ _, h, _ => by simp [Along] at h
  | .dist _ _, .tensor _, h, _ => by simp [Along] at h
  | .dist _ _, .other _, h, _ => by simp [Along] at h

theorem alongL_nonempty {R : Val α → Val β → Prop} : ∀ {d : List (Dst α)} {e : List (Dst β)}, AlongL R d e →
    leavesL d ≠ [] → leavesL e ≠ []
  | [], [], _, hn => by simp [leavesL] at hn
  | a :: as, b :: bs, h, hn => by
    rw [leavesL, ne_eq, List.append_eq_nil_iff, Decidable.not_and_iff_not_or_not] at hn ⊢
    rcases hn with hn | hn
    · exact .inl (along_nonempty h.1 hn)
    · exact .inr (alongL_nonempty h.2 hn)
  | [], _ :: _, h, _ => by simp [AlongL] at h
  | _ :: _, [], h, _ => by simp [AlongL] at h

end

mutual

theorem along_covered {R : Val α → Val β → Prop} {names : List Name} (hR : ∀ v w, R v w → ∀ n ∈ names, ∃ d, Occurs w n d) :
    ∀ {d : Dst α} {e : Dst β}, Along R d e → Tensors d → Covered names e
  | .tensor _, .tensor _, _, _ => trivial
  | .other _, .other _, _, _ => trivial
  | .dist _ args, .dist _ args', h, ht => by
    rw [Tensors] at ht
    refine ⟨fun n hn => ?_, alongL_covered hR h.2 ht.2⟩
    obtain ⟨w, hw⟩ := List.exists_mem_of_ne_nil _ (alongL_nonempty h.2 ht.1)
    obtain ⟨v, _, hv⟩ := alongL_leaves h.2 w hw
    obtain ⟨d, hd⟩ := hR v w hv n hn
    exact ⟨w, hw, d, hd⟩
  | .tensor _, .other _, h, _ => by simp [Along] at h
  | .tensor _, .dist _ _, h, _ => by simp [Along] at h
  | .other _, .tensor _, h, _ => by simp [Along] at h
  | .other _, .dist _ _, h, _ => by simp [Along] at h
  | .dist _ _, .tensor _, h, _ => by simp [Along] at h
  | .dist _ _, .other _, h, _ => by simp [Along] at h

theorem alongL_covered {R : Val α → Val β → Prop} {names : List Name} (hR : ∀ v w, R v w → ∀ n ∈ names, ∃ d, Occurs w n d) :
    ∀ {d : List (Dst α)} {e : List (Dst β)}, AlongL R d e → TensorsL d → CoveredL names e
  | [], [], _, _ => trivial
  | _ :: _, _ :: _, h, ht => by
    rw [TensorsL] at ht
    exact ⟨along_covered hR h.1 ht.1, alongL_covered hR h.2 ht.2⟩
  | [], _ :: _, h, _ => by simp [AlongL] at h
  | _ :: _, [], h, _ => by simp [AlongL] at h

end

/-- Binding names and unbinding them again: the same distribution, whose tensors now all have the names. -/
theorem C78_bind_unbind_partial {order : List Name → List Name} (ho : ∀ l, (order l).Perm l) {names : List Name} (hn : names.Nodup)
    {sz : Name → Nat} {c : Nat} {args : List (Dst α)} (hs : Sized sz (.dist c args)) (hc : Covered names (.dist c args)) :
    ∃ d' d'', bindDist order names (.dist c args) = .ok d' ∧ unbindDist names d' = .ok d'' ∧
      Along (Spread names sz) (.dist c args) d'' := by
  obtain ⟨d', h1, h2⟩ := C78_bind_partial ho hn hs hc
  obtain ⟨d'', h3, h4⟩ := C78_unbind_partial (names := names) hn (sz := sz) (d := d') (fun w hw => by
    obtain ⟨v, hv, hb⟩ := along_leaves h2 w hw
    exact ⟨hb.wf, ⟨v.shape, hb.shape⟩, fun n hm d ho => ((hb.named n d).1 ho).2 hm⟩)
  have hsz : ∀ v ∈ leaves (Dst.dist c args), ∀ n e, Occurs v n e → e = sz n := fun v hv => (hs v hv).2
  refine ⟨d', d'', h1, h3, ?_⟩
  have hstep : ∀ u v w : Val α, (Bound names sz u v ∧ ∀ n e, Occurs u n e → e = sz n) → Unbound names sz v w →
      Spread names sz u w := by
    rintro u v w ⟨hb, hu⟩ hw
    have hshape : w.shape = u.shape := by
      have := hw.shape
      rw [hb.shape] at this
      exact (List.append_cancel_left this).symm
    refine ⟨hw.wf, hshape, fun n d => ?_, fun env ix hix => ?_⟩
    · rw [hw.named, hb.named]
      constructor
      · rintro (⟨h, _⟩ | h)
        · exact .inl h
        · exact .inr h
      · rintro (h | h)
        · by_cases hm : n ∈ names
          · exact .inr ⟨hm, hu n d h⟩
          · exact .inl ⟨h, hm⟩
        · exact .inr h
    · rw [hw.den env ix (by rw [hshape]; exact within_length hix), hb.den env _ ix (List.length_map _) hix]
      unfold den
      congr 1
      apply coords_congr
      intro n _
      unfold upd
      split
      · next hm =>
        have hlt := List.idxOf_lt_length_of_mem hm
        rw [List.getD_eq_getElem?_getD, List.getElem?_eq_getElem (by rw [List.length_map]; exact hlt), List.getElem_map,
          List.getElem_idxOf hlt, Option.getD_some]
      · rfl
  have hstrong : Along (fun u v => Bound names sz u v ∧ ∀ n e, Occurs u n e → e = sz n) (.dist c args) d' :=
    along_with (P := fun u => ∀ n e, Occurs u n e → e = sz n) h2 hsz
  exact along_trans hstep hstrong h4

theorem within_split : ∀ {lead s ix : List Nat}, Within (lead ++ s) ix →
    ∃ js ix', ix = js ++ ix' ∧ js.length = lead.length ∧ Within s ix'
  | [], _, ix, h => ⟨[], ix, rfl, rfl, h⟩
  | _ :: _, _, [], h => by simp [Within] at h
  | _ :: lead, _, i :: ix, h => by
    obtain ⟨js, ix', h1, h2, h3⟩ := within_split h.2
    exact ⟨i :: js, ix', by rw [h1]; rfl, by rw [List.length_cons, List.length_cons, h2], h3⟩

/-- Unbinding dimensions and binding the names again gives the distribution. -/
theorem C78_unbind_bind_partial {order : List Name → List Name} (ho : ∀ l, (order l).Perm l) {names : List Name} (hn : names.Nodup)
    {sz : Name → Nat} {c : Nat} {args : List (Dst α)} (hs : Sized sz (.dist c args)) (ht : Tensors (.dist c args))
    (hl : ∀ v ∈ leavesL args, (∃ rest, v.shape = names.map sz ++ rest) ∧ ∀ n ∈ names, ∀ d, ¬ Occurs v n d) :
    ∃ d' d'', unbindDist names (.dist c args) = .ok d' ∧ bindDist order names d' = .ok d'' ∧
      Along (fun v w => w.Wf ∧ w.shape = v.shape ∧ (∀ n d, Occurs w n d ↔ Occurs v n d) ∧
        ∀ env ix, Within v.shape ix → den w env ix = den v env ix)
        (.dist c args) d'' := by
  obtain ⟨d', h1, h2⟩ := C78_unbind_partial (names := names) hn (sz := sz) (d := .dist c args)
    (fun v hv => ⟨(hs v hv).1, hl v hv⟩)
  have h2' := along_with (P := fun v => (∀ n e, Occurs v n e → e = sz n) ∧ (∀ n ∈ names, ∀ d, ¬ Occurs v n d) ∧ v.Wf) h2
    (fun v hv => ⟨(hs v hv).2, (hl v hv).2, (hs v hv).1⟩)
  have hd : ∃ args', d' = .dist c args' := by
    cases d' with
    | tensor _ => simp [Along] at h2
    | other _ => simp [Along] at h2
    | dist c' args' => exact ⟨args', by rw [h2.1]⟩
  obtain ⟨args', rfl⟩ := hd
  obtain ⟨d'', h3, h4⟩ := C78_bind_partial ho hn (sz := sz) (c := c) (args := args') (fun w hw => by
    obtain ⟨v, hv, hu, hp⟩ := along_leaves h2' w hw
    refine ⟨hu.wf, fun n e hoc => ?_⟩
    rcases (hu.named n e).1 hoc with h | h
    · exact hp.1 n e h
    · exact h.2) (along_covered (fun v w hu n hm => ⟨sz n, (hu.named n (sz n)).2 (.inr ⟨hm, rfl⟩)⟩) h2 ht)
  refine ⟨.dist c args', d'', h1, h3, along_trans ?_ h2' h4⟩
  rintro u v w ⟨hu, hp⟩ hb
  have hshape : w.shape = u.shape := by rw [hb.shape, hu.shape]
  refine ⟨hb.wf, hshape, fun n d => ?_, fun env ix hix => ?_⟩
  · rw [hb.named, hu.named]
    constructor
    · rintro ⟨h | h, hm⟩
      · exact h
      · exact absurd h.1 hm
    · intro h
      exact ⟨.inl h, fun hm => hp.2.1 n hm d h⟩
  · rw [hu.shape] at hix
    obtain ⟨js, ix', rfl, hj, hw⟩ := within_split hix
    rw [List.length_map] at hj
    rw [hb.den env js ix' hj hw, hu.den _ ix' (within_length hw), map_upd env hn hj]
    unfold den
    congr 1
    apply coords_congr
    intro n hm
    obtain ⟨d, hd⟩ := (occurs_iff_mem hp.2.2 n).2 hm
    unfold upd
    rw [if_neg fun hmem => hp.2.1 n hmem d hd]

/-! ## Examples -/

/-- A name. -/
abbrev i₀ : Name := "i"

/-- A tensor with entries `0, 1` along a dimension named 0. -/
def exA : Val Nat := ⟨⟨[2], fun ix => ix.headD 0⟩, [some i₀]⟩

/-- A number. -/
def exB : Val Nat := ⟨⟨[], fun _ => 7⟩, []⟩

/-- `Independent(Normal(a, b), 0)`. -/
def exD : Dst Nat := .dist 0 [.dist 1 [.tensor exA, .tensor exB], .other 0]

/-- `MaskedDistribution(Normal(b, b), a)`. -/
def exM : Dst Nat := .dist 2 [.dist 1 [.tensor exB, .tensor exB], .tensor exA]

theorem exA_ok : exA.Wf ∧ ∀ n e, Occurs exA n e → e = 2 := by
  have h : ∀ n e, Occurs exA n e → e = 2 := by
    intro n e h
    simp only [Occurs, exA, List.zip_cons_cons, List.zip_nil_right, List.mem_singleton, Prod.mk.injEq] at h
    exact h.1
  exact ⟨⟨rfl, fun n d e h1 h2 => (h n d h1).trans (h n e h2).symm⟩, h⟩

theorem exB_ok : exB.Wf ∧ ∀ n e, Occurs exB n e → e = 2 :=
  ⟨⟨rfl, fun _ _ _ h => by simp [Occurs, exB] at h⟩, fun _ _ h => by simp [Occurs, exB] at h⟩

theorem exD_sized : Sized (fun _ => 2) exD := by
  intro v hv
  simp only [exD, leaves, leavesL, List.cons_append, List.nil_append, List.append_nil, List.mem_cons, List.not_mem_nil,
    or_false] at hv
  rcases hv with rfl | rfl
  · exact exA_ok
  · exact exB_ok

theorem exM_sized : Sized (fun _ => 2) exM := by
  intro v hv
  simp only [exM, leaves, leavesL, List.cons_append, List.nil_append, List.append_nil, List.mem_cons, List.not_mem_nil,
    or_false] at hv
  rcases hv with rfl | rfl | rfl
  · exact exB_ok
  · exact exB_ok
  · exact exA_ok

theorem exD_covered : Covered [i₀] exD := by
  have h : ∀ n ∈ [i₀], ∃ v ∈ [exA, exB], ∃ d, Occurs v n d := by
    intro n hn
    rw [List.mem_singleton] at hn
    subst hn
    exact ⟨exA, by simp, 2, by simp [Occurs, exA]⟩
  exact ⟨h, ⟨h, trivial, trivial, trivial⟩, trivial, trivial⟩

/-- The shapes of the tensors, and the entries of those with one dimension of size 2. -/
def look (d : Except Fail (Dst Nat)) : Option (List (List Nat × List (Option Name) × List Nat)) :=
  d.toOption.map fun d => (leaves d).map fun v => (v.arr.shape, v.dims, [v.arr.get [0], v.arr.get [1]])

/-- The hypotheses of `C78_bind_partial` and `C78_bind_unbind_partial` hold, and both tensors get a dimension. -/
example : ∃ d' d'', bindDist id [i₀] exD = .ok d' ∧ unbindDist [i₀] d' = .ok d'' ∧ Along (Spread [i₀] fun _ => 2) exD d'' :=
  C78_bind_unbind_partial (fun _ => List.Perm.refl _) (by simp) exD_sized exD_covered
example : look (bindDist id [i₀] exD) = some [([2], [none], [0, 1]), ([2], [none], [7, 7])] := by decide
example : look ((bindDist id [i₀] exD).bind (unbindDist [i₀])) = some [([2], [some i₀], [0, 1]), ([2], [some i₀], [7, 7])] := by
  decide

/-- A name of the distribution that a distribution inside lacks is a KeyError. -/
theorem C78_nested_fails : Sized (fun _ => 2) exM ∧ (∃ v ∈ leaves exM, Occurs v i₀ 2) ∧ bindDist id [i₀] exM = .error .key :=
  ⟨exM_sized, ⟨exA, by simp [exM, leaves, leavesL], by simp [Occurs, exA]⟩, rfl⟩

/-- Tensors of different sizes in front are an error. -/
example : unbindDist [i₀] (.dist 0 [.tensor (plain ⟨[2], fun _ => 0⟩), .tensor (plain ⟨[3], fun _ => 0⟩)]) = .error (.err .value) := rfl
example : unbindDist [i₀] (.dist 0 [.tensor (plain ⟨[2], fun _ => 0⟩), .tensor exB]) = .error (.err .value) := rfl

/-- The hypotheses of `C78_unbind_bind_partial` hold. -/
example : ∃ d' d'', unbindDist [i₀] (.dist 0 [.tensor (plain (⟨[2], fun ix => ix.headD 0⟩ : Arr Nat))]) = .ok d' ∧
    bindDist id [i₀] d' = .ok d'' := by
  obtain ⟨d', d'', h1, h2, _⟩ := C78_unbind_bind_partial (order := id) (fun _ => List.Perm.refl _) (names := [i₀]) (by simp)
    (sz := fun _ => 2) (c := 0) (args := [.tensor (plain (⟨[2], fun ix => ix.headD 0⟩ : Arr Nat))])
    (fun v hv => by
      simp only [leaves, leavesL, List.append_nil, List.mem_singleton] at hv
      subst hv
      exact ⟨(plain_wf _).1, fun n e h => absurd h ((plain_wf _).2.2 n e)⟩)
    ⟨by simp [leavesL, leaves], trivial, trivial⟩
    (fun v hv => by
      simp only [leaves, leavesL, List.append_nil, List.mem_singleton] at hv
      subst hv
      exact ⟨⟨[], by rw [(plain_wf _).2.1]; rfl⟩, fun n _ d h => (plain_wf _).2.2 n d h⟩)
  exact ⟨d', d'', h1, h2⟩

end Verif.Indexed.PyroDist
