/-!
# C120: options of the provider

Model of `LiteLLMProvider.__init__` (`handlers/llm/completions.py` 652-656), of the keyword arguments of `call_assistant` in a call of a
template (688-693), and of `call_assistant` as far as it passes them to `completion` (367-371, 384, 403-409).

* `litellm.completion` has the parameter `model`, then others that may be given by name, then `**kwargs`. `inspect.Signature.bind_partial`
  and `BoundArguments.kwargs` are those of CPython for such signatures and arguments that are all given by name.
* Values are arbitrary. Names are the ones that the code uses, and others. The parameters of `Operation.__call__` (C102) are left out.
-/

namespace Verif.Llm.Provider

/-- Names of arguments. -/
inductive Name where
  | model
  | env
  | responseType
  | anchor
  | messages
  | responseFormat
  | tools
  | other (n : Nat)
  deriving DecidableEq, Repr

variable {V : Type}

/-- `bind_partial(**opts)`: the arguments of the parameters, in their order, and those of `**kwargs`. -/
def bindPartial (ps : List Name) (opts : List (Name × V)) : List (Name × Option V) × List (Name × V) :=
  (ps.map fun p => (p, opts.lookup p), opts.filter fun x => !ps.contains x.1)

/-- The loop of `BoundArguments.kwargs` over the parameters, once it has started. -/
def started : List (Name × Option V) → List (Name × V)
  | [] => []
  | (p, some v) :: l => (p, v) :: started l
  | (_, none) :: l => started l

/-- The same before: arguments count as positional until one is missing. -/
def notStarted : List (Name × Option V) → List (Name × V)
  | [] => []
  | (_, some _) :: l => notStarted l
  | (_, none) :: l => started l

/-- `bind_partial(**opts).kwargs`. -/
def kwargsOf (ps : List Name) (opts : List (Name × V)) : List (Name × V) :=
  notStarted (bindPartial ps opts).1 ++ (bindPartial ps opts).2

/-- `LiteLLMProvider.__init__` (652-656): the configuration. -/
def provider (ps : List Name) (m : V) (opts : List (Name × V)) : List (Name × V) := (.model, m) :: kwargsOf ps opts

/-- What is sent. -/
structure Request (V : Type) where
  model : V
  messages : V
  responseFormat : V
  tools : V
  options : List (Name × V)

inductive Error where
  /-- several values for a parameter, or none -/
  | type
  deriving DecidableEq, Repr

/-- The call of `completion` (403-409): `messages`, `response_format` and `tools` are given, and the keyword arguments. -/
def complete (m ms rf ts : V) (kwargs : List (Name × V)) : Except Error (Request V) :=
  if kwargs.any (fun x => x.1 == .messages || x.1 == .responseFormat || x.1 == .tools || x.1 == .model) then .error .type
  else .ok ⟨m, ms, rf, ts, kwargs⟩

/-- `call_assistant` (367-371, 384, 403-409), with its keyword arguments; `env` and `response_type` are given by position. -/
def callAssistant (ms rf ts : V) (kwargs : List (Name × V)) : Except Error (Request V) :=
  if kwargs.any (fun x => x.1 == .env || x.1 == .responseType) then .error .type
  else
    match kwargs.lookup .model with
    | none => .error .type
    | some m => complete m ms rf ts (kwargs.filter fun x => x.1 != .model && x.1 != .anchor)

/-- The call in `LiteLLMProvider._call` (688-693): `anchor=..., **self.config`. -/
def request (ms rf ts an : V) (config : List (Name × V)) : Except Error (Request V) :=
  if config.any (fun x => x.1 == .anchor) then .error .type
  else callAssistant ms rf ts ((.anchor, an) :: config)

/-! ## Specification -/

/-- The names that the library uses itself. -/
def Reserved (n : Name) : Prop := n = .env ∨ n = .responseType ∨ n = .anchor ∨ n = .messages ∨ n = .responseFormat ∨ n = .tools

/-- A dict of options; `model` is a parameter of the provider. -/
structure Options (opts : List (Name × V)) : Prop where
  nodup : (opts.map Prod.fst).Nodup
  model : ∀ v, (Name.model, v) ∉ opts

/-! ## Proofs -/

theorem lookup_mem {l : List (Name × V)} {n : Name} {v : V} (h : l.lookup n = some v) : (n, v) ∈ l := by
  induction l with
  | nil => cases h
  | cons a l ih =>
    obtain ⟨k, w⟩ := a
    rw [List.lookup_cons] at h
    split at h
    · rename_i hk
      simp only [beq_iff_eq] at hk
      cases h
      rw [hk]
      exact List.mem_cons_self ..
    · exact List.mem_cons_of_mem _ (ih h)

theorem mem_lookup {l : List (Name × V)} (hn : (l.map Prod.fst).Nodup) {n : Name} {v : V} (h : (n, v) ∈ l) : l.lookup n = some v := by
  induction l with
  | nil => cases h
  | cons a l ih =>
    obtain ⟨k, w⟩ := a
    rw [List.map_cons, List.nodup_cons] at hn
    rw [List.lookup_cons]
    rcases List.mem_cons.1 h with h | h
    · cases h; simp
    · have hne : n ≠ k := fun e => hn.1 (List.mem_map.2 ⟨(n, v), h, e⟩)
      have : (n == k) = false := by simpa using hne
      rw [this]
      exact ih hn.2 h

theorem mem_started {l : List (Name × Option V)} {n : Name} {v : V} : (n, v) ∈ started l ↔ (n, some v) ∈ l := by
  induction l with
  | nil => simp [started]
  | cons a l ih =>
    obtain ⟨p, o⟩ := a
    cases o with
    | none => simp [started, ih]
    | some w => simp [started, ih]

theorem started_names (l : List (Name × Option V)) : ((started l).map Prod.fst).Sublist (l.map Prod.fst) := by
  induction l with
  | nil => exact .slnil
  | cons a l ih =>
    obtain ⟨p, o⟩ := a
    cases o with
    | none => exact ih.cons _
    | some w => exact ih.cons_cons _

/-- Nothing is lost if the first parameter is not given. -/
theorem mem_kwargsOf {ps : List Name} {opts : List (Name × V)} (ho : Options opts) {n : Name} {v : V} :
    (n, v) ∈ kwargsOf (.model :: ps) opts ↔ (n, v) ∈ opts := by
  have hm : opts.lookup .model = none := by
    cases h : opts.lookup .model with
    | none => rfl
    | some v => exact absurd (lookup_mem h) (ho.model v)
  have hk : kwargsOf (.model :: ps) opts =
      started (ps.map fun p => (p, opts.lookup p)) ++ opts.filter fun x => !(Name.model :: ps).contains x.1 := by
    simp [kwargsOf, bindPartial, hm, notStarted]
  rw [hk, List.mem_append, mem_started, List.mem_map, List.mem_filter]
  constructor
  · rintro (⟨p, -, h⟩ | h)
    · simp only [Prod.mk.injEq] at h
      obtain ⟨rfl, h⟩ := h
      exact lookup_mem h
    · exact h.1
  · intro h
    by_cases hp : n ∈ ps
    · exact Or.inl ⟨n, hp, by rw [mem_lookup ho.nodup h]⟩
    · refine Or.inr ⟨h, ?_⟩
      have hne : n ≠ .model := fun e => ho.model v (e ▸ h)
      simp [hp, hne]

theorem kwargsOf_nodup {ps : List Name} (hps : (Name.model :: ps).Nodup) {opts : List (Name × V)} (ho : Options opts) :
    ((kwargsOf (.model :: ps) opts).map Prod.fst).Nodup := by
  have hm : opts.lookup .model = none := by
    cases h : opts.lookup .model with
    | none => rfl
    | some v => exact absurd (lookup_mem h) (ho.model v)
  have hk : kwargsOf (.model :: ps) opts =
      started (ps.map fun p => (p, opts.lookup p)) ++ opts.filter fun x => !(Name.model :: ps).contains x.1 := by
    simp [kwargsOf, bindPartial, hm, notStarted]
  have hs : ((started (ps.map fun p => (p, opts.lookup p))).map Prod.fst).Sublist ps := by
    have := started_names (ps.map fun p => (p, opts.lookup p))
    rwa [List.map_map, show (Prod.fst ∘ fun p => (p, opts.lookup p)) = id from rfl, List.map_id] at this
  rw [hk, List.map_append, List.nodup_append]
  refine ⟨hs.nodup (List.nodup_cons.1 hps).2, (List.filter_sublist.map Prod.fst).nodup ho.nodup, ?_⟩
  intro a ha b hb hab
  subst hab
  have h1 : a ∈ ps := hs.subset ha
  obtain ⟨x, hx, rfl⟩ := List.mem_map.1 hb
  have h2 := (List.mem_filter.1 hx).2
  simp [h1] at h2

theorem any_iff {l : List (Name × V)} {q : Name → Bool} : l.any (fun x => q x.1) = true ↔ ∃ n v, (n, v) ∈ l ∧ q n = true := by
  rw [List.any_eq_true]
  constructor
  · rintro ⟨⟨n, v⟩, h1, h2⟩; exact ⟨n, v, h1, h2⟩
  · rintro ⟨n, v, h1, h2⟩; exact ⟨(n, v), h1, h2⟩

theorem mem_notStarted {l : List (Name × Option V)} {n : Name} {v : V} :
    (n, v) ∈ notStarted l ↔ ∃ a m b, l = a ++ (m, none) :: b ∧ (n, some v) ∈ b := by
  induction l with
  | nil => simp [notStarted]
  | cons x l ih =>
    obtain ⟨p, o⟩ := x
    cases o with
    | none =>
      rw [notStarted, mem_started]
      constructor
      · intro h; exact ⟨[], p, l, rfl, h⟩
      · rintro ⟨a, m, b, h, hb⟩
        cases a with
        | nil => simp only [List.nil_append, List.cons.injEq] at h; rw [h.2]; exact hb
        | cons y a =>
          simp only [List.cons_append, List.cons.injEq] at h
          rw [h.2]
          exact List.mem_append_right _ (List.mem_cons_of_mem _ hb)
    | some w =>
      rw [notStarted, ih]
      constructor
      · rintro ⟨a, m, b, rfl, hb⟩; exact ⟨(p, some w) :: a, m, b, rfl, hb⟩
      · rintro ⟨a, m, b, h, hb⟩
        cases a with
        | nil => simp at h
        | cons y a =>
          simp only [List.cons_append, List.cons.injEq] at h
          exact ⟨a, m, b, h.2, hb⟩

/-- Why `model` has to come first: of the options that are parameters, exactly those are passed on that come after a parameter that is not
given. -/
theorem C120_order (ps : List Name) (opts : List (Name × V)) (n : Name) (v : V) (hn : n ∈ ps) :
    (n, v) ∈ kwargsOf ps opts ↔ opts.lookup n = some v ∧ ∃ a m b, ps = a ++ m :: b ∧ opts.lookup m = none ∧ n ∈ b := by
  have h2 : (n, v) ∉ (bindPartial ps opts).2 := by simp [bindPartial, hn]
  rw [kwargsOf, List.mem_append, or_iff_left h2, mem_notStarted]
  show (∃ a m b, ps.map (fun p => (p, opts.lookup p)) = a ++ (m, none) :: b ∧ (n, some v) ∈ b) ↔ _
  constructor
  · rintro ⟨a, m, b, h, hb⟩
    obtain ⟨a', r, rfl, rfl, hr⟩ := List.map_eq_append_iff.1 h
    obtain ⟨m', b', rfl, hm, rfl⟩ := List.map_eq_cons_iff.1 hr
    simp only [Prod.mk.injEq] at hm
    obtain ⟨p, hp, hpn⟩ := List.mem_map.1 hb
    simp only [Prod.mk.injEq] at hpn
    obtain ⟨rfl, hv⟩ := hpn
    exact ⟨hv, a', m', b', rfl, hm.2, hp⟩
  · rintro ⟨hv, a, m, b, rfl, hm, hb⟩
    exact ⟨a.map fun p => (p, opts.lookup p), m, b.map fun p => (p, opts.lookup p), by simp [hm], List.mem_map.2 ⟨n, hb, by rw [hv]⟩⟩

/-- Options with other names than those of the library are all sent, with their values, and nothing else is; the model, the messages, the
format and the tools are those of the call. -/
theorem C120_options_partial (ps : List Name) (hps : (Name.model :: ps).Nodup) (m ms rf ts an : V) (opts : List (Name × V))
    (ho : Options opts) (hr : ∀ n v, (n, v) ∈ opts → ¬ Reserved n) :
    ∃ r, request ms rf ts an (provider (.model :: ps) m opts) = .ok r ∧ r.model = m ∧ r.messages = ms ∧ r.responseFormat = rf ∧
      r.tools = ts ∧ (r.options.map Prod.fst).Nodup ∧ ∀ n v, (n, v) ∈ r.options ↔ (n, v) ∈ opts := by
  have hmem : ∀ n v, (n, v) ∈ kwargsOf (.model :: ps) opts ↔ (n, v) ∈ opts := fun n v => mem_kwargsOf ho
  have hno : ∀ q : Name → Bool, (∀ n, q n = true → Reserved n ∨ n = .model) →
      (kwargsOf (.model :: ps) opts).any (fun x => q x.1) = false := by
    intro q hq
    rw [Bool.eq_false_iff]
    intro h
    obtain ⟨n, v, h1, h2⟩ := any_iff.1 h
    rw [hmem] at h1
    rcases hq n h2 with h3 | h3
    · exact hr n v h1 h3
    · exact ho.model v (h3 ▸ h1)
  have hf : (kwargsOf (.model :: ps) opts).filter (fun x => x.1 != .model && x.1 != .anchor) = kwargsOf (.model :: ps) opts := by
    rw [List.filter_eq_self]
    rintro ⟨n, v⟩ h
    rw [hmem] at h
    have h1 : n ≠ .model := fun e => ho.model v (e ▸ h)
    have h2 : n ≠ .anchor := fun e => hr n v h (by simp [Reserved, e])
    simp [h1, h2]
  refine ⟨⟨m, ms, rf, ts, kwargsOf (.model :: ps) opts⟩, ?_, rfl, rfl, rfl, rfl, kwargsOf_nodup hps ho, hmem⟩
  have ha := hno (· == .anchor) (by intro n h; simp only [beq_iff_eq] at h; simp [Reserved, h])
  have hb := hno (fun n => n == .env || n == .responseType) (by
    intro n h; simp only [Bool.or_eq_true, beq_iff_eq] at h; rcases h with h | h <;> simp [Reserved, h])
  have hc := hno (fun n => n == .messages || n == .responseFormat || n == .tools || n == .model) (by
    intro n h; simp only [Bool.or_eq_true, beq_iff_eq] at h; rcases h with ((h | h) | h) | h <;> simp [Reserved, h])
  unfold request provider
  rw [List.any_cons, ha]
  simp only [callAssistant, List.any_cons, hb]
  simp [List.lookup, hf, complete, hc]
  rfl

/-- Options with the name of one of the library's own arguments are accepted by the provider; then each call of a template raises. -/
theorem C120_reserved_fails (ps : List Name) (m ms rf ts an : V) (opts : List (Name × V)) (ho : Options opts) (n : Name) (v : V)
    (h : (n, v) ∈ opts) (hr : Reserved n) : request ms rf ts an (provider (.model :: ps) m opts) = .error .type := by
  have hk : (n, v) ∈ kwargsOf (.model :: ps) opts := (mem_kwargsOf ho).2 h
  have hyes : ∀ (q : Name → Bool), q n = true → (provider (.model :: ps) m opts).any (fun x => q x.1) = true := fun q hq =>
    any_iff.2 ⟨n, v, List.mem_cons_of_mem _ hk, hq⟩
  unfold request
  split
  · rfl
  · rename_i hna
    have hanc : n ≠ .anchor := fun e => hna (hyes (· == .anchor) (by simp [e]))
    unfold callAssistant
    split
    · rfl
    · rename_i hnb
      have henv : n ≠ .env ∧ n ≠ .responseType := by
        constructor
        · intro e
          exact hnb (by rw [List.any_cons, hyes (fun n => n == .env || n == .responseType) (by simp [e])]; simp)
        · intro e
          exact hnb (by rw [List.any_cons, hyes (fun n => n == .env || n == .responseType) (by simp [e])]; simp)
      split
      · rfl
      · unfold complete
        rw [if_pos]
        refine any_iff (q := fun n => n == .messages || n == .responseFormat || n == .tools || n == .model) |>.2 ⟨n, v, ?_, ?_⟩
        · rw [List.mem_filter]
          refine ⟨List.mem_cons_of_mem _ (List.mem_cons_of_mem _ hk), ?_⟩
          have : n ≠ .model := fun e => ho.model v (e ▸ h)
          simp [this, hanc]
        · rcases hr with e | e | e | e | e | e
          · exact absurd e henv.1
          · exact absurd e henv.2
          · exact absurd e hanc
          all_goals simp [e]

/-! ## Examples -/

/-- The first parameters of `litellm.completion`. -/
def exParams : List Name := [.model, .messages, .other 0, .other 1, .responseFormat, .tools]

example : provider exParams 1 [(.other 5, 7), (.other 1, 8)] = [(.model, 1), (.other 1, 8), (.other 5, 7)] := by decide +kernel
example : kwargsOf [.other 0, .other 1, .other 2] [(.other 2, 5), (.other 0, 6)] = [(.other 2, 5)] := by decide +kernel
example : Options [(Name.other 5, 7), (Name.other 1, 8)] := ⟨by decide +kernel, fun v => by simp⟩
example : (Name.model :: exParams.tail).Nodup := by decide +kernel

end Verif.Llm.Provider
