/-!
# C117: methods of distributions with unknown parameters

Model of `_DistributionTerm._is_eager` and of the guards of the methods (`handlers/numpyro.py` 227-235, 250-365), of `is_eager_array`
(`handlers/jax/_handlers.py` 29-39), and of `evaluate` for what they give (`ops/semantics.py` 169-173).

* Values are arbitrary; `isArray` says which are arrays, the others are numbers. Constructors and methods of the library, and the other
  operations, are arbitrary functions.
* An expression is a value, a variable, an operation applied to expressions, a distribution with its parameters, an array with indices, or a
  method called on a distribution with an argument. Indices are names of dimensions, numbers, or other terms.
* `NotHandled` gives a term. A method without argument (`mean`) is one with any array as its argument.
* How names of dimensions are put in place is C75; here the array with its names is one value that the library gets, and names of dimensions
  are not given values. Lists and slices with terms inside, which count as known (232, and 36 of `is_eager_array`), are left out.
-/

namespace Verif.Indexed.Eager

variable {V : Type}

/-- Expressions. -/
inductive Ex (V : Type) where
  | val (v : V)
  | var (x : Nat)
  | app (f : Nat) (as : List (Ex V))
  /-- `x[i(), 2, ...]` for an array: the names and numbers -/
  | named (a : V) (ns : List Nat)
  /-- `x[k]` for an array and a term `k` with arguments -/
  | getitem (a : V) (k : Ex V)
  | dist (c : Nat) (as : List (Ex V))
  | method (m : Nat) (d : Ex V) (a : Ex V)

/-- What the library gets for a parameter: a value, an array with names, or a distribution. -/
inductive Known (V : Type) where
  | val (v : V)
  | named (a : V) (ns : List Nat)
  | dist (c : Nat) (as : List (Known V))

/-- The library. -/
structure Lib (V : Type) where
  isArray : V → Bool
  fn : Nat → List V → V
  getitem : V → V → V
  call : Nat → Known V → Known V → V

mutual

/-- `_arg_is_eager` (229-232) and `_is_eager` (227-235): the parameter as the library gets it, or `none` if it is not eager. -/
def eager (L : Lib V) : Ex V → Option (Known V)
  | .val v => some (.val v)
  | .named a ns => if L.isArray a then some (.named a ns) else none
  | .dist c as =>
    match eagers L as with
    | some ks => some (.dist c ks)
    | none => none
  | _ => none

def eagers (L : Lib V) : List (Ex V) → Option (List (Known V))
  | [] => some []
  | a :: as =>
    match eager L a, eagers L as with
    | some k, some ks => some (k :: ks)
    | _, _ => none

end

/-- `is_eager_array` (29-39): an array, or an array with names. -/
def eagerArray (L : Lib V) : Ex V → Option (Known V)
  | .val v => if L.isArray v then some (.val v) else none
  | .named a ns => if L.isArray a then some (.named a ns) else none
  | _ => none

/-- A distribution that is eager. -/
def eagerDist (L : Lib V) : Ex V → Option (Known V)
  | .dist c as => eager L (.dist c as)
  | _ => none

/-- A method: `if not (self._is_eager and is_eager_array(value)): raise NotHandled` (293-295 and the others). -/
def call (L : Lib V) (m : Nat) (d a : Ex V) : Ex V :=
  match eagerDist L d, eagerArray L a with
  | some k, some b => .val (L.call m k b)
  | _, _ => .method m d a

/-- The values of a list of values. -/
def vals : List (Ex V) → Option (List V)
  | [] => some []
  | .val v :: as => (vals as).map (v :: ·)
  | _ => none

/-- Another operation: computed if its arguments are values. -/
def apply (L : Lib V) (f : Nat) (as : List (Ex V)) : Ex V :=
  match vals as with
  | some vs => .val (L.fn f vs)
  | none => .app f as

/-- Indexing. -/
def index (L : Lib V) (a : V) : Ex V → Ex V
  | .val v => .val (L.getitem a v)
  | k => .getitem a k

mutual

/-- `evaluate` in an interpretation that gives values for variables. -/
def evaluate (L : Lib V) (σ : Nat → Option V) : Ex V → Ex V
  | .val v => .val v
  | .var x =>
    match σ x with
    | some v => .val v
    | none => .var x
  | .app f as => apply L f (evaluates L σ as)
  | .named a ns => .named a ns
  | .getitem a k => index L a (evaluate L σ k)
  | .dist c as => .dist c (evaluates L σ as)
  | .method m d a => call L m (evaluate L σ d) (evaluate L σ a)

def evaluates (L : Lib V) (σ : Nat → Option V) : List (Ex V) → List (Ex V)
  | [] => []
  | a :: as => evaluate L σ a :: evaluates L σ as

end

/-! ## Specification -/

mutual

/-- All parts of a parameter are known. -/
inductive Data (L : Lib V) : Ex V → Prop where
  | val (v : V) : Data L (.val v)
  | named (a : V) (ns : List Nat) : L.isArray a = true → Data L (.named a ns)
  | dist (c : Nat) (as : List (Ex V)) : DataAll L as → Data L (.dist c as)

inductive DataAll (L : Lib V) : List (Ex V) → Prop where
  | nil : DataAll L []
  | cons (a : Ex V) (as : List (Ex V)) : Data L a → DataAll L as → DataAll L (a :: as)

end

/-- An array, with or without names. -/
def Array' (L : Lib V) (e : Ex V) : Prop := ∃ a, L.isArray a = true ∧ (e = .val a ∨ ∃ ns, e = .named a ns)

/-- The variables in an expression. -/
inductive Occurs (x : Nat) : Ex V → Prop where
  | var : Occurs x (.var x)
  | app (f : Nat) (as : List (Ex V)) (a : Ex V) : a ∈ as → Occurs x a → Occurs x (.app f as)
  | getitem (a : V) (k : Ex V) : Occurs x k → Occurs x (.getitem a k)
  | dist (c : Nat) (as : List (Ex V)) (a : Ex V) : a ∈ as → Occurs x a → Occurs x (.dist c as)
  | receiver (m : Nat) (d a : Ex V) : Occurs x d → Occurs x (.method m d a)
  | argument (m : Nat) (d a : Ex V) : Occurs x a → Occurs x (.method m d a)

/-- A parameter made of values, variables, operations, indexed arrays and distributions; operations and indices have no distributions and
no named arrays inside. -/
inductive Simple : Ex V → Prop where
  | val (v : V) : Simple (.val v)
  | var (x : Nat) : Simple (.var x)
  | app (f : Nat) (as : List (Ex V)) : (∀ a ∈ as, Simple a) → Simple (.app f as)
  | getitem (a : V) (k : Ex V) : Simple k → Simple (.getitem a k)

inductive Param (L : Lib V) : Ex V → Prop where
  | simple (e : Ex V) : Simple e → Param L e
  | named (a : V) (ns : List Nat) : L.isArray a = true → Param L (.named a ns)
  | dist (c : Nat) (as : List (Ex V)) : (∀ a ∈ as, Param L a) → Param L (.dist c as)

/-- What the library gets for an array, with or without names. -/
def ArrayOf (L : Lib V) : Known V → Prop
  | .val v => L.isArray v = true
  | .named a _ => L.isArray a = true
  | .dist _ _ => False

mutual

/-- The value of an expression, for the values of variables: arguments first, then the library. -/
inductive Means (L : Lib V) (σ : Nat → Option V) : Ex V → V → Prop where
  | val (v : V) : Means L σ (.val v) v
  | var (x : Nat) (v : V) : σ x = some v → Means L σ (.var x) v
  | app (f : Nat) (as : List (Ex V)) (vs : List V) : MeansAll L σ as vs → Means L σ (.app f as) (L.fn f vs)
  | getitem (a : V) (k : Ex V) (v : V) : Means L σ k v → Means L σ (.getitem a k) (L.getitem a v)
  | method (m c : Nat) (as : List (Ex V)) (ks : List (Known V)) (a : Ex V) (b : Known V) :
      KnownAll L σ as ks → KnownAs L σ a b → ArrayOf L b → Means L σ (.method m (.dist c as) a) (L.call m (.dist c ks) b)

inductive MeansAll (L : Lib V) (σ : Nat → Option V) : List (Ex V) → List V → Prop where
  | nil : MeansAll L σ [] []
  | cons (a : Ex V) (v : V) (as : List (Ex V)) (vs : List V) :
      Means L σ a v → MeansAll L σ as vs → MeansAll L σ (a :: as) (v :: vs)

/-- The same for parameters. -/
inductive KnownAs (L : Lib V) (σ : Nat → Option V) : Ex V → Known V → Prop where
  | val (e : Ex V) (v : V) : Means L σ e v → KnownAs L σ e (.val v)
  | named (a : V) (ns : List Nat) : L.isArray a = true → KnownAs L σ (.named a ns) (.named a ns)
  | dist (c : Nat) (as : List (Ex V)) (ks : List (Known V)) : KnownAll L σ as ks → KnownAs L σ (.dist c as) (.dist c ks)

inductive KnownAll (L : Lib V) (σ : Nat → Option V) : List (Ex V) → List (Known V) → Prop where
  | nil : KnownAll L σ [] []
  | cons (a : Ex V) (k : Known V) (as : List (Ex V)) (ks : List (Known V)) :
      KnownAs L σ a k → KnownAll L σ as ks → KnownAll L σ (a :: as) (k :: ks)

end

/-- Methods are called on distributions. -/
inductive WellFormed : Ex V → Prop where
  | val (v : V) : WellFormed (.val v)
  | var (x : Nat) : WellFormed (.var x)
  | app (f : Nat) (as : List (Ex V)) : (∀ a ∈ as, WellFormed a) → WellFormed (.app f as)
  | named (a : V) (ns : List Nat) : WellFormed (.named a ns)
  | getitem (a : V) (k : Ex V) : WellFormed k → WellFormed (.getitem a k)
  | dist (c : Nat) (as : List (Ex V)) : (∀ a ∈ as, WellFormed a) → WellFormed (.dist c as)
  | method (m c : Nat) (as : List (Ex V)) (a : Ex V) : (∀ p ∈ as, WellFormed p) → WellFormed a → WellFormed (.method m (.dist c as) a)

/-! ## Proofs -/

mutual

theorem eager_data (L : Lib V) : ∀ e : Ex V, (∃ k, eager L e = some k) ↔ Data L e
  | .val v => ⟨fun _ => .val v, fun _ => ⟨.val v, by rw [eager]⟩⟩
  | .var x => ⟨fun ⟨k, h⟩ => by simp [eager] at h, fun h => by cases h⟩
  | .app f as => ⟨fun ⟨k, h⟩ => by simp [eager] at h, fun h => by cases h⟩
  | .named a ns => by
    rw [eager]
    constructor
    · rintro ⟨k, h⟩
      split at h
      · rename_i ha; exact .named a ns ha
      · cases h
    · intro h
      cases h with
      | named _ _ ha => exact ⟨_, by rw [if_pos ha]⟩
  | .getitem a k => ⟨fun ⟨k, h⟩ => by simp [eager] at h, fun h => by cases h⟩
  | .dist c as => by
    rw [eager]
    constructor
    · rintro ⟨k, h⟩
      split at h
      · rename_i ks hk; exact .dist c as ((eagers_data L as).1 ⟨ks, hk⟩)
      · cases h
    · intro h
      cases h with
      | dist _ _ ha =>
        obtain ⟨ks, hk⟩ := (eagers_data L as).2 ha
        exact ⟨.dist c ks, by rw [hk]⟩
  | .method m d a => ⟨fun ⟨k, h⟩ => by simp [eager] at h, fun h => by cases h⟩

theorem eagers_data (L : Lib V) : ∀ as : List (Ex V), (∃ ks, eagers L as = some ks) ↔ DataAll L as
  | [] => ⟨fun _ => .nil, fun _ => ⟨[], by rw [eagers]⟩⟩
  | a :: as => by
    rw [eagers]
    constructor
    · rintro ⟨ks, h⟩
      split at h
      · rename_i k ks' h1 h2
        exact .cons a as ((eager_data L a).1 ⟨k, h1⟩) ((eagers_data L as).1 ⟨ks', h2⟩)
      · cases h
    · intro h
      cases h with
      | cons _ _ h1 h2 =>
        obtain ⟨k, hk⟩ := (eager_data L a).2 h1
        obtain ⟨ks, hks⟩ := (eagers_data L as).2 h2
        exact ⟨k :: ks, by rw [hk, hks]⟩

end

theorem eagerArray_iff (L : Lib V) (e : Ex V) : (∃ k, eagerArray L e = some k) ↔ Array' L e := by
  unfold Array'
  constructor
  · rintro ⟨k, h⟩
    unfold eagerArray at h
    split at h
    · rename_i v
      split at h
      · rename_i hv; exact ⟨v, hv, Or.inl rfl⟩
      · cases h
    · rename_i a ns
      split at h
      · rename_i ha; exact ⟨a, ha, Or.inr ⟨ns, rfl⟩⟩
      · cases h
    · cases h
  · rintro ⟨a, ha, rfl | ⟨ns, rfl⟩⟩
    · exact ⟨_, by rw [eagerArray, if_pos ha]⟩
    · exact ⟨_, by rw [eagerArray, if_pos ha]⟩

theorem eagerDist_iff (L : Lib V) (c : Nat) (as : List (Ex V)) : (∃ k, eagerDist L (.dist c as) = some k) ↔ DataAll L as := by
  rw [eagerDist, eager_data]
  exact ⟨fun h => by cases h; assumption, fun h => .dist c as h⟩

theorem call_some {L : Lib V} {m : Nat} {d a : Ex V} {k b : Known V} (hd : eagerDist L d = some k) (ha : eagerArray L a = some b) :
    call L m d a = .val (L.call m k b) := by
  rw [call, hd, ha]

theorem call_none {L : Lib V} {m : Nat} {d a : Ex V} (h : eagerDist L d = none ∨ eagerArray L a = none) :
    call L m d a = .method m d a := by
  rw [call]
  split
  · rename_i h1 h2
    rw [h1, h2] at h
    rcases h with h | h <;> cases h
  · rfl

/-- A method is computed exactly if all parameters, those of distributions inside included, are data and the argument is an array;
otherwise it is the term of the call. -/
theorem C117_computed (L : Lib V) (m c : Nat) (as : List (Ex V)) (a : Ex V) :
    ((∃ v, call L m (.dist c as) a = .val v) ↔ DataAll L as ∧ Array' L a) ∧
    (¬ (DataAll L as ∧ Array' L a) → call L m (.dist c as) a = .method m (.dist c as) a) := by
  rw [← eagerDist_iff L c as, ← eagerArray_iff L a]
  cases hd : eagerDist L (.dist c as) with
  | none =>
    rw [call_none (Or.inl hd)]
    simp
  | some k =>
    cases ha : eagerArray L a with
    | none =>
      rw [call_none (Or.inr ha)]
      simp
    | some b =>
      rw [call_some hd ha]
      simp

mutual

theorem data_evaluate (L : Lib V) (σ : Nat → Option V) : ∀ (e : Ex V), Data L e → evaluate L σ e = e
  | .val _, _ => by rw [evaluate]
  | .named _ _, _ => by rw [evaluate]
  | .dist c as, h => by
    rw [evaluate, dataAll_evaluate L σ as (by cases h; assumption)]
  | .var _, h => by cases h
  | .app _ _, h => by cases h
  | .getitem _ _, h => by cases h
  | .method _ _ _, h => by cases h

theorem dataAll_evaluate (L : Lib V) (σ : Nat → Option V) : ∀ (as : List (Ex V)), DataAll L as → evaluates L σ as = as
  | [], _ => by rw [evaluates]
  | a :: as, h => by
    rw [evaluates, data_evaluate L σ a (by cases h; assumption), dataAll_evaluate L σ as (by cases h; assumption)]

end

theorem array_evaluate {L : Lib V} (σ : Nat → Option V) {a : Ex V} (h : Array' L a) : evaluate L σ a = a := by
  obtain ⟨v, -, rfl | ⟨ns, rfl⟩⟩ := h <;> rw [evaluate]

/-- It does not matter when the variables become known: evaluating what a method gave is the method of the evaluated distribution and
argument. -/
theorem C117_commutes (L : Lib V) (σ : Nat → Option V) (m c : Nat) (as : List (Ex V)) (a : Ex V) :
    evaluate L σ (call L m (.dist c as) a) = call L m (evaluate L σ (.dist c as)) (evaluate L σ a) := by
  by_cases h : DataAll L as ∧ Array' L a
  · rw [data_evaluate L σ _ (.dist c as h.1), array_evaluate σ h.2]
    obtain ⟨v, hv⟩ := (C117_computed L m c as a).1.2 h
    rw [hv, evaluate]
  · rw [(C117_computed L m c as a).2 h, evaluate.eq_7]

theorem evaluates_map (L : Lib V) (σ : Nat → Option V) (as : List (Ex V)) : evaluates L σ as = as.map (evaluate L σ) := by
  induction as with
  | nil => rw [evaluates]; rfl
  | cons a as ih => rw [evaluates, ih]; rfl

theorem vals_of {as : List (Ex V)} (h : ∀ a ∈ as, ∃ v, a = .val v) : ∃ vs, vals as = some vs := by
  induction as with
  | nil => exact ⟨[], rfl⟩
  | cons a as ih =>
    obtain ⟨v, rfl⟩ := h _ (List.mem_cons_self ..)
    obtain ⟨vs, hv⟩ := ih fun a ha => h a (List.mem_cons_of_mem _ ha)
    exact ⟨v :: vs, by rw [vals, hv]; rfl⟩

/-- Without unknown variables, values come out. -/
theorem simple_evaluate (L : Lib V) (σ : Nat → Option V) {e : Ex V} (h : Simple e) (hσ : ∀ x, Occurs x e → ∃ v, σ x = some v) :
    ∃ v, evaluate L σ e = .val v := by
  induction h with
  | val v => exact ⟨v, by rw [evaluate]⟩
  | var x =>
    obtain ⟨v, hv⟩ := hσ x .var
    exact ⟨v, by rw [evaluate, hv]⟩
  | app f as _ ih =>
    rw [evaluate, evaluates_map, apply]
    obtain ⟨vs, hv⟩ := vals_of (as := as.map (evaluate L σ)) fun b hb => by
      obtain ⟨a, ha, rfl⟩ := List.mem_map.1 hb
      exact ih a ha fun x hx => hσ x (.app f as a ha hx)
    exact ⟨L.fn f vs, by rw [hv]⟩
  | getitem a k _ ih =>
    obtain ⟨v, hv⟩ := ih fun x hx => hσ x (.getitem a k hx)
    exact ⟨L.getitem a v, by rw [evaluate, hv, index]⟩

theorem dataAll_of {L : Lib V} {as : List (Ex V)} (h : ∀ a ∈ as, Data L a) : DataAll L as := by
  induction as with
  | nil => exact .nil
  | cons a as ih => exact .cons a as (h a (by simp)) (ih fun b hb => h b (List.mem_cons_of_mem _ hb))

theorem param_evaluate (L : Lib V) (σ : Nat → Option V) {e : Ex V} (h : Param L e) (hσ : ∀ x, Occurs x e → ∃ v, σ x = some v) :
    Data L (evaluate L σ e) := by
  induction h with
  | simple e he =>
    obtain ⟨v, hv⟩ := simple_evaluate L σ he hσ
    rw [hv]
    exact .val v
  | named a ns ha => rw [evaluate]; exact .named a ns ha
  | dist c as _ ih =>
    rw [evaluate, evaluates_map]
    refine .dist c _ (dataAll_of fun b hb => ?_)
    obtain ⟨a, ha, rfl⟩ := List.mem_map.1 hb
    exact ih a ha fun x hx => hσ x (.dist c as a ha hx)

/-- Once all variables of the parameters are known, and the argument is an array, the method is computed. -/
theorem C117_closed (L : Lib V) (σ : Nat → Option V) (m c : Nat) (as : List (Ex V)) (a : Ex V) (hp : ∀ p ∈ as, Param L p)
    (hσ : ∀ p ∈ as, ∀ x, Occurs x p → ∃ v, σ x = some v) (ha : Array' L (evaluate L σ a)) :
    ∃ v, evaluate L σ (call L m (.dist c as) a) = .val v := by
  rw [C117_commutes, evaluate]
  refine (C117_computed L m c _ _).1.2 ⟨?_, ha⟩
  rw [evaluates_map]
  refine dataAll_of fun b hb => ?_
  obtain ⟨p, hpm, rfl⟩ := List.mem_map.1 hb
  exact param_evaluate L σ (hp p hpm) (hσ p hpm)

theorem eagerArray_eager {L : Lib V} {e : Ex V} {b : Known V} : eagerArray L e = some b ↔ eager L e = some b ∧ ArrayOf L b := by
  unfold eagerArray
  split
  · rw [eager]
    split
    · rename_i v hv
      exact ⟨fun h => by cases h; exact ⟨rfl, hv⟩, fun h => h.1⟩
    · rename_i v hv
      constructor
      · intro h; cases h
      · rintro ⟨h, hb⟩
        cases h
        exact absurd hb hv
  · rw [eager]
    split
    · rename_i v ns hv
      exact ⟨fun h => by cases h; exact ⟨rfl, hv⟩, fun h => h.1⟩
    · simp
  · rename_i h1 h2
    constructor
    · intro h; cases h
    · rintro ⟨h, hb⟩
      cases e with
      | val v => exact absurd rfl (h1 v)
      | named a ns => exact absurd rfl (h2 a ns)
      | dist c as =>
        rw [eager] at h
        split at h
        · cases h; exact hb.elim
        · cases h
      | var x => simp [eager] at h
      | app f as => simp [eager] at h
      | getitem a k => simp [eager] at h
      | method m d a => simp [eager] at h

theorem eager_dist {L : Lib V} {c : Nat} {as : List (Ex V)} {k : Known V} :
    eager L (.dist c as) = some k ↔ ∃ ks, eagers L as = some ks ∧ k = .dist c ks := by
  rw [eager]
  split
  · rename_i ks hk
    rw [hk]
    constructor
    · intro h; cases h; exact ⟨ks, rfl, rfl⟩
    · rintro ⟨ks', h, rfl⟩; cases h; rfl
  · rename_i hk
    rw [hk]
    simp

theorem eagers_cons {L : Lib V} {a : Ex V} {as : List (Ex V)} {ks : List (Known V)} :
    eagers L (a :: as) = some ks ↔ ∃ k ks', eager L a = some k ∧ eagers L as = some ks' ∧ ks = k :: ks' := by
  rw [eagers]
  split
  · rename_i k ks' h1 h2
    rw [h1, h2]
    constructor
    · intro h; cases h; exact ⟨k, ks', rfl, rfl, rfl⟩
    · rintro ⟨_, _, h, h', rfl⟩; cases h; cases h'; rfl
  · rename_i h
    constructor
    · intro h'; cases h'
    · rintro ⟨k, ks', h1, h2, -⟩
      exact (h k ks' h1 h2).elim

theorem vals_cons {a : Ex V} {as : List (Ex V)} {vs : List V} :
    vals (a :: as) = some vs ↔ ∃ v vs', a = .val v ∧ vals as = some vs' ∧ vs = v :: vs' := by
  cases a <;> simp [vals]
  constructor
  · rintro ⟨w, h, rfl⟩; exact ⟨w, h, rfl⟩
  · rintro ⟨w, h, rfl⟩; exact ⟨w, h, rfl⟩

mutual

theorem means_evaluate (L : Lib V) (σ : Nat → Option V) : ∀ {e : Ex V} {v : V}, Means L σ e v → evaluate L σ e = .val v
  | _, _, .val v => by rw [evaluate]
  | _, _, .var x v h => by rw [evaluate, h]
  | _, _, .app f as vs h => by rw [evaluate, apply, meansAll_evaluate L σ h]
  | _, _, .getitem a k v h => by rw [evaluate, means_evaluate L σ h, index]
  | _, _, .method m c as ks a b h1 h2 h3 => by
    rw [evaluate.eq_7, evaluate.eq_6]
    exact call_some (eager_dist.2 ⟨ks, knownAll_evaluate L σ h1, rfl⟩) (eagerArray_eager.2 ⟨known_evaluate L σ h2, h3⟩)

theorem meansAll_evaluate (L : Lib V) (σ : Nat → Option V) : ∀ {as : List (Ex V)} {vs : List V},
    MeansAll L σ as vs → vals (evaluates L σ as) = some vs
  | _, _, .nil => by rw [evaluates, vals]
  | _, _, .cons a v as vs h1 h2 => by
    rw [evaluates]
    exact vals_cons.2 ⟨v, vs, means_evaluate L σ h1, meansAll_evaluate L σ h2, rfl⟩

theorem known_evaluate (L : Lib V) (σ : Nat → Option V) : ∀ {e : Ex V} {k : Known V},
    KnownAs L σ e k → eager L (evaluate L σ e) = some k
  | _, _, .val e v h => by rw [means_evaluate L σ h, eager]
  | _, _, .named a ns h => by rw [evaluate, eager, if_pos h]
  | _, _, .dist c as ks h => by
    rw [evaluate]
    exact eager_dist.2 ⟨ks, knownAll_evaluate L σ h, rfl⟩

theorem knownAll_evaluate (L : Lib V) (σ : Nat → Option V) : ∀ {as : List (Ex V)} {ks : List (Known V)},
    KnownAll L σ as ks → eagers L (evaluates L σ as) = some ks
  | _, _, .nil => by rw [evaluates, eagers]
  | _, _, .cons a k as ks h1 h2 => by
    rw [evaluates]
    exact eagers_cons.2 ⟨k, ks, known_evaluate L σ h1, knownAll_evaluate L σ h2, rfl⟩

end

theorem meansAll_of {L : Lib V} {σ : Nat → Option V} {as : List (Ex V)}
    (ih : ∀ a ∈ as, ∀ v, evaluate L σ a = .val v → Means L σ a v) :
    ∀ {vs : List V}, vals (evaluates L σ as) = some vs → MeansAll L σ as vs := by
  induction as with
  | nil => intro vs h; rw [evaluates, vals] at h; cases h; exact .nil
  | cons a as ihs =>
    intro vs h
    rw [evaluates] at h
    obtain ⟨v, vs', h1, h2, rfl⟩ := vals_cons.1 h
    exact .cons a v as vs' (ih a (by simp) v h1) (ihs (fun b hb => ih b (List.mem_cons_of_mem _ hb)) h2)

theorem knownAll_of {L : Lib V} {σ : Nat → Option V} {as : List (Ex V)}
    (ih : ∀ a ∈ as, ∀ k, eager L (evaluate L σ a) = some k → KnownAs L σ a k) :
    ∀ {ks : List (Known V)}, eagers L (evaluates L σ as) = some ks → KnownAll L σ as ks := by
  induction as with
  | nil => intro vs h; rw [evaluates, eagers] at h; cases h; exact .nil
  | cons a as ihs =>
    intro ks h
    rw [evaluates] at h
    obtain ⟨k, ks', h1, h2, rfl⟩ := eagers_cons.1 h
    exact .cons a k as ks' (ih a (by simp) k h1) (ihs (fun b hb => ih b (List.mem_cons_of_mem _ hb)) h2)

/-- If evaluation gives a value or something that is not known, known parameters are values. -/
theorem known_of {L : Lib V} {σ : Nat → Option V} {e : Ex V} (h : ∀ v, evaluate L σ e = .val v → Means L σ e v)
    (hs : (∃ v, evaluate L σ e = .val v) ∨ eager L (evaluate L σ e) = none) :
    ∀ k, eager L (evaluate L σ e) = some k → KnownAs L σ e k := by
  intro k hk
  rcases hs with ⟨v, hv⟩ | hn
  · rw [hv, eager] at hk
    cases hk
    exact .val e v (h v hv)
  · rw [hn] at hk; cases hk

theorem index_cases (L : Lib V) (a : V) (k : Ex V) : (∃ v, k = .val v ∧ index L a k = .val (L.getitem a v)) ∨ index L a k = .getitem a k := by
  cases k <;> simp [index]

theorem evaluate_means (L : Lib V) (σ : Nat → Option V) {e : Ex V} (hw : WellFormed e) :
    (∀ v, evaluate L σ e = .val v → Means L σ e v) ∧ ∀ k, eager L (evaluate L σ e) = some k → KnownAs L σ e k := by
  induction hw with
  | val v =>
    have h : ∀ w, evaluate L σ (.val v) = .val w → Means L σ (.val v) w := fun w h => by
      rw [evaluate] at h; cases h; exact .val v
    exact ⟨h, known_of h (Or.inl ⟨v, by rw [evaluate]⟩)⟩
  | var x =>
    cases hx : σ x with
    | none =>
      have he : evaluate L σ (.var x) = .var x := by rw [evaluate, hx]
      have h : ∀ w, evaluate L σ (.var x) = .val w → Means L σ (.var x) w := fun w h => by rw [he] at h; cases h
      exact ⟨h, known_of h (Or.inr (by rw [he]; simp [eager]))⟩
    | some v =>
      have he : evaluate L σ (.var x) = .val v := by rw [evaluate, hx]
      have h : ∀ w, evaluate L σ (.var x) = .val w → Means L σ (.var x) w := fun w h => by
        rw [he] at h; cases h; exact .var x v hx
      exact ⟨h, known_of h (Or.inl ⟨v, he⟩)⟩
  | app f as _ ih =>
    cases hv : vals (evaluates L σ as) with
    | none =>
      have he : evaluate L σ (.app f as) = .app f (evaluates L σ as) := by rw [evaluate, apply, hv]
      have h : ∀ w, evaluate L σ (.app f as) = .val w → Means L σ (.app f as) w := fun w h => by rw [he] at h; cases h
      exact ⟨h, known_of h (Or.inr (by rw [he]; simp [eager]))⟩
    | some vs =>
      have he : evaluate L σ (.app f as) = .val (L.fn f vs) := by rw [evaluate, apply, hv]
      have h : ∀ w, evaluate L σ (.app f as) = .val w → Means L σ (.app f as) w := fun w h => by
        rw [he] at h; cases h
        exact .app f as vs (meansAll_of (fun a ha => (ih a ha).1) hv)
      exact ⟨h, known_of h (Or.inl ⟨_, he⟩)⟩
  | named a ns =>
    refine ⟨fun w h => ?_, fun k h => ?_⟩
    · rw [evaluate] at h; cases h
    · rw [evaluate, eager] at h
      split at h
      · rename_i ha; cases h; exact .named a ns ha
      · cases h
  | getitem a k _ ih =>
    have he : evaluate L σ (.getitem a k) = index L a (evaluate L σ k) := by rw [evaluate]
    rcases index_cases L a (evaluate L σ k) with ⟨v, hk, hi⟩ | hi
    · have h : ∀ w, evaluate L σ (.getitem a k) = .val w → Means L σ (.getitem a k) w := fun w h => by
        rw [he, hi] at h; cases h
        exact .getitem a k v (ih.1 v hk)
      exact ⟨h, known_of h (Or.inl ⟨_, he.trans hi⟩)⟩
    · have h : ∀ w, evaluate L σ (.getitem a k) = .val w → Means L σ (.getitem a k) w := fun w h => by
        rw [he, hi] at h; cases h
      exact ⟨h, known_of h (Or.inr (by rw [he, hi]; simp [eager]))⟩
  | dist c as _ ih =>
    refine ⟨fun w h => ?_, fun k h => ?_⟩
    · rw [evaluate] at h; cases h
    · rw [evaluate] at h
      obtain ⟨ks, hk, rfl⟩ := eager_dist.1 h
      exact .dist c as ks (knownAll_of (fun a ha => (ih a ha).2) hk)
  | method m c as a _ _ ihs ih =>
    have he : evaluate L σ (.method m (.dist c as) a) = call L m (.dist c (evaluates L σ as)) (evaluate L σ a) := by
      rw [evaluate.eq_7, evaluate.eq_6]
    cases hd : eagerDist L (.dist c (evaluates L σ as)) with
    | none =>
      have hc := call_none (m := m) (a := evaluate L σ a) (Or.inl hd)
      have h : ∀ w, evaluate L σ (.method m (.dist c as) a) = .val w → Means L σ (.method m (.dist c as) a) w := fun w h => by
        rw [he, hc] at h; cases h
      exact ⟨h, known_of h (Or.inr (by rw [he, hc]; simp [eager]))⟩
    | some k =>
      cases ha : eagerArray L (evaluate L σ a) with
      | none =>
        have hc := call_none (m := m) (d := .dist c (evaluates L σ as)) (Or.inr ha)
        have h : ∀ w, evaluate L σ (.method m (.dist c as) a) = .val w → Means L σ (.method m (.dist c as) a) w := fun w h => by
          rw [he, hc] at h; cases h
        exact ⟨h, known_of h (Or.inr (by rw [he, hc]; simp [eager]))⟩
      | some b =>
        have hc := call_some (m := m) hd ha
        obtain ⟨ks, hk, rfl⟩ := eager_dist.1 hd
        obtain ⟨h1, h2⟩ := eagerArray_eager.1 ha
        have h : ∀ w, evaluate L σ (.method m (.dist c as) a) = .val w → Means L σ (.method m (.dist c as) a) w := fun w h => by
          rw [he, hc] at h; cases h
          exact .method m c as ks a b (knownAll_of (fun p hp => (ihs p hp).2) hk) (ih.2 b h1) h2
        exact ⟨h, known_of h (Or.inl ⟨_, he.trans hc⟩)⟩

/-- Evaluation gives a value exactly if the expression has one, and it is this value: each method gets the values of the parameters, in
order, and the value of its argument. -/
theorem C117_value (L : Lib V) (σ : Nat → Option V) (e : Ex V) (hw : WellFormed e) (v : V) :
    evaluate L σ e = .val v ↔ Means L σ e v :=
  ⟨(evaluate_means L σ hw).1 v, means_evaluate L σ⟩

theorem call_evaluate (L : Lib V) (τ : Nat → Option V) (m : Nat) (d a : Ex V) :
    evaluate L τ (call L m d a) = call L m (evaluate L τ d) (evaluate L τ a) := by
  cases d with
  | dist c as => exact C117_commutes L τ m c as a
  | _ => rw [call_none (Or.inl (by simp [eagerDist])), evaluate.eq_7]

theorem vals_evaluates (L : Lib V) (τ : Nat → Option V) : ∀ {as : List (Ex V)} {vs : List V}, vals as = some vs → evaluates L τ as = as
  | [], _, _ => by rw [evaluates]
  | a :: as, vs, h => by
    obtain ⟨v, vs', rfl, h2, rfl⟩ := vals_cons.1 h
    rw [evaluates, evaluate, vals_evaluates L τ h2]

theorem apply_evaluate (L : Lib V) (τ : Nat → Option V) (f : Nat) (as : List (Ex V)) :
    evaluate L τ (apply L f as) = apply L f (evaluates L τ as) := by
  cases h : vals as with
  | none =>
    have he : apply L f as = .app f as := by rw [apply, h]
    rw [he, evaluate]
  | some vs =>
    have he : apply L f as = .val (L.fn f vs) := by rw [apply, h]
    rw [vals_evaluates L τ h, he, evaluate]

theorem index_evaluate (L : Lib V) (τ : Nat → Option V) (a : V) (k : Ex V) :
    evaluate L τ (index L a k) = index L a (evaluate L τ k) := by
  rcases index_cases L a k with ⟨v, rfl, hi⟩ | hi
  · rw [hi, evaluate, evaluate, hi]
  · rw [hi, evaluate]

mutual

/-- Values may become known in stages: evaluating with some and then with others is evaluating once with both, the first ones first. -/
theorem C117_staged (L : Lib V) (σ τ : Nat → Option V) : ∀ e : Ex V,
    evaluate L τ (evaluate L σ e) = evaluate L (fun x => (σ x).or (τ x)) e
  | .val _ => by rw [evaluate, evaluate, evaluate]
  | .var x => by
    cases h : σ x with
    | none =>
      have h1 : evaluate L σ (.var x) = .var x := by rw [evaluate, h]
      rw [h1, evaluate, evaluate, h, Option.none_or]
    | some v =>
      have h1 : evaluate L σ (.var x) = .val v := by rw [evaluate, h]
      rw [h1, evaluate, evaluate, h, Option.some_or]
  | .app f as => by
    rw [evaluate.eq_3, apply_evaluate, evaluates_staged L σ τ as, evaluate.eq_3]
  | .named _ _ => by rw [evaluate, evaluate, evaluate]
  | .getitem a k => by
    rw [evaluate.eq_5, index_evaluate, C117_staged L σ τ k, evaluate.eq_5]
  | .dist c as => by
    rw [evaluate.eq_6, evaluate.eq_6, evaluates_staged L σ τ as, evaluate.eq_6]
  | .method m d a => by
    rw [evaluate.eq_7, call_evaluate, C117_staged L σ τ d, C117_staged L σ τ a, evaluate.eq_7]

theorem evaluates_staged (L : Lib V) (σ τ : Nat → Option V) : ∀ as : List (Ex V),
    evaluates L τ (evaluates L σ as) = evaluates L (fun x => (σ x).or (τ x)) as
  | [] => by rw [evaluates, evaluates, evaluates]
  | a :: as => by
    rw [evaluates.eq_2, evaluates.eq_2, C117_staged L σ τ a, evaluates_staged L σ τ as, evaluates.eq_2]

end

/-! ## Where it fails -/

/-- With a number as the argument, a method such as `log_prob` is never computed, although everything is known. -/
theorem C117_number_fails (L : Lib V) (σ : Nat → Option V) (m c : Nat) (as : List (Ex V)) (v : V) (hv : L.isArray v = false) :
    call L m (.dist c as) (.val v) = .method m (.dist c as) (.val v) ∧
    ∀ w, evaluate L σ (call L m (.dist c as) (.val v)) ≠ .val w := by
  have hno : ∀ bs : List (Ex V), ¬ (DataAll L bs ∧ Array' L (.val v)) := by
    rintro bs ⟨-, a, ha, h | ⟨ns, h⟩⟩
    · cases h; rw [hv] at ha; cases ha
    · cases h
  refine ⟨(C117_computed L m c as _).2 (hno as), fun w h => ?_⟩
  rw [C117_commutes, evaluate, evaluate, (C117_computed L m c _ _).2 (hno _)] at h
  cases h

/-! ## Examples -/

/-- Values are pairs of whether it is an array, and a number; a method adds its number, the parameters and the argument. -/
def total : Known (Bool × Nat) → Nat
  | .val v => v.2
  | .named a _ => a.2
  | .dist c _ => c

def exL : Lib (Bool × Nat) := ⟨Prod.fst, fun f vs => (true, f + (vs.map Prod.snd).sum), fun a k => (true, a.2 + k.2),
  fun m d a => (true, m + total d + total a)⟩

example : call exL 5 (.dist 1 [.val (false, 0), .val (true, 2)]) (.val (true, 7)) = .val (true, 13) := by
  simp [call, eagerDist, eager, eagers, eagerArray, exL, total]
example : call exL 5 (.dist 1 [.var 0, .val (true, 2)]) (.val (true, 7)) =
    .method 5 (.dist 1 [.var 0, .val (true, 2)]) (.val (true, 7)) := by
  simp [call, eagerDist, eager, eagers]
example : evaluate exL (fun _ => some (true, 3)) (.method 5 (.dist 1 [.app 4 [.var 0], .val (true, 2)]) (.var 1)) = .val (true, 9) := by
  simp [evaluate, evaluates, apply, vals, call, eagerDist, eager, eagers, eagerArray, exL, total]
example : evaluate exL (fun _ => some (true, 3)) (.getitem (true, 1) (.var 0)) = .val (true, 4) := by
  simp [evaluate, index, exL]
example : evaluate exL (fun _ => none) (.getitem (true, 1) (.var 0)) = .getitem (true, 1) (.var 0) := by
  simp [evaluate, index]
example : Param exL (.dist 1 [.app 4 [.var 0], .named (true, 2) [0]]) := by
  refine .dist _ _ fun a ha => ?_
  simp only [List.mem_cons, List.not_mem_nil, or_false] at ha
  rcases ha with rfl | rfl
  · exact .simple _ (.app _ _ fun b hb => by simp only [List.mem_singleton] at hb; subst hb; exact .var 0)
  · exact .named _ _ rfl
example : Means exL (fun _ => some (true, 3)) (.method 5 (.dist 1 [.var 0, .named (true, 2) [0]]) (.val (true, 7))) (true, 13) :=
  .method 5 1 _ [.val (true, 3), .named (true, 2) [0]] _ (.val (true, 7))
    (.cons _ _ _ _ (.val _ _ (.var 0 _ rfl)) (.cons _ _ _ _ (.named _ _ rfl) .nil)) (.val _ _ (.val _)) rfl
example : WellFormed (.method 5 (.dist 1 [.var 0]) (.val (true, 7))) :=
  .method _ _ _ _ (fun b hb => by simp only [List.mem_singleton] at hb; subst hb; exact .var 0) (.val _)

end Verif.Indexed.Eager
