import Mathlib.Algebra.BigOperators.Group.List.Basic

/-!
# C89: the probabilistic language `docs/source/minipyro.py`

Model of the handlers `Tracer`, `Replay`, `Plate`, `block`, `NativeSeed` and `NativeParam` (`minipyro.py` 138-376), of `elbo`
(437-469) and of what `SVI.step` captures (411-422). Programs are trees of calls of `sample` and `param` and of `with plate`
blocks; stacks of handlers have the innermost first. Distributions have a base and a batch shape, given with the last dimension
first; `expand` follows torch. Samples depend on the distribution and the state of the random generator. Dimensions of plates
are negative. `obs` is given by keyword. Gradients and optimizers are left out.
-/

namespace Verif.Examples.Minipyro

abbrev Name := String

variable {V B C : Type}

/-- `Distribution`, with `batch_shape` from the last dimension. -/
structure Dist (B : Type) where
  base : B
  rbatch : List Nat

/-- Sampling, and `transform_to(constraint)` with its inverse. -/
structure World (V B C : Type) where
  draw : Dist B → Nat → V
  toC : C → V → V
  inv : C → V → V

/-- `SampleMsg` and `ParamMsg` (55-66). -/
inductive Msg (V B : Type) where
  | sample (v : V) (d : Dist B) (obs : Option V)
  | param (v : V)

/-- `msg.val`. -/
def Msg.val : Msg V B → V
  | .sample v _ _ => v
  | .param v => v

/-- `d[n] = m` for an ordered dictionary. -/
def put {α : Type} (n : Name) (m : α) : List (Name × α) → List (Name × α)
  | [] => [(n, m)]
  | (k, x) :: t => if k = n then (k, m) :: t else (k, x) :: put n m t

/-- `d.get(n)`. -/
def look {α : Type} (n : Name) : List (Name × α) → Option α
  | [] => none
  | (k, x) :: t => if k = n then some x else look n t

abbrev Trace (V B : Type) := List (Name × Msg V B)

/-- The random generator, the traces of tracers, and the parameter stores: unconstrained values with constraints. -/
structure St (V B C : Type) where
  rng : Nat
  traces : Nat → Trace V B
  store : Nat → List (Name × V × C)

/-- Exceptions. -/
inductive Err where
  /-- RuntimeError: "No default implementation". -/
  | noDefault
  /-- RuntimeError of `expand`. -/
  | expand
  /-- AssertionError: a parameter without initial value. -/
  | assertion

/-- Handlers. -/
inductive H (V B : Type) where
  /-- `Tracer` with its trace. -/
  | tracer (i : Nat)
  | replay (t : Trace V B)
  /-- `Plate(_, size, -(k + 1))`. -/
  | plate (size k : Nat)
  /-- `block(hide)`: the first argument tells whether the operation is `sample`; it may
  not look at other arguments than the name. -/
  | block (hide : Bool → Name → Bool)
  /-- `coproduct(NativeSeed(), NativeParam())` with its store; number 0 is `default_runner`. -/
  | runner (j : Nat)

/-- `self.TRACE[n] = m`. -/
def St.record (st : St V B C) (i : Nat) (n : Name) (m : Msg V B) : St V B C :=
  { st with traces := fun j => if j = i then put n m (st.traces i) else st.traces j }

/-- `NativeSeed.sample` (242-247). -/
def native (W : World V B C) (d : Dist B) (obs : Option V) (st : St V B C) : V × St V B C :=
  match obs with
  | some v => (v, st)
  | none => (W.draw d st.rng, { st with rng := st.rng + 1 })

/-- `len(batch_shape) < -self.dim or batch_shape[self.dim] != self.size` (337). -/
def needs (size k : Nat) (rb : List Nat) : Bool := rb.length < k + 1 || rb.getD k 0 != size

/-- The batch shape that a plate wants (338-339). -/
def target (size k : Nat) (rb : List Nat) : List Nat := (rb ++ List.replicate (k + 1 - rb.length) 1).set k size

/-- Whether torch can expand a shape to another. -/
def fits : List Nat → List Nat → Bool
  | [], _ => true
  | _ :: _, [] => false
  | a :: as, b :: bs => (a == 1 || a == b) && fits as bs

/-- `dist.expand(shape)`. -/
def Dist.expand (d : Dist B) (s : List Nat) : Option (Dist B) := if fits d.rbatch s then some ⟨d.base, s⟩ else none

/-- `sample(n, d, obs=o)` from a handler on; `again` is `sample(n, d)` for all handlers. -/
def down (W : World V B C) (again : Dist B → St V B C → Option (Except Err (V × St V B C))) (n : Name) :
    List (H V B) → Dist B → Option V → St V B C → Option (Except Err (V × St V B C))
  | [], _, _, _ => some (.error .noDefault)
  | .tracer i :: r, d, o, st =>  -- 151-163
    match down W again n r d o st with
    | some (.ok (v, st)) => some (.ok (v, st.record i n (.sample v d o)))
    | e => e
  | .replay t :: r, d, o, st =>  -- 192-196
    match look n t with
    | some m => down W again n r d (some m.val) st
    | none => down W again n r d o st
  | .plate s k :: r, d, o, st =>  -- 333-342
    if needs s k d.rbatch then
      match d.expand (target s k d.rbatch) with
      | none => some (.error .expand)
      | some d' => again d' st
    else down W again n r d o st
  | .block h :: r, d, o, st =>  -- 370-374
    if h true n then some (.ok (native W d o st)) else down W again n r d o st
  | .runner _ :: _, d, o, st => some (.ok (native W d o st))

/-- `sample(n, d, obs=o)`, with a bound on the number of calls. -/
def sample (W : World V B C) : Nat → List (H V B) → Name → Dist B → Option V → St V B C →
    Option (Except Err (V × St V B C))
  | 0, _, _, _, _, _ => none
  | f + 1, hs, n, d, o, st => down W (fun d' st => sample W f hs n d' none st) n hs d o st

/-- `NativeParam.param` (276-309). -/
def nativeParam (W : World V B C) (j : Nat) (n : Name) (init : Option V) (c : C) (st : St V B C) :
    Except Err (V × St V B C) :=
  match look n (st.store j) with
  | some (u, c') => .ok (W.toC c' u, st)
  | none =>
    match init with
    | none => .error .assertion
    | some v => .ok (W.toC c (W.inv c v),
        { st with store := fun i => if i = j then put n (W.inv c v, c) (st.store j) else st.store i })

/-- `param(n, init, c)` from a handler on. -/
def param (W : World V B C) (n : Name) (init : Option V) (c : C) : List (H V B) → St V B C → Except Err (V × St V B C)
  | [], _ => .error .noDefault
  | .tracer i :: r, st =>  -- 165-178
    match param W n init c r st with
    | .ok (v, st) => .ok (v, st.record i n (.param v))
    | .error e => .error e
  | .block h :: r, st => if h false n then nativeParam W 0 n init c st else param W n init c r st
  | .runner j :: _, st => nativeParam W j n init c st
  | .replay _ :: r, st => param W n init c r st
  | .plate _ _ :: r, st => param W n init c r st

/-- Programs. -/
inductive Prog (V B C : Type) where
  | ret (v : V)
  | sample (n : Name) (d : Dist B) (obs : Option V) (k : V → Prog V B C)
  | param (n : Name) (init : Option V) (c : C) (k : V → Prog V B C)
  /-- `with plate(_, size, -(dim + 1)): p`. -/
  | plate (size dim : Nat) (p : Prog V B C) (k : V → Prog V B C)

/-- Running a program under handlers. -/
def run (W : World V B C) (f : Nat) : List (H V B) → Prog V B C → St V B C → Option (Except Err (V × St V B C))
  | _, .ret v, st => some (.ok (v, st))
  | hs, .sample n d o k, st =>
    match sample W f hs n d o st with
    | some (.ok (v, st)) => run W f hs (k v) st
    | e => e
  | hs, .param n i c k, st =>
    match param W n i c hs st with
    | .ok (v, st) => run W f hs (k v) st
    | .error e => some (.error e)
  | hs, .plate s dim p k, st =>
    match run W f (.plate s dim :: hs) p st with
    | some (.ok (v, st)) => run W f hs (k v) st
    | e => e

/-- `set_rng_seed(s)` (230-240): every handler forwards after setting the generator. -/
def setSeed (s : Nat) : List (H V B) → St V B C → Except Err (St V B C)
  | [], _ => .error .noDefault
  | .runner _ :: r, st => setSeed s r { st with rng := s }
  | _ :: r, st => setSeed s r st

/-- `get_rng_seed()`. -/
def getSeed : List (H V B) → St V B C → Except Err Nat
  | [], _ => .error .noDefault
  | .runner _ :: _, st => .ok st.rng
  | _ :: r, st => getSeed r st

/-- `with seed(s): body` (250-261): `finally` sets the old state. -/
def withSeed (s : Nat) (hs : List (H V B)) (body : St V B C → Except Err (V × St V B C)) (st : St V B C) :
    Except Err (V × St V B C) :=
  match getSeed hs st with
  | .error e => .error e
  | .ok old =>
    let r : Except Err (V × St V B C) := match setSeed s hs st with
      | .error e => .error e
      | .ok st => body st
    match r with
    | .error e => .error e
    | .ok (v, st) =>
      match setSeed old hs st with
      | .error e => .error e
      | .ok st => .ok (v, st)

/-- The store of `NativeParam(initial_store)` (273-274): `initial_store or {}`, where `fresh` is the new dictionary. -/
def initStore (given : Option Nat) (fresh : Nat) (st : St V B C) : Nat :=
  match given with
  | some j => if (st.store j).isEmpty then fresh else j
  | none => fresh

/-- The terms of `elbo` of a trace (457-459, 463-465). -/
def total (logp : Dist B → V → Int) (t : Trace V B) : Int :=
  (t.map fun p => match p.2 with | .sample v d _ => logp d v | .param _ => 0).sum

/-- `elbo(model, guide)` (437-469), with tracers `i` and `j`. -/
def elbo (W : World V B C) (logp : Dist B → V → Int) (f i j : Nat) (model guide : Prog V B C) (hs : List (H V B))
    (st : St V B C) : Option (Except Err (Int × St V B C)) :=
  match run W f (.tracer i :: hs) guide { st with traces := fun m => if m = i then [] else st.traces m } with
  | none => none
  | some (.error e) => some (.error e)
  | some (.ok (_, st)) =>
    match run W f (.replay (st.traces i) :: .tracer j :: hs) model
        { st with traces := fun m => if m = j then [] else st.traces m } with
    | none => none
    | some (.error e) => some (.error e)
    | some (.ok (_, st')) => some (.ok (-(total logp (st'.traces j) - total logp (st.traces i)), st'))

/-! ## Specification -/

/-- What a program learns of a call: the operation, the name and the answer. -/
inductive Call (V : Type) where
  | sample (n : Name) (v : V)
  | param (n : Name) (v : V)

def Call.name : Call V → Name
  | .sample n _ => n
  | .param n _ => n

def Call.val : Call V → V
  | .sample _ v => v
  | .param _ v => v

/-- The program makes these calls with these answers, and returns the value. -/
inductive Follows : Prog V B C → List (Call V) → V → Prop where
  | ret (v : V) : Follows (.ret v) [] v
  | sample {n d o} {k : V → Prog V B C} {a l v} : Follows (k a) l v → Follows (.sample n d o k) (.sample n a :: l) v
  | param {n i c} {k : V → Prog V B C} {a l v} : Follows (k a) l v → Follows (.param n i c k) (.param n a :: l) v
  | plate {s dim p} {k : V → Prog V B C} {l m a v} : Follows p l a → Follows (k a) m v →
      Follows (.plate s dim p k) (l ++ m) v

/-- The dictionary of the last answers. -/
def answers (t : List (Name × V)) (l : List (Call V)) : List (Name × V) := l.foldl (fun t c => put c.name c.val t) t

/-- The names and values of a trace. -/
def vals (t : Trace V B) : List (Name × V) := t.map fun p => (p.1, p.2.val)

/-! ## Dictionaries -/

theorem vals_put (n : Name) (m : Msg V B) (t : Trace V B) : vals (put n m t) = put n m.val (vals t) := by
  induction t with
  | nil => rfl
  | cons p t ih =>
    obtain ⟨k, x⟩ := p
    simp only [put, vals, List.map_cons]
    split
    · rfl
    · simp only [List.map_cons, List.cons.injEq, true_and]; exact ih

theorem put_put {α : Type} (n : Name) (a b : α) (t : List (Name × α)) : put n b (put n a t) = put n b t := by
  induction t with
  | nil => simp [put]
  | cons p t ih =>
    obtain ⟨k, x⟩ := p
    by_cases h : k = n
    · simp [put, h]
    · simp [put, h, ih]

theorem look_put {α : Type} (n m : Name) (a : α) (t : List (Name × α)) :
    look m (put n a t) = if m = n then some a else look m t := by
  induction t with
  | nil =>
    by_cases h : m = n
    · simp [put, look, h]
    · simp [put, look, h, Ne.symm h]
  | cons p t ih =>
    obtain ⟨k, x⟩ := p
    by_cases h : k = n
    · subst h
      by_cases h2 : m = k
      · simp [put, look, h2]
      · simp [put, look, h2, Ne.symm h2]
    · by_cases h2 : k = m
      · subst h2; simp [put, look, h]
      · simp [put, look, h, h2, ih]

theorem record_same (st : St V B C) (i : Nat) (n : Name) (m : Msg V B) :
    (st.record i n m).traces i = put n m (st.traces i) := by simp [St.record]

theorem record_other (st : St V B C) {i j : Nat} (h : j ≠ i) (n : Name) (m : Msg V B) :
    (st.record i n m).traces j = st.traces j := by simp [St.record, h]

/-! ## Termination -/

/-- Dimensions that are missing count two, those of size one count one. -/
def room : Nat → List Nat → Nat
  | 0, _ => 0
  | K + 1, [] => 2 + room K []
  | K + 1, a :: as => (if a = 1 then 1 else 0) + room K as

theorem room_le (K : Nat) : ∀ rb s : List Nat, fits rb s = true → room K s ≤ room K rb := by
  induction K with
  | zero => intro rb s _; simp [room]
  | succ K ih =>
    intro rb s h
    match rb, s with
    | [], [] => exact Nat.le_refl _
    | [], b :: bs =>
      have := ih [] bs rfl
      simp only [room]
      split <;> omega
    | a :: as, [] => simp [fits] at h
    | a :: as, b :: bs =>
      simp only [fits, Bool.and_eq_true, Bool.or_eq_true, beq_iff_eq] at h
      have := ih as bs h.2
      simp only [room]
      rcases h.1 with h1 | h1
      · subst h1; split <;> simp <;> omega
      · subst h1; omega

theorem room_lt (s : Nat) : ∀ (K k : Nat) (rb : List Nat), k < K → needs s k rb = true →
    fits rb (target s k rb) = true → room K (target s k rb) < room K rb := by
  intro K
  induction K with
  | zero => intro k rb hk; omega
  | succ K ih =>
    intro k rb hk hn hf
    match rb, k with
    | [], 0 =>
      have := room_le K [] [] rfl
      simp only [target, room, List.length_nil, List.nil_append, Nat.zero_add, Nat.sub_zero, List.replicate_one,
        List.set_cons_zero]
      split <;> omega
    | [], k + 1 =>
      have h1 : target s (k + 1) [] = 1 :: target s k [] := by simp [target, List.replicate_succ]
      have := ih k [] (by omega) (by simp [needs]) rfl
      rw [h1]
      simp only [room]
      simp
      omega
    | a :: as, 0 =>
      have h1 : target s 0 (a :: as) = s :: as := by simp [target]
      rw [h1] at hf ⊢
      simp only [fits, Bool.and_eq_true, Bool.or_eq_true, beq_iff_eq] at hf
      simp only [needs, List.length_cons, List.getD_cons_zero, Bool.or_eq_true, decide_eq_true_eq, bne_iff_ne] at hn
      have hne : a ≠ s := by
        rcases hn with h | h
        · omega
        · exact h
      have ha : a = 1 := by rcases hf.1 with h | h; exact h; exact absurd h hne
      subst ha
      simp only [room, if_true]
      rw [if_neg (Ne.symm hne)]
      omega
    | a :: as, k + 1 =>
      have h1 : target s (k + 1) (a :: as) = a :: target s k as := by simp [target]
      rw [h1] at hf ⊢
      simp only [fits, Bool.and_eq_true] at hf
      have hn' : needs s k as = true := by
        simp only [needs, List.length_cons, List.getD_cons_succ, Bool.or_eq_true, decide_eq_true_eq, bne_iff_ne] at hn ⊢
        rcases hn with h | h
        · left; omega
        · right; exact h
      have := ih k as (by omega) hn' hf.2
      simp only [room]
      omega

/-- Plates have dimensions below the bound. -/
def Below (K : Nat) (hs : List (H V B)) : Prop := ∀ s k, .plate s k ∈ hs → k < K

theorem sample_total (W : World V B C) (hs : List (H V B)) (n : Name) {K : Nat} (hK : Below K hs) :
    ∀ (f : Nat) (d : Dist B) (o : Option V) (st : St V B C), room K d.rbatch < f → (sample W f hs n d o st).isSome := by
  intro f
  induction f with
  | zero => intro d o st h; omega
  | succ f ih =>
    intro d o st h
    simp only [sample]
    have key : ∀ r : List (H V B), (∀ x ∈ r, x ∈ hs) → ∀ o st,
        (down W (fun d' st => sample W f hs n d' none st) n r d o st).isSome := by
      intro r
      induction r with
      | nil => intro _ o st; rfl
      | cons x r ihr =>
        intro hr o st
        have hr' : ∀ y ∈ r, y ∈ hs := fun y hy => hr y (by simp [hy])
        cases x with
        | tracer i =>
          have := ihr hr' o st
          simp only [down]
          cases h : down W (fun d' st => sample W f hs n d' none st) n r d o st with
          | none => rw [h] at this; cases this
          | some e => cases e <;> rfl
        | replay t =>
          simp only [down]
          split
          · exact ihr hr' _ st
          · exact ihr hr' _ st
        | plate s k =>
          simp only [down]
          split
          · rename_i hn
            simp only [Dist.expand]
            by_cases hf : fits d.rbatch (target s k d.rbatch) = true
            · simp only [hf, if_true]
              apply ih
              have := room_lt s K k d.rbatch (hK s k (hr _ (by simp))) hn hf
              simp only at this ⊢
              omega
            · simp [hf]
          · exact ihr hr' o st
        | block h =>
          simp only [down]
          split
          · rfl
          · exact ihr hr' o st
        | runner j => rfl
    exact key hs (fun x h => h) o st

/-- **C89.** Sampling ends, whatever handlers are installed. -/
theorem C89_sample_ends (W : World V B C) (hs : List (H V B)) (n : Name) (d : Dist B) (o : Option V) (st : St V B C) :
    ∃ f, ∀ g ≥ f, (sample W g hs n d o st).isSome := by
  have : ∃ K, Below K hs := by
    induction hs with
    | nil => exact ⟨0, fun s k h => by simp at h⟩
    | cons x hs ih =>
      obtain ⟨K, hK⟩ := ih
      cases x with
      | plate s k =>
        refine ⟨max K (k + 1), fun s' k' h => ?_⟩
        rcases List.mem_cons.1 h with h | h
        · cases h; omega
        · have := hK s' k' h; omega
      | _ =>
        refine ⟨K, fun s' k' h => ?_⟩
        rcases List.mem_cons.1 h with h | h
        · cases h
        · exact hK s' k' h
  obtain ⟨K, hK⟩ := this
  exact ⟨room K d.rbatch + 1, fun g hg => sample_total W hs n hK g d o st (by omega)⟩

/-! ## Traces -/

/-- A stack of plates. -/
def Plates (hs : List (H V B)) : Prop := ∀ h ∈ hs, ∃ s k, h = .plate s k

/-- What `down` does to a trace whose tracer is not passed. -/
theorem down_untouched (W : World V B C) {again : Dist B → St V B C → Option (Except Err (V × St V B C))} {n : Name} {i : Nat}
    {P : V → St V B C → St V B C → Prop} (hbase : ∀ v st st', st'.traces i = st.traces i → P v st st')
    (hrec : ∀ v st st' st'', P v st st' → st''.traces i = st'.traces i → P v st st'')
    (hag : ∀ d st v st', again d st = some (.ok (v, st')) → P v st st') :
    ∀ (r : List (H V B)), .tracer i ∉ r → ∀ d o st v st', down W again n r d o st = some (.ok (v, st')) → P v st st' := by
  intro r
  induction r with
  | nil => intro _ d o st v st' h; simp [down] at h
  | cons x r ih =>
    intro hi d o st v st' h
    have hi' : .tracer i ∉ r := fun hm => hi (by simp [hm])
    have hnat : ∀ {d o st v st'}, (some (.ok (native W d o st)) : Option (Except Err (V × St V B C))) = some (.ok (v, st')) →
        P v st st' := by
      intro d o st v st' h
      simp only [Option.some.injEq, Except.ok.injEq] at h
      apply hbase
      cases o <;> simp only [native, Prod.mk.injEq] at h <;> rw [← h.2]
    cases x with
    | tracer j =>
      have hij : i ≠ j := by rintro rfl; exact hi (by simp)
      simp only [down] at h
      split at h
      · rename_i v1 st1 h1
        simp only [Option.some.injEq, Except.ok.injEq, Prod.mk.injEq] at h
        obtain ⟨rfl, rfl⟩ := h
        exact hrec _ _ _ _ (ih hi' d o st v1 st1 h1) (record_other _ hij _ _)
      · rename_i hno; exact (hno v st' h).elim
    | replay t =>
      simp only [down] at h
      split at h
      · exact ih hi' _ _ _ _ _ h
      · exact ih hi' _ _ _ _ _ h
    | plate s k =>
      simp only [down] at h
      split at h
      · split at h
        · simp at h
        · exact hag _ _ _ _ h
      · exact ih hi' _ _ _ _ _ h
    | block hd =>
      simp only [down] at h
      split at h
      · exact hnat h
      · exact ih hi' _ _ _ _ _ h
    | runner j => exact hnat h

/-- A sample under a tracer (and plates within it) is recorded. -/
theorem sample_recorded (W : World V B C) {i : Nat} {pre post : List (H V B)} (hpre : Plates pre)
    (hpost : .tracer i ∉ post) (n : Name) : ∀ (f : Nat) (d : Dist B) (o : Option V) (st : St V B C) v st',
    sample W f (pre ++ .tracer i :: post) n d o st = some (.ok (v, st')) →
      vals (st'.traces i) = put n v (vals (st.traces i)) := by
  intro f
  induction f with
  | zero => intro d o st v st' h; simp [sample] at h
  | succ f ih =>
    intro d o st v st' h
    simp only [sample] at h
    have htr : ∀ d o st v st', down W (fun d' st => sample W f (pre ++ .tracer i :: post) n d' none st) n (.tracer i :: post)
        d o st = some (.ok (v, st')) → vals (st'.traces i) = put n v (vals (st.traces i)) := by
      intro d o st v st' h
      simp only [down] at h
      split at h
      · rename_i v1 st1 h1
        simp only [Option.some.injEq, Except.ok.injEq, Prod.mk.injEq] at h
        obtain ⟨rfl, rfl⟩ := h
        rw [record_same, vals_put]
        have := down_untouched W (i := i)
          (P := fun v st st' => vals (st'.traces i) = vals (st.traces i) ∨ vals (st'.traces i) = put n v (vals (st.traces i)))
          (fun v st st' h => Or.inl (by rw [h])) (fun v st st' st'' h e => by rw [e]; exact h)
          (fun d st v st' h => Or.inr (ih d none st v st' h)) post hpost d o st v1 st1 h1
        rcases this with h | h
        · rw [h]; rfl
        · rw [h, put_put]; rfl
      · rename_i hno; exact (hno v st' h).elim
    have hpl : ∀ p : List (H V B), Plates p → ∀ d o st v st',
        down W (fun d' st => sample W f (pre ++ .tracer i :: post) n d' none st) n (p ++ .tracer i :: post) d o st =
          some (.ok (v, st')) → vals (st'.traces i) = put n v (vals (st.traces i)) := by
      intro p
      induction p with
      | nil => intro _ d o st v st' h; exact htr d o st v st' h
      | cons x p ihp =>
        intro hp d o st v st' h
        obtain ⟨s, k, rfl⟩ := hp x (by simp)
        simp only [List.cons_append, down] at h
        split at h
        · split at h
          · simp at h
          · exact ih _ _ _ _ _ h
        · exact ihp (fun y hy => hp y (by simp [hy])) _ _ _ _ _ h
    exact hpl pre hpre d o st v st' h

theorem nativeParam_traces (W : World V B C) {j : Nat} {n : Name} {init : Option V} {c : C} {st st' : St V B C} {v : V}
    (h : nativeParam W j n init c st = .ok (v, st')) : st'.traces = st.traces := by
  unfold nativeParam at h
  split at h
  · simp only [Except.ok.injEq, Prod.mk.injEq] at h; rw [← h.2]
  · split at h
    · cases h
    · simp only [Except.ok.injEq, Prod.mk.injEq] at h; rw [← h.2]

theorem param_untouched (W : World V B C) {n : Name} {init : Option V} {c : C} {i : Nat} : ∀ (r : List (H V B)),
    .tracer i ∉ r → ∀ st v st', param W n init c r st = .ok (v, st') → st'.traces i = st.traces i := by
  intro r
  induction r with
  | nil => intro _ st v st' h; simp [param] at h
  | cons x r ih =>
    intro hi st v st' h
    have hi' : .tracer i ∉ r := fun hm => hi (by simp [hm])
    cases x with
    | tracer j =>
      have hij : i ≠ j := by rintro rfl; exact hi (by simp)
      simp only [param] at h
      split at h
      · rename_i v1 st1 h1
        simp only [Except.ok.injEq, Prod.mk.injEq] at h
        obtain ⟨rfl, rfl⟩ := h
        rw [record_other _ hij, ih hi' _ _ _ h1]
      · cases h
    | replay t => exact ih hi' _ _ _ h
    | plate s k => exact ih hi' _ _ _ h
    | block hd =>
      simp only [param] at h
      split at h
      · rw [nativeParam_traces W h]
      · exact ih hi' _ _ _ h
    | runner j => rw [nativeParam_traces W h]

/-- The trace with a parameter recorded, if the tracer is reached through plates and replays only. -/
theorem param_recorded (W : World V B C) {n : Name} {init : Option V} {c : C} {i : Nat} {post : List (H V B)}
    (hpost : .tracer i ∉ post) : ∀ (pre : List (H V B)), Plates pre → ∀ st v st',
    param W n init c (pre ++ .tracer i :: post) st = .ok (v, st') → st'.traces i = put n (.param v) (st.traces i) := by
  intro pre
  induction pre with
  | nil =>
    intro _ st v st' h
    simp only [List.nil_append, param] at h
    split at h
    · rename_i v1 st1 h1
      simp only [Except.ok.injEq, Prod.mk.injEq] at h
      obtain ⟨rfl, rfl⟩ := h
      rw [record_same, param_untouched W post hpost _ _ _ h1]
    · cases h
  | cons x pre ih =>
    intro hp st v st' h
    obtain ⟨s, k, rfl⟩ := hp x (by simp)
    exact ih (fun y hy => hp y (by simp [hy])) st v st' h

theorem answers_append (t : List (Name × V)) (l m : List (Call V)) : answers t (l ++ m) = answers (answers t l) m := by
  simp [answers, List.foldl_append]

theorem plates_cons {pre : List (H V B)} (h : Plates pre) (s k : Nat) : Plates (.plate s k :: pre) := by
  intro x hx
  rcases List.mem_cons.1 hx with rfl | hx
  · exact ⟨s, k, rfl⟩
  · exact h x hx

theorem run_recorded (W : World V B C) (f : Nat) {i : Nat} {post : List (H V B)} (hpost : .tracer i ∉ post)
    (p : Prog V B C) : ∀ (pre : List (H V B)), Plates pre → ∀ st v st',
    run W f (pre ++ .tracer i :: post) p st = some (.ok (v, st')) →
      ∃ l, Follows p l v ∧ vals (st'.traces i) = answers (vals (st.traces i)) l := by
  induction p with
  | ret v =>
    intro pre _ st v' st' h
    simp only [run, Option.some.injEq, Except.ok.injEq, Prod.mk.injEq] at h
    obtain ⟨rfl, rfl⟩ := h
    exact ⟨[], .ret v, rfl⟩
  | sample n d o k ih =>
    intro pre hpre st v st' h
    simp only [run] at h
    split at h
    · rename_i a st1 h1
      obtain ⟨l, hl, he⟩ := ih a pre hpre st1 v st' h
      refine ⟨_, .sample hl, ?_⟩
      rw [he, sample_recorded W hpre hpost n f d o st a st1 h1]
      rfl
    · rename_i hno; exact (hno v st' h).elim
  | param n init c k ih =>
    intro pre hpre st v st' h
    simp only [run] at h
    split at h
    · rename_i a st1 h1
      obtain ⟨l, hl, he⟩ := ih a pre hpre st1 v st' h
      refine ⟨_, .param hl, ?_⟩
      rw [he, param_recorded W hpost pre hpre st a st1 h1, vals_put]
      rfl
    · simp at h
  | plate s dim p k ihp ihk =>
    intro pre hpre st v st' h
    simp only [run] at h
    split at h
    · rename_i a st1 h1
      obtain ⟨l, hl, he⟩ := ihp (.plate s dim :: pre) (plates_cons hpre s dim) st a st1 h1
      obtain ⟨m, hm, he'⟩ := ihk a pre hpre st1 v st' h
      refine ⟨_, .plate hl hm, ?_⟩
      rw [he', he, answers_append]
    · rename_i hno; exact (hno v st' h).elim

/-- **C89.** Within `trace()`, whatever handlers are outside: the trace has the names of all calls of `sample` and `param` of
the program, in the order of their first calls, with the last answers that the program got. -/
theorem C89_trace (W : World V B C) (f i : Nat) (hs : List (H V B)) (hi : .tracer i ∉ hs) (p : Prog V B C) (st : St V B C)
    (h0 : st.traces i = []) {v : V} {st' : St V B C} (h : run W f (.tracer i :: hs) p st = some (.ok (v, st'))) :
    ∃ l, Follows p l v ∧ vals (st'.traces i) = answers [] l := by
  obtain ⟨l, hl, he⟩ := run_recorded W f hi p [] (fun _ h => by simp at h) st v st' h
  exact ⟨l, hl, by rw [he, h0]; rfl⟩

/-! ## Tracers change nothing -/

/-- States that differ in a trace only. -/
def Upto (i : Nat) (s t : St V B C) : Prop := s.rng = t.rng ∧ s.store = t.store ∧ ∀ j, j ≠ i → s.traces j = t.traces j

/-- Results that differ in a trace only. -/
def UptoR {α : Type} (i : Nat) : Option (Except Err (α × St V B C)) → Option (Except Err (α × St V B C)) → Prop
  | none, none => True
  | some (.error e), some (.error e') => e = e'
  | some (.ok (v, s)), some (.ok (w, t)) => v = w ∧ Upto i s t
  | _, _ => False

theorem Upto.record {i : Nat} {s t : St V B C} (h : Upto i s t) (j : Nat) (hj : j ≠ i) (n : Name) (m : Msg V B) :
    Upto i (s.record j n m) (t.record j n m) := by
  refine ⟨h.1, h.2.1, fun k hk => ?_⟩
  simp only [St.record]
  split
  · rename_i e; subst e; rw [h.2.2 _ hk]
  · exact h.2.2 k hk

theorem Upto.record_left {i : Nat} {s t : St V B C} (h : Upto i s t) (n : Name) (m : Msg V B) : Upto i (s.record i n m) t :=
  ⟨h.1, h.2.1, fun k hk => by rw [record_other _ hk]; exact h.2.2 k hk⟩

theorem native_upto (W : World V B C) {i : Nat} {s t : St V B C} (h : Upto i s t) (d : Dist B) (o : Option V) :
    UptoR i (some (.ok (native W d o s))) (some (.ok (native W d o t))) := by
  cases o with
  | some v => exact ⟨rfl, h⟩
  | none =>
    refine ⟨?_, ?_, h.2⟩
    · show W.draw d s.rng = W.draw d t.rng
      rw [h.1]
    · show s.rng + 1 = t.rng + 1
      rw [h.1]

/-- The stack without a tracer. -/
inductive Removed (i : Nat) : List (H V B) → List (H V B) → Prop where
  | nil : Removed i [] []
  | drop {a b} : Removed i a b → Removed i (.tracer i :: a) b
  | keep {x a b} : x ≠ .tracer i → Removed i a b → Removed i (x :: a) (x :: b)

theorem down_upto (W : World V B C) {i : Nat} {n : Name} {again again' : Dist B → St V B C → Option (Except Err (V × St V B C))}
    (hag : ∀ d s t, Upto i s t → UptoR i (again d s) (again' d t)) {a b : List (H V B)} (hab : Removed i a b) :
    ∀ d o s t, Upto i s t → UptoR i (down W again n a d o s) (down W again' n b d o t) := by
  induction hab with
  | nil => intro d o s t h; rfl
  | @drop a b _ ih =>
    intro d o s t h
    have := ih d o s t h
    simp only [down]
    revert this
    cases h1 : down W again n a d o s with
    | none => exact id
    | some r =>
      cases r with
      | error e => exact id
      | ok p =>
        cases h2 : down W again' n b d o t with
        | none => exact id
        | some r' =>
          cases r' with
          | error e => exact id
          | ok q => exact fun hh => ⟨hh.1, hh.2.record_left _ _⟩
  | @keep x a b hx _ ih =>
    intro d o s t h
    cases x with
    | tracer j =>
      have hij : j ≠ i := by rintro rfl; exact hx rfl
      have := ih d o s t h
      simp only [down]
      revert this
      cases h1 : down W again n a d o s with
      | none => cases h2 : down W again' n b d o t with
        | none => exact id
        | some r' => cases r' <;> exact id
      | some r =>
        cases r with
        | error e =>
          cases h2 : down W again' n b d o t with
          | none => exact id
          | some r' => cases r' <;> exact id
        | ok p =>
          cases h2 : down W again' n b d o t with
          | none => exact fun hh => hh.elim
          | some r' =>
            cases r' with
            | error e => exact fun hh => hh.elim
            | ok q =>
              obtain ⟨v, s'⟩ := p
              obtain ⟨w, t'⟩ := q
              rintro ⟨rfl, hu⟩
              exact ⟨rfl, hu.record j hij _ _⟩
    | replay tr =>
      simp only [down]
      split <;> exact ih _ _ _ _ h
    | plate sz k =>
      simp only [down]
      split
      · split
        · exact rfl
        · exact hag _ _ _ h
      · exact ih _ _ _ _ h
    | block hd =>
      simp only [down]
      split
      · exact native_upto W h d o
      · exact ih _ _ _ _ h
    | runner j => exact native_upto W h d o

theorem sample_upto (W : World V B C) {i : Nat} {n : Name} {a b : List (H V B)} (hab : Removed i a b) : ∀ (f : Nat) d o s t,
    Upto i s t → UptoR i (sample W f a n d o s) (sample W f b n d o t) := by
  intro f
  induction f with
  | zero => intro d o s t _; trivial
  | succ f ih =>
    intro d o s t h
    exact down_upto W (fun d s t h => ih d none s t h) hab d o s t h

/-- Results of `param` that differ in a trace only. -/
def UptoE (i : Nat) : Except Err (V × St V B C) → Except Err (V × St V B C) → Prop
  | .error e, .error e' => e = e'
  | .ok (v, s), .ok (w, t) => v = w ∧ Upto i s t
  | _, _ => False

theorem nativeParam_upto (W : World V B C) {i : Nat} {s t : St V B C} (h : Upto i s t) (j : Nat) (n : Name) (init : Option V)
    (c : C) : UptoE i (nativeParam W j n init c s) (nativeParam W j n init c t) := by
  unfold nativeParam
  rw [h.2.1]
  cases look n (t.store j) with
  | some p => exact ⟨rfl, h⟩
  | none =>
    cases init with
    | none => rfl
    | some v => exact ⟨rfl, h.1, by simp only, h.2.2⟩

theorem param_upto (W : World V B C) {i : Nat} {n : Name} {init : Option V} {c : C} {a b : List (H V B)} (hab : Removed i a b) :
    ∀ s t, Upto i s t → UptoE i (param W n init c a s) (param W n init c b t) := by
  induction hab with
  | nil => intro s t _; rfl
  | @drop a b _ ih =>
    intro s t h
    have := ih s t h
    simp only [param]
    revert this
    cases h1 : param W n init c a s with
    | error e => exact id
    | ok p =>
      cases h2 : param W n init c b t with
      | error e => exact id
      | ok q => exact fun hh => ⟨hh.1, hh.2.record_left _ _⟩
  | @keep x a b hx _ ih =>
    intro s t h
    cases x with
    | tracer j =>
      have hij : j ≠ i := by rintro rfl; exact hx rfl
      have := ih s t h
      simp only [param]
      revert this
      cases h1 : param W n init c a s with
      | error e => cases h2 : param W n init c b t <;> exact id
      | ok p =>
        cases h2 : param W n init c b t with
        | error e => exact fun hh => hh.elim
        | ok q =>
          obtain ⟨v, s'⟩ := p
          obtain ⟨w, t'⟩ := q
          rintro ⟨rfl, hu⟩
          exact ⟨rfl, hu.record j hij _ _⟩
    | replay tr => exact ih s t h
    | plate sz k => exact ih s t h
    | block hd =>
      simp only [param]
      split
      · exact nativeParam_upto W h 0 n init c
      · exact ih s t h
    | runner j => exact nativeParam_upto W h j n init c

theorem run_upto (W : World V B C) (f : Nat) {i : Nat} (p : Prog V B C) : ∀ {a b : List (H V B)}, Removed i a b → ∀ s t,
    Upto i s t → UptoR i (run W f a p s) (run W f b p t) := by
  induction p with
  | ret v => intro a b _ s t h; exact ⟨rfl, h⟩
  | sample n d o k ih =>
    intro a b hab s t h
    have := sample_upto W (n := n) hab f d o s t h
    simp only [run]
    revert this
    cases h1 : sample W f a n d o s with
    | none => cases h2 : sample W f b n d o t with
      | none => exact id
      | some r' => cases r' <;> exact fun hh => hh.elim
    | some r =>
      cases r with
      | error e =>
        cases h2 : sample W f b n d o t with
        | none => exact fun hh => hh.elim
        | some r' =>
          cases r' with
          | error e' => exact id
          | ok q' => exact fun hh => hh.elim
      | ok q =>
        cases h2 : sample W f b n d o t with
        | none => exact fun hh => hh.elim
        | some r' =>
          cases r' with
          | error e => exact fun hh => hh.elim
          | ok q' =>
            obtain ⟨v, s'⟩ := q
            obtain ⟨w, t'⟩ := q'
            rintro ⟨rfl, hu⟩
            exact ih v hab s' t' hu
  | param n init c k ih =>
    intro a b hab s t h
    have := param_upto W (n := n) (init := init) (c := c) hab s t h
    simp only [run]
    revert this
    cases h1 : param W n init c a s with
    | error e => cases h2 : param W n init c b t with
      | error e' => exact id
      | ok q => exact fun hh => hh.elim
    | ok q =>
      cases h2 : param W n init c b t with
      | error e => exact fun hh => hh.elim
      | ok q' =>
        obtain ⟨v, s'⟩ := q
        obtain ⟨w, t'⟩ := q'
        rintro ⟨rfl, hu⟩
        exact ih v hab s' t' hu
  | plate sz dim p k ihp ihk =>
    intro a b hab s t h
    have := ihp (a := .plate sz dim :: a) (b := .plate sz dim :: b) (.keep (by simp) hab) s t h
    simp only [run]
    revert this
    cases h1 : run W f (.plate sz dim :: a) p s with
    | none => cases h2 : run W f (.plate sz dim :: b) p t with
      | none => exact id
      | some r' => cases r' <;> exact fun hh => hh.elim
    | some r =>
      cases r with
      | error e =>
        cases h2 : run W f (.plate sz dim :: b) p t with
        | none => exact fun hh => hh.elim
        | some r' =>
          cases r' with
          | error e' => exact id
          | ok q' => exact fun hh => hh.elim
      | ok q =>
        cases h2 : run W f (.plate sz dim :: b) p t with
        | none => exact fun hh => hh.elim
        | some r' =>
          cases r' with
          | error e => exact fun hh => hh.elim
          | ok q' =>
            obtain ⟨v, s'⟩ := q
            obtain ⟨w, t'⟩ := q'
            rintro ⟨rfl, hu⟩
            exact ihk v hab s' t' hu

theorem removed_self (i : Nat) {hs : List (H V B)} (h : .tracer i ∉ hs) : Removed i hs hs := by
  induction hs with
  | nil => exact .nil
  | cons x hs ih => exact .keep (fun e => h (by simp [e])) (ih fun hm => h (by simp [hm]))

/-- **C89.** `trace()` changes nothing but its trace: the program returns the same value, or raises the same, with the same
random numbers, parameters and other traces as without it. -/
theorem C89_trace_transparent (W : World V B C) (f i : Nat) (hs : List (H V B)) (hi : .tracer i ∉ hs) (p : Prog V B C)
    (st : St V B C) : UptoR i (run W f (.tracer i :: hs) p st) (run W f hs p st) :=
  run_upto W f p (.drop (removed_self i hi)) st st ⟨rfl, rfl, fun _ _ => rfl⟩

/-! ## Replay -/

/-- No replay handler. -/
def NoReplay (hs : List (H V B)) : Prop := ∀ t, .replay t ∉ hs

/-- An observed value is returned, or the call is made again. -/
theorem down_observed (W : World V B C) {again : Dist B → St V B C → Option (Except Err (V × St V B C))} {n : Name}
    {P : V → St V B C → St V B C → Prop} (a : V) (hbase : ∀ st, P a st st)
    (hrec : ∀ v st st' j n m, P v st st' → P v st (st'.record j n m))
    (hag : ∀ d st v st', again d st = some (.ok (v, st')) → P v st st') :
    ∀ (r : List (H V B)), NoReplay r → ∀ d st v st', down W again n r d (some a) st = some (.ok (v, st')) → P v st st' := by
  intro r
  induction r with
  | nil => intro _ d st v st' h; simp [down] at h
  | cons x r ih =>
    intro hno d st v st' h
    have hno' : NoReplay r := fun t hm => hno t (by simp [hm])
    have hnat : ∀ {d st v st'}, (some (.ok (native W d (some a) st)) : Option (Except Err (V × St V B C))) =
        some (.ok (v, st')) → P v st st' := by
      intro d st v st' h
      simp only [native, Option.some.injEq, Except.ok.injEq, Prod.mk.injEq] at h
      obtain ⟨rfl, rfl⟩ := h
      exact hbase _
    cases x with
    | tracer j =>
      simp only [down] at h
      split at h
      · rename_i v1 st1 h1
        simp only [Option.some.injEq, Except.ok.injEq, Prod.mk.injEq] at h
        obtain ⟨rfl, rfl⟩ := h
        exact hrec _ _ _ _ _ _ (ih hno' d st v1 st1 h1)
      · rename_i hh; exact (hh v st' h).elim
    | replay t => exact (hno t (by simp)).elim
    | plate s k =>
      simp only [down] at h
      split at h
      · split at h
        · simp at h
        · exact hag _ _ _ _ h
      · exact ih hno' _ _ _ _ h
    | block hd =>
      simp only [down] at h
      split at h
      · exact hnat h
      · exact ih hno' _ _ _ _ h
    | runner j => exact hnat h

theorem sample_replayed (W : World V B C) {t : Trace V B} {pre post : List (H V B)} (hpre : Plates pre) (hpost : NoReplay post)
    {n : Name} {m : Msg V B} (hm : look n t = some m) : ∀ (f : Nat) (d : Dist B) (o : Option V) (st : St V B C) v st',
    sample W f (pre ++ .replay t :: post) n d o st = some (.ok (v, st')) → v = m.val ∧ st'.rng = st.rng ∧ st'.store = st.store := by
  intro f
  induction f with
  | zero => intro d o st v st' h; simp [sample] at h
  | succ f ih =>
    intro d o st v st' h
    simp only [sample] at h
    have hpl : ∀ p : List (H V B), Plates p → ∀ d o st v st',
        down W (fun d' st => sample W f (pre ++ .replay t :: post) n d' none st) n (p ++ .replay t :: post) d o st =
          some (.ok (v, st')) → v = m.val ∧ st'.rng = st.rng ∧ st'.store = st.store := by
      intro p
      induction p with
      | nil =>
        intro _ d o st v st' h
        simp only [List.nil_append, down, hm] at h
        exact down_observed W (P := fun v st st' => v = m.val ∧ st'.rng = st.rng ∧ st'.store = st.store) m.val
          (fun st => ⟨rfl, rfl, rfl⟩) (fun v st st' j n m h => h) (fun d st v st' h => ih d none st v st' h) post hpost
          d st v st' h
      | cons x p ihp =>
        intro hp d o st v st' h
        obtain ⟨s, k, rfl⟩ := hp x (by simp)
        simp only [List.cons_append, down] at h
        split at h
        · split at h
          · simp at h
          · exact ih _ _ _ _ _ h
        · exact ihp (fun y hy => hp y (by simp [hy])) _ _ _ _ _ h
    exact hpl pre hpre d o st v st' h

theorem nativeParam_rng (W : World V B C) {j : Nat} {n : Name} {init : Option V} {c : C} {st st' : St V B C} {v : V}
    (h : nativeParam W j n init c st = .ok (v, st')) : st'.rng = st.rng := by
  unfold nativeParam at h
  split at h
  · simp only [Except.ok.injEq, Prod.mk.injEq] at h; rw [← h.2]
  · split at h
    · cases h
    · simp only [Except.ok.injEq, Prod.mk.injEq] at h; rw [← h.2]

theorem param_rng (W : World V B C) {n : Name} {init : Option V} {c : C} : ∀ (r : List (H V B)) st v st',
    param W n init c r st = .ok (v, st') → st'.rng = st.rng := by
  intro r
  induction r with
  | nil => intro st v st' h; simp [param] at h
  | cons x r ih =>
    intro st v st' h
    cases x with
    | tracer j =>
      simp only [param] at h
      split at h
      · rename_i v1 st1 h1
        simp only [Except.ok.injEq, Prod.mk.injEq] at h
        obtain ⟨rfl, rfl⟩ := h
        exact ih st v1 st1 h1
      · cases h
    | replay t => exact ih _ _ _ h
    | plate s k => exact ih _ _ _ h
    | block hd =>
      simp only [param] at h
      split at h
      · exact nativeParam_rng W h
      · exact ih _ _ _ h
    | runner j => exact nativeParam_rng W h

theorem run_replayed (W : World V B C) (f : Nat) {t : Trace V B} {post : List (H V B)} (hpost : NoReplay post)
    (p : Prog V B C) : ∀ (pre : List (H V B)), Plates pre → ∀ st v st',
    run W f (pre ++ .replay t :: post) p st = some (.ok (v, st')) →
      ∃ l, Follows p l v ∧ (∀ n a, .sample n a ∈ l → ∀ m, look n t = some m → a = m.val) ∧
        ((∀ n a, .sample n a ∈ l → (look n t).isSome) → st'.rng = st.rng) := by
  induction p with
  | ret v =>
    intro pre _ st v' st' h
    simp only [run, Option.some.injEq, Except.ok.injEq, Prod.mk.injEq] at h
    obtain ⟨rfl, rfl⟩ := h
    exact ⟨[], .ret v, by simp, fun _ => rfl⟩
  | sample n d o k ih =>
    intro pre hpre st v st' h
    simp only [run] at h
    split at h
    · rename_i a st1 h1
      obtain ⟨l, hl, he, hr⟩ := ih a pre hpre st1 v st' h
      refine ⟨_, .sample hl, ?_, ?_⟩
      · intro n' a' hm m hlook
        rcases List.mem_cons.1 hm with e | e
        · cases e
          exact (sample_replayed W hpre hpost hlook f d o st a st1 h1).1
        · exact he n' a' e m hlook
      · intro hall
        have hn := hall n a (by simp)
        obtain ⟨m, hm⟩ := Option.isSome_iff_exists.1 hn
        rw [hr fun n' a' h => hall n' a' (by simp [h]), (sample_replayed W hpre hpost hm f d o st a st1 h1).2.1]
    · rename_i hno; exact (hno v st' h).elim
  | param n init c k ih =>
    intro pre hpre st v st' h
    simp only [run] at h
    split at h
    · rename_i a st1 h1
      obtain ⟨l, hl, he, hr⟩ := ih a pre hpre st1 v st' h
      refine ⟨_, .param hl, ?_, ?_⟩
      · intro n' a' hm m hlook
        rcases List.mem_cons.1 hm with e | e
        · cases e
        · exact he n' a' e m hlook
      · intro hall
        rw [hr fun n' a' h => hall n' a' (by simp [h]), param_rng W _ _ _ _ h1]
    · simp at h
  | plate s dim p k ihp ihk =>
    intro pre hpre st v st' h
    simp only [run] at h
    split at h
    · rename_i a st1 h1
      obtain ⟨l, hl, he, hr⟩ := ihp (.plate s dim :: pre) (plates_cons hpre s dim) st a st1 h1
      obtain ⟨m, hm, he', hr'⟩ := ihk a pre hpre st1 v st' h
      refine ⟨_, .plate hl hm, ?_, ?_⟩
      · intro n' a' hmem msg hlook
        rcases List.mem_append.1 hmem with e | e
        · exact he n' a' e msg hlook
        · exact he' n' a' e msg hlook
      · intro hall
        rw [hr' fun n' a' h => hall n' a' (by simp [h]), hr fun n' a' h => hall n' a' (by simp [h])]
    · rename_i hno; exact (hno v st' h).elim

/-- **C89.** Within `replay(t)`, if no other replay is outside: the program gets the values of the trace for all names that are in
it, also within plates; and if all are, no random number is used. -/
theorem C89_replay (W : World V B C) (f : Nat) (t : Trace V B) (hs : List (H V B)) (hno : NoReplay hs) (p : Prog V B C)
    (st : St V B C) {v : V} {st' : St V B C} (h : run W f (.replay t :: hs) p st = some (.ok (v, st'))) :
    ∃ l, Follows p l v ∧ (∀ n a, .sample n a ∈ l → ∀ m, look n t = some m → a = m.val) ∧
      ((∀ n a, .sample n a ∈ l → (look n t).isSome) → st'.rng = st.rng) :=
  run_replayed W f hno p [] (fun _ h => by simp at h) st v st' h

/-! ## Replaying a trace -/

theorem look_vals (n : Name) (t : Trace V B) : look n (vals t) = (look n t).map Msg.val := by
  induction t with
  | nil => rfl
  | cons p t ih =>
    obtain ⟨k, x⟩ := p
    simp only [vals, List.map_cons, look]
    split
    · rfl
    · exact ih

theorem look_answers_other (l : List (Call V)) : ∀ (t : List (Name × V)) (n : Name), n ∉ l.map Call.name →
    look n (answers t l) = look n t := by
  induction l with
  | nil => intro t n _; rfl
  | cons c l ih =>
    intro t n h
    simp only [List.map_cons, List.mem_cons, not_or] at h
    show look n (answers (put c.name c.val t) l) = _
    rw [ih _ n h.2, look_put, if_neg h.1]

theorem look_answers (l : List (Call V)) : ∀ (t : List (Name × V)), (l.map Call.name).Nodup → ∀ c ∈ l,
    look c.name (answers t l) = some c.val := by
  induction l with
  | nil => intro t _ c h; simp at h
  | cons c l ih =>
    intro t h c' hc
    simp only [List.map_cons, List.nodup_cons] at h
    show look c'.name (answers (put c.name c.val t) l) = _
    rcases List.mem_cons.1 hc with rfl | hc
    · rw [look_answers_other l _ _ h.1, look_put, if_pos rfl]
    · exact ih _ h.2 c' hc

/-- Two lists of calls agree: the same answers for the same names. -/
def Agree (l l' : List (Call V)) : Prop :=
  (∀ n a b, .sample n a ∈ l → .sample n b ∈ l' → a = b) ∧ (∀ n a b, .param n a ∈ l → .param n b ∈ l' → a = b)

theorem follows_det {p : Prog V B C} {l : List (Call V)} {v : V} (h : Follows p l v) : ∀ {l' r r' v'}, Follows p l' v' →
    Agree (l ++ r) (l' ++ r') → l = l' ∧ v = v' := by
  induction h with
  | ret v => intro l' r r' v' h' _; cases h'; exact ⟨rfl, rfl⟩
  | @sample n d o k a l v _ ih =>
    intro l' r r' v' h' hag
    cases h' with
    | @sample _ _ _ _ b l2 _ h2 =>
      have : a = b := hag.1 n a b (by simp) (by simp)
      subst this
      obtain ⟨rfl, rfl⟩ := ih (r := r) (r' := r') h2
        ⟨fun n a b h h' => hag.1 n a b (by simp_all) (by simp_all), fun n a b h h' => hag.2 n a b (by simp_all) (by simp_all)⟩
      exact ⟨rfl, rfl⟩
  | @param n i c k a l v _ ih =>
    intro l' r r' v' h' hag
    cases h' with
    | @param _ _ _ _ b l2 _ h2 =>
      have : a = b := hag.2 n a b (by simp) (by simp)
      subst this
      obtain ⟨rfl, rfl⟩ := ih (r := r) (r' := r') h2
        ⟨fun n a b h h' => hag.1 n a b (by simp_all) (by simp_all), fun n a b h h' => hag.2 n a b (by simp_all) (by simp_all)⟩
      exact ⟨rfl, rfl⟩
  | @plate s dim p k l m a v _ _ ih1 ih2 =>
    intro l' r r' v' h' hag
    cases h' with
    | @plate _ _ _ _ l2 m2 a2 _ h2 h3 =>
      obtain ⟨rfl, rfl⟩ := ih1 (r := m ++ r) (r' := m2 ++ r') h2 (by simpa only [List.append_assoc] using hag)
      obtain ⟨rfl, rfl⟩ := ih2 (r := r) (r' := r') h3
        ⟨fun n a b h h' => hag.1 n a b (by simp only [List.append_assoc, List.mem_append] at h h' ⊢; exact Or.inr h)
            (by simp only [List.append_assoc, List.mem_append] at h h' ⊢; exact Or.inr h'),
          fun n a b h h' => hag.2 n a b (by simp only [List.append_assoc, List.mem_append] at h h' ⊢; exact Or.inr h)
            (by simp only [List.append_assoc, List.mem_append] at h h' ⊢; exact Or.inr h')⟩
      exact ⟨rfl, rfl⟩

/-- **C89.** A run that is traced and replayed, in any state and under any other handlers: if the program makes no two calls with
the same name and has no parameters, it returns the same value again, and no random number is used. -/
theorem C89_replay_trace (W : World V B C) (f g i : Nat) (hs hs' : List (H V B)) (hi : .tracer i ∉ hs) (hno : NoReplay hs')
    (p : Prog V B C) (hp : ∀ l v, Follows p l v → (l.map Call.name).Nodup ∧ ∀ n a, .param n a ∉ l)
    (st st2 : St V B C) (h0 : st.traces i = []) {v v' : V} {st1 st3 : St V B C}
    (h1 : run W f (.tracer i :: hs) p st = some (.ok (v, st1)))
    (h2 : run W g (.replay (st1.traces i) :: hs') p st2 = some (.ok (v', st3))) : v' = v ∧ st3.rng = st2.rng := by
  obtain ⟨l, hl, he⟩ := C89_trace W f i hs hi p st h0 h1
  obtain ⟨l', hl', ha, hr⟩ := C89_replay W g (st1.traces i) hs' hno p st2 h2
  have hlook : ∀ n a, .sample n a ∈ l → ∃ m, look n (st1.traces i) = some m ∧ m.val = a := by
    intro n a hm
    have := look_answers l [] (hp l v hl).1 _ hm
    rw [← he, look_vals] at this
    simpa [Call.name, Call.val] using this
  have hag : Agree l l' := by
    refine ⟨fun n a b h h' => ?_, fun n a b h _ => ((hp l v hl).2 n a h).elim⟩
    obtain ⟨m, hm, rfl⟩ := hlook n a h
    exact (ha n b h' m hm).symm
  obtain ⟨rfl, rfl⟩ := follows_det hl (r := []) (r' := []) hl' (by simpa using hag)
  refine ⟨rfl, hr fun n a h => ?_⟩
  obtain ⟨m, hm, _⟩ := hlook n a h
  simp [hm]

/-! ## Block -/

/-- Tracers, replays and plates. -/
def Soft (i : Nat) (hs : List (H V B)) : Prop :=
  ∀ h ∈ hs, (∃ j, j ≠ i ∧ h = .tracer j) ∨ (∃ t, h = .replay t) ∨ ∃ s k, h = .plate s k

theorem soft_tail {i : Nat} {x : H V B} {hs : List (H V B)} (h : Soft i (x :: hs)) : Soft i hs :=
  fun y hy => h y (by simp [hy])

theorem soft_plate {i : Nat} {hs : List (H V B)} (h : Soft i hs) (s k : Nat) : Soft i (.plate s k :: hs) := by
  intro x hx
  rcases List.mem_cons.1 hx with rfl | hx
  · exact Or.inr (Or.inr ⟨s, k, rfl⟩)
  · exact h x hx

/-- `lambda op, *_, **__: op == sample` (417). -/
def hideSamples : Bool → Name → Bool := fun isSample _ => isSample

/-- The parameters of a list of calls, put in a trace. -/
def params (t : Trace V B) (l : List (Call V)) : Trace V B :=
  l.foldl (fun t c => match c with | .sample _ _ => t | .param n v => put n (.param v) t) t

theorem params_append (t : Trace V B) (l m : List (Call V)) : params t (l ++ m) = params (params t l) m := by
  simp [params, List.foldl_append]

theorem sample_blocked (W : World V B C) {i : Nat} {pre post : List (H V B)} (hpre : Soft i pre) (n : Name) : ∀ (f : Nat)
    (d : Dist B) (o : Option V) (st : St V B C) v st',
    sample W f (pre ++ .block hideSamples :: post) n d o st = some (.ok (v, st')) → st'.traces i = st.traces i := by
  intro f
  induction f with
  | zero => intro d o st v st' h; simp [sample] at h
  | succ f ih =>
    intro d o st v st' h
    simp only [sample] at h
    have hpl : ∀ p : List (H V B), Soft i p → ∀ d o st v st',
        down W (fun d' st => sample W f (pre ++ .block hideSamples :: post) n d' none st) n (p ++ .block hideSamples :: post)
          d o st = some (.ok (v, st')) → st'.traces i = st.traces i := by
      intro p
      induction p with
      | nil =>
        intro _ d o st v st' h
        simp only [List.nil_append, down, hideSamples, if_true, Option.some.injEq, Except.ok.injEq] at h
        cases o <;> simp only [native, Prod.mk.injEq] at h <;> rw [← h.2]
      | cons x p ihp =>
        intro hp d o st v st' h
        rcases hp x (by simp) with ⟨j, hj, rfl⟩ | ⟨t, rfl⟩ | ⟨s, k, rfl⟩
        · simp only [List.cons_append, down] at h
          split at h
          · rename_i v1 st1 h1
            simp only [Option.some.injEq, Except.ok.injEq, Prod.mk.injEq] at h
            obtain ⟨rfl, rfl⟩ := h
            rw [record_other _ (Ne.symm hj)]
            exact ihp (soft_tail hp) _ _ _ _ _ h1
          · rename_i hno; exact (hno v st' h).elim
        · simp only [List.cons_append, down] at h
          split at h
          · exact ihp (soft_tail hp) _ _ _ _ _ h
          · exact ihp (soft_tail hp) _ _ _ _ _ h
        · simp only [List.cons_append, down] at h
          split at h
          · split at h
            · simp at h
            · exact ih _ _ _ _ _ h
          · exact ihp (soft_tail hp) _ _ _ _ _ h
    exact hpl pre hpre d o st v st' h

theorem param_captured (W : World V B C) {n : Name} {init : Option V} {c : C} {i : Nat} {post : List (H V B)}
    (hpost : .tracer i ∉ post) : ∀ (pre : List (H V B)), Soft i pre → ∀ st v st',
    param W n init c (pre ++ .block hideSamples :: .tracer i :: post) st = .ok (v, st') →
      st'.traces i = put n (.param v) (st.traces i) := by
  intro pre
  induction pre with
  | nil =>
    intro _ st v st' h
    have h' : param W n init c (.tracer i :: post) st = .ok (v, st') := by
      simpa only [List.nil_append, param, hideSamples, Bool.false_eq_true, if_false] using h
    exact param_recorded W hpost [] (fun _ h => by simp at h) st v st' h'
  | cons x pre ih =>
    intro hp st v st' h
    rcases hp x (by simp) with ⟨j, hj, rfl⟩ | ⟨t, rfl⟩ | ⟨s, k, rfl⟩
    · simp only [List.cons_append, param] at h
      split at h
      · rename_i v1 st1 h1
        simp only [Except.ok.injEq, Prod.mk.injEq] at h
        obtain ⟨rfl, rfl⟩ := h
        rw [record_other _ (Ne.symm hj)]
        exact ih (soft_tail hp) _ _ _ h1
      · cases h
    · exact ih (soft_tail hp) _ _ _ h
    · exact ih (soft_tail hp) _ _ _ h

/-- **C89.** Within `trace()` and `block` that hides samples, also through further tracers, replays and plates: the trace gets
the parameters of the program with their last values, and nothing of its samples. -/
theorem C89_block (W : World V B C) (f : Nat) {i : Nat} {post : List (H V B)} (hpost : .tracer i ∉ post)
    (p : Prog V B C) : ∀ (pre : List (H V B)), Soft i pre → ∀ st v st',
    run W f (pre ++ .block hideSamples :: .tracer i :: post) p st = some (.ok (v, st')) →
      ∃ l, Follows p l v ∧ st'.traces i = params (st.traces i) l := by
  induction p with
  | ret v =>
    intro pre _ st v' st' h
    simp only [run, Option.some.injEq, Except.ok.injEq, Prod.mk.injEq] at h
    obtain ⟨rfl, rfl⟩ := h
    exact ⟨[], .ret v, rfl⟩
  | sample n d o k ih =>
    intro pre hpre st v st' h
    simp only [run] at h
    split at h
    · rename_i a st1 h1
      obtain ⟨l, hl, he⟩ := ih a pre hpre st1 v st' h
      refine ⟨_, .sample hl, ?_⟩
      rw [he, sample_blocked W hpre n f d o st a st1 h1]
      rfl
    · rename_i hno; exact (hno v st' h).elim
  | param n init c k ih =>
    intro pre hpre st v st' h
    simp only [run] at h
    split at h
    · rename_i a st1 h1
      obtain ⟨l, hl, he⟩ := ih a pre hpre st1 v st' h
      refine ⟨_, .param hl, ?_⟩
      rw [he, param_captured W hpost pre hpre st a st1 h1]
      rfl
    · simp at h
  | plate s dim p k ihp ihk =>
    intro pre hpre st v st' h
    simp only [run] at h
    split at h
    · rename_i a st1 h1
      obtain ⟨l, hl, he⟩ := ihp (.plate s dim :: pre) (soft_plate hpre s dim) st a st1 h1
      obtain ⟨m, hm, he'⟩ := ihk a pre hpre st1 v st' h
      refine ⟨_, .plate hl hm, ?_⟩
      rw [he', he, params_append]
    · rename_i hno; exact (hno v st' h).elim

/-- **C89.** What `SVI.step` captures: the parameters of the guide, then those of the model. -/
theorem C89_svi (W : World V B C) (logp : Dist B → V → Int) (f c i j : Nat) (hi : i ≠ c) (hj : j ≠ c) (model guide : Prog V B C)
    (hs : List (H V B)) (hc : .tracer c ∉ hs) (st : St V B C) (h0 : st.traces c = []) {x : Int} {st' : St V B C}
    (h : elbo W logp f i j model guide (.block hideSamples :: .tracer c :: hs) st = some (.ok (x, st'))) :
    ∃ lg vg lm vm, Follows guide lg vg ∧ Follows model lm vm ∧ st'.traces c = params [] (lg ++ lm) := by
  unfold elbo at h
  split at h
  · simp at h
  · simp at h
  · rename_i vg st1 h1
    split at h
    · simp at h
    · simp at h
    · rename_i vm st2 h2
      simp only [Option.some.injEq, Except.ok.injEq, Prod.mk.injEq] at h
      obtain ⟨-, rfl⟩ := h
      obtain ⟨lg, hg, eg⟩ := C89_block W f hc guide [.tracer i]
        (fun y hy => by simp only [List.mem_singleton] at hy; exact Or.inl ⟨i, hi, hy⟩) _ _ _ h1
      obtain ⟨lm, hm, em⟩ := C89_block W f hc model [.replay (st1.traces i), .tracer j]
        (fun y hy => by
          simp only [List.mem_cons, List.not_mem_nil, or_false] at hy
          rcases hy with rfl | rfl
          · exact Or.inr (Or.inl ⟨_, rfl⟩)
          · exact Or.inl ⟨j, hj, rfl⟩) _ _ _ h2
      refine ⟨lg, vg, lm, vm, hg, hm, ?_⟩
      rw [em, params_append]
      simp only [if_neg (Ne.symm hj)]
      rw [eg]
      simp only [if_neg (Ne.symm hi), h0]

/-! ## The evidence lower bound -/

/-- Programs without plates. -/
def Flat : Prog V B C → Prop
  | .ret _ => True
  | .sample _ _ _ k => ∀ v, Flat (k v)
  | .param _ _ _ k => ∀ v, Flat (k v)
  | .plate _ _ _ _ => False

/-- The program makes these calls, with the distribution of samples, and the answers. -/
inductive Logs : Prog V B C → List (Name × Option (Dist B) × V) → Prop where
  | ret (v : V) : Logs (.ret v) []
  | sample {n d o} {k : V → Prog V B C} {a l} : Logs (k a) l → Logs (.sample n d o k) ((n, some d, a) :: l)
  | param {n i c} {k : V → Prog V B C} {a l} : Logs (k a) l → Logs (.param n i c k) ((n, none, a) :: l)

/-- The log-density of samples. -/
def density (logp : Dist B → V → Int) (l : List (Name × Option (Dist B) × V)) : Int :=
  (l.map fun p => match p.2.1 with | some d => logp d p.2.2 | none => 0).sum

/-- A message without what was observed. -/
def Msg.view : Msg V B → Option (Dist B) × V
  | .sample v d _ => (some d, v)
  | .param v => (none, v)

def view (t : Trace V B) : List (Name × Option (Dist B) × V) := t.map fun p => (p.1, p.2.view)

theorem view_put (n : Name) (m : Msg V B) (t : Trace V B) : view (put n m t) = put n m.view (view t) := by
  induction t with
  | nil => rfl
  | cons p t ih =>
    obtain ⟨k, x⟩ := p
    simp only [put, view, List.map_cons]
    split
    · rfl
    · simp only [List.map_cons, List.cons.injEq, true_and]; exact ih

theorem total_view (logp : Dist B → V → Int) (t : Trace V B) : total logp t = density logp (view t) := by
  simp only [total, density, view, List.map_map]
  congr 1
  apply List.map_congr_left
  rintro ⟨k, m⟩ _
  cases m <;> rfl

/-- Replays. -/
def Replays (hs : List (H V B)) : Prop := ∀ h ∈ hs, ∃ t, h = .replay t

/-- The distribution that a tracer records is that of the call, also if plates outside expand it. -/
theorem sample_viewed (W : World V B C) {i : Nat} {pre post : List (H V B)} (hpre : Replays pre)
    (hpost : .tracer i ∉ post) (n : Name) : ∀ (f : Nat) (d : Dist B) (o : Option V) (st : St V B C) v st',
    sample W f (pre ++ .tracer i :: post) n d o st = some (.ok (v, st')) →
      view (st'.traces i) = put n (some d, v) (view (st.traces i)) := by
  intro f
  induction f with
  | zero => intro d o st v st' h; simp [sample] at h
  | succ f ih =>
    intro d o st v st' h
    simp only [sample] at h
    have hpl : ∀ p : List (H V B), Replays p → ∀ o st v st',
        down W (fun d' st => sample W f (pre ++ .tracer i :: post) n d' none st) n (p ++ .tracer i :: post) d o st =
          some (.ok (v, st')) → view (st'.traces i) = put n (some d, v) (view (st.traces i)) := by
      intro p
      induction p with
      | nil =>
        intro _ o st v st' h
        simp only [List.nil_append, down] at h
        split at h
        · rename_i v1 st1 h1
          simp only [Option.some.injEq, Except.ok.injEq, Prod.mk.injEq] at h
          obtain ⟨rfl, rfl⟩ := h
          rw [record_same, view_put]
          have := down_untouched W (i := i)
            (P := fun _ st st' => view (st'.traces i) = view (st.traces i) ∨
              ∃ x, view (st'.traces i) = put n x (view (st.traces i)))
            (fun v st st' h => Or.inl (by rw [h])) (fun v st st' st'' h e => by rw [e]; exact h)
            (fun d st v st' h => Or.inr ⟨_, ih d none st v st' h⟩) post hpost d o st v1 st1 h1
          rcases this with h | ⟨x, h⟩
          · rw [h]; rfl
          · rw [h, put_put]; rfl
        · rename_i hno; exact (hno v st' h).elim
      | cons x p ihp =>
        intro hp o st v st' h
        obtain ⟨t, rfl⟩ := hp x (by simp)
        have hp' : Replays p := fun y hy => hp y (by simp [hy])
        simp only [List.cons_append, down] at h
        split at h
        · exact ihp hp' _ _ _ _ h
        · exact ihp hp' _ _ _ _ h
    exact hpl pre hpre o st v st' h

theorem param_viewed (W : World V B C) {n : Name} {init : Option V} {c : C} {i : Nat} {post : List (H V B)}
    (hpost : .tracer i ∉ post) : ∀ (pre : List (H V B)), Replays pre → ∀ st v st',
    param W n init c (pre ++ .tracer i :: post) st = .ok (v, st') → st'.traces i = put n (.param v) (st.traces i) := by
  intro pre
  induction pre with
  | nil => intro _ st v st' h; exact param_recorded W hpost [] (fun _ h => by simp at h) st v st' h
  | cons x pre ih =>
    intro hp st v st' h
    obtain ⟨t, rfl⟩ := hp x (by simp)
    exact ih (fun y hy => hp y (by simp [hy])) st v st' h

/-- The dictionary of the calls. -/
def dict {α : Type} (t l : List (Name × α)) : List (Name × α) := l.foldl (fun t c => put c.1 c.2 t) t

theorem run_viewed (W : World V B C) (f : Nat) {i : Nat} {post pre : List (H V B)} (hpost : .tracer i ∉ post)
    (hpre : Replays pre) {Q : Name → V → Prop}
    (hQ : ∀ n d o st v st', sample W f (pre ++ .tracer i :: post) n d o st = some (.ok (v, st')) → Q n v)
    (p : Prog V B C) : Flat p → ∀ st v st', run W f (pre ++ .tracer i :: post) p st = some (.ok (v, st')) →
      ∃ l, Logs p l ∧ view (st'.traces i) = dict (view (st.traces i)) l ∧ ∀ n d a, (n, some d, a) ∈ l → Q n a := by
  induction p with
  | ret v =>
    intro _ st v' st' h
    simp only [run, Option.some.injEq, Except.ok.injEq, Prod.mk.injEq] at h
    obtain ⟨rfl, rfl⟩ := h
    exact ⟨[], .ret v, rfl, by simp⟩
  | sample n d o k ih =>
    intro hf st v st' h
    simp only [run] at h
    split at h
    · rename_i a st1 h1
      obtain ⟨l, hl, he, hq⟩ := ih a (hf a) st1 v st' h
      refine ⟨_, .sample hl, ?_, ?_⟩
      · rw [he, sample_viewed W hpre hpost n f d o st a st1 h1]; rfl
      · intro n' d' a' hm
        rcases List.mem_cons.1 hm with e | e
        · cases e; exact hQ _ _ _ _ _ _ h1
        · exact hq n' d' a' e
    · rename_i hno; exact (hno v st' h).elim
  | param n init c k ih =>
    intro hf st v st' h
    simp only [run] at h
    split at h
    · rename_i a st1 h1
      obtain ⟨l, hl, he, hq⟩ := ih a (hf a) st1 v st' h
      refine ⟨_, .param hl, ?_, ?_⟩
      · rw [he, param_viewed W hpost pre hpre st a st1 h1, view_put]; rfl
      · intro n' d' a' hm
        rcases List.mem_cons.1 hm with e | e
        · cases e
        · exact hq n' d' a' e
    · simp at h
  | plate s dim p k _ _ => intro hf; exact hf.elim

theorem put_new {α : Type} (n : Name) (a : α) (t : List (Name × α)) (h : n ∉ t.map Prod.fst) : put n a t = t ++ [(n, a)] := by
  induction t with
  | nil => rfl
  | cons p t ih =>
    obtain ⟨k, x⟩ := p
    simp only [List.map_cons, List.mem_cons, not_or] at h
    simp only [put, if_neg (Ne.symm h.1), List.cons_append, ih h.2]

theorem dict_nodup {α : Type} (l : List (Name × α)) : ∀ t : List (Name × α), ((t ++ l).map Prod.fst).Nodup →
    dict t l = t ++ l := by
  induction l with
  | nil => intro t _; simp [dict]
  | cons c l ih =>
    intro t h
    show dict (put c.1 c.2 t) l = _
    have hn : c.1 ∉ t.map Prod.fst := by
      intro hm
      rw [List.map_append, List.nodup_append] at h
      exact h.2.2 _ hm _ (by simp) rfl
    rw [put_new _ _ _ hn, ih _ (by simpa using h)]
    simp

theorem look_mem {α : Type} {n : Name} {a : α} {t : List (Name × α)} (hn : (t.map Prod.fst).Nodup) (h : (n, a) ∈ t) :
    look n t = some a := by
  induction t with
  | nil => simp at h
  | cons p t ih =>
    obtain ⟨k, x⟩ := p
    simp only [List.map_cons, List.nodup_cons] at hn
    rcases List.mem_cons.1 h with e | e
    · cases e; simp [look]
    · have : k ≠ n := by rintro rfl; exact hn.1 (List.mem_map.2 ⟨_, e, rfl⟩)
      simp only [look, if_neg this]
      exact ih hn.2 e

theorem look_view (n : Name) (t : Trace V B) : look n (view t) = (look n t).map Msg.view := by
  induction t with
  | nil => rfl
  | cons p t ih =>
    obtain ⟨k, x⟩ := p
    simp only [view, List.map_cons, look]
    split
    · rfl
    · exact ih

theorem view_val (m : Msg V B) : m.view.2 = m.val := by cases m <;> rfl

/-- **C89.** `elbo` of a model and a guide without plates, in which no name is used twice: the log-density of the guide's
samples under the guide less that of the model's samples under the model, where the model's samples are those of the guide. -/
theorem C89_elbo (W : World V B C) (logp : Dist B → V → Int) (f i j : Nat) (model guide : Prog V B C)
    (hfm : Flat model) (hfg : Flat guide) (hs : List (H V B)) (hi : .tracer i ∉ hs) (hj : .tracer j ∉ hs) (hno : NoReplay hs)
    (st : St V B C) {x : Int} {st' : St V B C} (h : elbo W logp f i j model guide hs st = some (.ok (x, st'))) :
    ∃ lg lm, Logs guide lg ∧ Logs model lm ∧ ((lg.map Prod.fst).Nodup → (lm.map Prod.fst).Nodup →
      x = density logp lg - density logp lm ∧ ∀ n d a e b, (n, some d, a) ∈ lm → (n, e, b) ∈ lg → a = b) := by
  unfold elbo at h
  split at h
  · simp at h
  · simp at h
  · rename_i vg st1 h1
    split at h
    · simp at h
    · simp at h
    · rename_i vm st2 h2
      simp only [Option.some.injEq, Except.ok.injEq, Prod.mk.injEq] at h
      obtain ⟨rfl, rfl⟩ := h
      obtain ⟨lg, hg, eg, -⟩ := run_viewed W f (pre := []) hi (fun _ h => by simp at h) (Q := fun _ _ => True)
        (fun _ _ _ _ _ _ _ => trivial) guide hfg _ _ _ h1
      have hno' : NoReplay (.tracer j :: hs) := by
        intro t hm
        rcases List.mem_cons.1 hm with e | e
        · cases e
        · exact hno t e
      obtain ⟨lm, hm, em, hq⟩ := run_viewed W f (pre := [.replay (st1.traces i)]) hj
        (fun y hy => ⟨_, List.mem_singleton.1 hy⟩) (Q := fun n v => ∀ m, look n (st1.traces i) = some m → v = m.val)
        (fun n d o st v st' h m hl => (sample_replayed W (pre := []) (fun _ h => by simp at h) hno' hl f d o st v st' h).1)
        model hfm _ _ _ h2
      refine ⟨lg, lm, hg, hm, fun ng nm => ?_⟩
      simp only [if_true] at eg em
      have eg' : view (st1.traces i) = lg := by rw [eg]; exact dict_nodup lg [] ng
      have em' : view (st2.traces j) = lm := by rw [em]; exact dict_nodup lm [] nm
      refine ⟨by rw [total_view, total_view, eg', em']; omega, fun n d a e b ha hb => ?_⟩
      have hl := look_mem ng hb
      rw [← eg', look_view] at hl
      cases hk : look n (st1.traces i) with
      | none => rw [hk] at hl; simp at hl
      | some m =>
        rw [hk] at hl
        simp only [Option.map_some, Option.some.injEq] at hl
        rw [hq n d a ha m hk, ← view_val, hl]

/-! ## Plates -/

theorem fits_refl (s : List Nat) : fits s s = true := by
  induction s with
  | nil => rfl
  | cons a s ih => simp [fits, ih]

theorem fits_trans : ∀ {a b c : List Nat}, fits a b = true → fits b c = true → fits a c = true
  | [], _, _, _, _ => rfl
  | _ :: _, [], _, h, _ => by simp [fits] at h
  | _ :: _, _ :: _, [], _, h => by simp [fits] at h
  | x :: a, y :: b, z :: c, h1, h2 => by
    simp only [fits, Bool.and_eq_true, Bool.or_eq_true, beq_iff_eq] at h1 h2 ⊢
    refine ⟨?_, fits_trans h1.2 h2.2⟩
    rcases h1.1 with e | e
    · exact Or.inl e
    · subst e; exact h2.1

theorem sample_plates (W : World V B C) {ps : List (H V B)} (hps : Plates ps) (j : Nat) (n : Name) : ∀ (f : Nat) (d : Dist B)
    (st : St V B C) v st', sample W f (ps ++ [.runner j]) n d none st = some (.ok (v, st')) →
    ∃ s, v = W.draw ⟨d.base, s⟩ st.rng ∧ st'.rng = st.rng + 1 ∧ fits d.rbatch s = true ∧
      ∀ size k, .plate size k ∈ ps → s[k]? = some size := by
  intro f
  induction f with
  | zero => intro d st v st' h; simp [sample] at h
  | succ f ih =>
    intro d st v st' h
    simp only [sample] at h
    have key : ∀ p : List (H V B), Plates p →
        (∀ size k, .plate size k ∈ ps → .plate size k ∈ p ∨ d.rbatch[k]? = some size) →
        down W (fun d' st => sample W f (ps ++ [.runner j]) n d' none st) n (p ++ [.runner j]) d none st = some (.ok (v, st')) →
        ∃ s, v = W.draw ⟨d.base, s⟩ st.rng ∧ st'.rng = st.rng + 1 ∧ fits d.rbatch s = true ∧
          ∀ size k, .plate size k ∈ ps → s[k]? = some size := by
      intro p
      induction p with
      | nil =>
        intro _ hall h
        simp only [List.nil_append, down, native, Option.some.injEq, Except.ok.injEq, Prod.mk.injEq] at h
        obtain ⟨rfl, rfl⟩ := h
        refine ⟨d.rbatch, rfl, rfl, fits_refl _, fun size k hm => ?_⟩
        rcases hall size k hm with h | h
        · simp at h
        · exact h
      | cons x p ihp =>
        intro hp hall h
        obtain ⟨s, k, rfl⟩ := hp x (by simp)
        simp only [List.cons_append, down] at h
        split at h
        · by_cases hf : fits d.rbatch (target s k d.rbatch) = true
          · simp only [Dist.expand, hf, if_true] at h
            obtain ⟨s', hv, hr, hfit, hall'⟩ := ih _ _ _ _ h
            exact ⟨s', hv, hr, fits_trans hf hfit, hall'⟩
          · simp [Dist.expand, hf] at h
        · rename_i hn
          refine ihp (fun y hy => hp y (by simp [hy])) (fun size k' hm => ?_) h
          rcases hall size k' hm with e | e
          · rcases List.mem_cons.1 e with e | e
            · cases e
              right
              simp only [needs, Bool.or_eq_true, decide_eq_true_eq, bne_iff_ne, not_or, not_not] at hn
              rw [List.getD_eq_getElem?_getD] at hn
              have hlt : k < d.rbatch.length := by omega
              rw [List.getElem?_eq_getElem hlt] at hn ⊢
              simpa using hn.2
            · exact Or.inl e
          · exact Or.inr e
    exact key ps hps (fun size k hm => Or.inl hm) h

/-- **C89.** A sample that is not observed, within plates: one sample of the distribution, expanded to a batch shape with the
size of each plate at its dimension. -/
theorem C89_plates (W : World V B C) {ps : List (H V B)} (hps : Plates ps) (j : Nat) (n : Name) (f : Nat) (d : Dist B)
    (st : St V B C) {v : V} {st' : St V B C} (h : sample W f (ps ++ [.runner j]) n d none st = some (.ok (v, st'))) :
    ∃ s, v = W.draw ⟨d.base, s⟩ st.rng ∧ st'.rng = st.rng + 1 ∧ fits d.rbatch s = true ∧
      ∀ size k, .plate size k ∈ ps → s[k]? = some size := sample_plates W hps j n f d st v st' h

/-- **C89.** An observed sample of which the batch shape has the size of the plate already: its observation reaches the handlers
outside. -/
theorem C89_plate_obs (W : World V B C) (f size k j : Nat) (n : Name) (d : Dist B) (a : V) (st : St V B C)
    (h : d.rbatch[k]? = some size) : sample W (f + 1) [.plate size k, .runner j] n d (some a) st = some (.ok (a, st)) := by
  obtain ⟨hlt, he⟩ := List.getElem?_eq_some_iff.1 h
  have : needs size k d.rbatch = false := by
    simp only [needs, List.getD_eq_getElem?_getD, h, Option.getD_some, bne_self_eq_false, Bool.or_false, decide_eq_false_iff_not]
    omega
  simp [sample, down, this, native]

/-- **C89, fails.** The observation of a sample that a plate expands is dropped: the call is as if nothing were observed. -/
theorem C89_plate_obs_fails (W : World V B C) (f size k : Nat) (hs : List (H V B)) (n : Name) (d : Dist B) (a : V)
    (st : St V B C) (h : d.rbatch[k]? ≠ some size) : sample W f (.plate size k :: hs) n d (some a) st =
      sample W f (.plate size k :: hs) n d none st := by
  cases f with
  | zero => rfl
  | succ f =>
    have : needs size k d.rbatch = true := by
      simp only [needs, Bool.or_eq_true, decide_eq_true_eq, bne_iff_ne, List.getD_eq_getElem?_getD]
      by_cases hlt : d.rbatch.length < k + 1
      · exact Or.inl hlt
      · right
        rw [List.getElem?_eq_getElem (by omega)] at h ⊢
        simpa using h
    simp [sample, down, this]

/-- **C89.** A plate ends with its block: what comes after it runs under the handlers outside. -/
theorem C89_plate_local (W : World V B C) (f size dim : Nat) (hs : List (H V B)) (p : Prog V B C) (k : V → Prog V B C)
    (st : St V B C) {v : V} {st' : St V B C} (h : run W f (.plate size dim :: hs) p st = some (.ok (v, st'))) :
    run W f hs (.plate size dim p k) st = run W f hs (k v) st' := by
  simp only [run, h]

/-! ## Seeds and stores -/

/-- **C89, fails.** `seed` never works: whatever handlers are installed and whatever is run within it, it raises. -/
theorem C89_seed_fails (s : Nat) (hs : List (H V B)) (body : St V B C → Except Err (V × St V B C)) (st : St V B C) :
    withSeed s hs body st = .error .noDefault := by
  have hset : ∀ (hs : List (H V B)) s (st : St V B C), setSeed s hs st = .error .noDefault := by
    intro hs
    induction hs with
    | nil => intro s st; rfl
    | cons x hs ih => intro s st; cases x <;> exact ih _ _
  have hget : ∀ (hs : List (H V B)) (st : St V B C), getSeed hs st = .error .noDefault ∨ ∃ r, getSeed hs st = .ok r := by
    intro hs
    induction hs with
    | nil => intro st; exact Or.inl rfl
    | cons x hs ih =>
      intro st
      cases x with
      | runner j => exact Or.inr ⟨_, rfl⟩
      | _ => exact ih st
  rcases hget hs st with h | ⟨r, h⟩
  · simp [withSeed, h]
  · simp [withSeed, h, hset]

/-- **C89.** A parameter keeps its first value: a second call returns what the first did, whatever initial value it is given. -/
theorem C89_param_kept (W : World V B C) (j : Nat) (n : Name) (init init' : Option V) (c c' : C) (st : St V B C) {v : V}
    {st' : St V B C} (h : param W n init c [.runner j] st = .ok (v, st')) :
    param W n init' c' [.runner j] st' = .ok (v, st') := by
  simp only [param, nativeParam] at h ⊢
  cases h1 : look n (st.store j) with
  | some p =>
    simp only [h1, Except.ok.injEq, Prod.mk.injEq] at h
    obtain ⟨rfl, rfl⟩ := h
    simp only [h1]
  | none =>
    cases init with
    | none => simp [h1] at h
    | some a =>
      simp only [h1, Except.ok.injEq, Prod.mk.injEq] at h
      obtain ⟨rfl, rfl⟩ := h
      simp only [if_true, look_put]

/-- **C89.** A given store that is not empty is used. -/
theorem C89_store (j fresh : Nat) (st : St V B C) (h : st.store j ≠ []) : initStore (some j) fresh st = j := by
  simp [initStore, h]

/-- **C89, fails.** A given store that is empty is not: parameters are put elsewhere, and it stays empty. -/
theorem C89_store_fails (W : World V B C) (j fresh : Nat) (hj : fresh ≠ j) (st : St V B C) (h : st.store j = []) (n : Name)
    (init : Option V) (c : C) {v : V} {st' : St V B C}
    (hr : param W n init c [.runner (initStore (some j) fresh st)] st = .ok (v, st')) : st'.store j = [] := by
  simp only [initStore, h, List.isEmpty_nil, if_true, param, nativeParam] at hr
  split at hr
  · simp only [Except.ok.injEq, Prod.mk.injEq] at hr; rw [← hr.2, h]
  · cases init with
    | none => cases hr
    | some a =>
      simp only [Except.ok.injEq, Prod.mk.injEq] at hr
      rw [← hr.2]
      simp [Ne.symm hj, h]

/-! ## Examples -/

/-- Samples are numbers: the base times ten, the state of the generator, and a hundred for each batch dimension. -/
def W0 : World Nat Nat Unit := ⟨fun d r => d.base * 10 + r + 100 * d.rbatch.length, fun _ v => v, fun _ v => v⟩

def st0 : St Nat Nat Unit := ⟨0, fun _ => [], fun _ => []⟩

/-- A parameter, and two samples. -/
def prog0 : Prog Nat Nat Unit := .param "p" (some 7) () fun p => .sample "x" ⟨p, []⟩ none fun x => .sample "y" ⟨x, []⟩ none .ret

/-- Two samples. -/
def prog1 : Prog Nat Nat Unit := .sample "x" ⟨1, []⟩ none fun x => .sample "y" ⟨x, []⟩ none .ret

/-- What comes out of a run. -/
def outcome (i : Nat) : Option (Except Err (Nat × St Nat Nat Unit)) → Option (Nat × Nat × List (Name × Nat))
  | some (.ok (v, st)) => some (v, st.rng, vals (st.traces i))
  | _ => none

example : outcome 1 (run W0 5 [.tracer 1, .runner 0] prog0 st0) = some (701, 2, [("p", 7), ("x", 70), ("y", 701)]) := by decide

example : outcome 1 (run W0 5 [.replay [("x", .param 3)], .runner 0] prog0 st0) = some (30, 1, []) := by decide

example : outcome 1 (run W0 5 [.block hideSamples, .tracer 1, .runner 0] prog0 st0) = some (701, 2, [("p", 7)]) := by decide

/-- Two plates. -/
example : outcome 1 (run W0 5 [.tracer 1, .runner 0] (.plate 2 0 (.plate 3 1 prog1 .ret) .ret) st0) =
    some (2301, 2, [("x", 210), ("y", 2301)]) := by decide

/-- A sample after a plate has no batch dimension. -/
example : outcome 1 (run W0 5 [.runner 0] (.plate 2 0 (.sample "x" ⟨1, []⟩ none .ret) fun _ => .sample "y" ⟨1, []⟩ none .ret) st0) =
    some (11, 2, []) := by decide

/-- The number of an `elbo`. -/
def number : Option (Except Err (Int × St Nat Nat Unit)) → Option Int
  | some (.ok (x, _)) => some x
  | _ => none

example : number (elbo W0 (fun d v => d.base + v) 5 1 2 prog1 (.sample "x" ⟨4, []⟩ none .ret) [.runner 0] st0) =
    some (44 - (41 + 441)) := by decide

/-- **C89, fails.** A name that is used twice: `elbo` has the log-density of the last sample only. -/
theorem C89_repeat_fails : ∃ (W : World Nat Nat Unit) (logp : Dist Nat → Nat → Int) (model guide : Prog Nat Nat Unit)
    (st : St Nat Nat Unit) (d : Dist Nat), Flat model ∧ Flat guide ∧ Logs guide [] ∧
    (∀ l, Logs model l → ∃ a b, l = [("x", some d, a), ("x", some d, b)]) ∧
    number (elbo W logp 5 1 2 model guide [.runner 0] st) = some (-1) ∧
    ∀ a b, (density logp [] - density logp [("x", some d, a), ("x", some d, b)] : Int) = -2 := by
  refine ⟨W0, fun _ _ => 1, .sample "x" ⟨1, []⟩ none fun _ => .sample "x" ⟨1, []⟩ none .ret, .ret 0, st0, ⟨1, []⟩,
    fun _ _ => trivial, trivial, .ret 0, ?_, by decide, fun a b => by simp [density]⟩
  intro l h
  cases h with
  | @sample _ _ _ _ a _ h =>
    cases h with
    | @sample _ _ _ _ b _ h => cases h; exact ⟨a, b, rfl⟩

/-- **C89, fails.** An observed sample does not always have the observed value: a trace that is replayed goes before it, and a
plate drops it. -/
theorem C89_observed_fails :
    outcome 1 (run W0 5 [.replay [("x", .param 3)], .runner 0] (.sample "x" ⟨1, []⟩ (some 5) .ret) st0) = some (3, 0, []) ∧
    outcome 1 (run W0 5 [.tracer 1, .runner 0] (.plate 2 0 (.sample "x" ⟨1, []⟩ (some 5) .ret) .ret) st0) =
      some (110, 1, [("x", 110)]) ∧
    outcome 1 (run W0 5 [.runner 0] (.sample "x" ⟨1, []⟩ (some 5) .ret) st0) = some (5, 0, []) := 
  ⟨by decide, by decide, by decide⟩

/-- The hypotheses of `C89_replay_trace` can be met. -/
example : ∀ l v, Follows prog1 l v → (l.map Call.name).Nodup ∧ ∀ n a, .param n a ∉ l := by
  intro l v h
  cases h with
  | sample h =>
    cases h with
    | sample h => cases h; exact ⟨by simp [Call.name], by simp⟩

/-- A plate that cannot expand: the batch shape has another size. -/
example : outcome 1 (run W0 5 [.runner 0] (.plate 2 0 (.sample "x" ⟨1, [3]⟩ none .ret) .ret) st0) = none := by decide

example : Flat prog0 ∧ Flat prog1 := ⟨fun _ _ _ => trivial, fun _ _ => trivial⟩

/-- A given store that is empty, and one that is not. -/
example : initStore (some 3) 9 st0 = 9 ∧ initStore (some 3) 9 { st0 with store := fun _ => [("p", 1, ())] } = 3 := by decide

end Verif.Examples.Minipyro
