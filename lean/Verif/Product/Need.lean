/-!
# C28: components of a product are computed at most once

Model of `CallByNeed` (`internals/product_n.py` 17-34), for any number of `CallByNeed` objects whose
functions may have effects, raise, and request each other (as the handlers of a product do).
-/

namespace Verif.Product.Need

/-- Bodies of the delayed functions: they read and change a world, raise, and call `CallByNeed` objects;
outcomes can be caught. -/
inductive Body (W V E : Type) where
  | ret (v : V)
  | raise (e : E)
  | act (f : W → W) (k : W → Body W V E)
  | call (i : Nat) (k : Except E V → Body W V E)

/-- What is recorded: the function of object `i` starts, it ends, and a request is answered. -/
inductive Event (V E : Type) where
  | start (i : Nat)
  | stop (i : Nat) (r : Except E V)
  | answer (i : Nat) (r : Except E V)

/-- The attributes `value` and `initialized` of each object (23-26). -/
structure St (W V E : Type) where
  world : W
  value : Nat → Option V
  initialized : Nat → Bool
  log : List (Event V E)

variable {W V E : Type}

def upd {α : Type} (f : Nat → α) (i : Nat) (a : α) : Nat → α := fun j => if j = i then a else f j

def St.add (s : St W V E) (e : Event V E) : St W V E := { s with log := s.log ++ [e] }

/-- Running a body; `body i` is the function of object `i`, with its arguments. -/
def run (body : Nat → Body W V E) : Nat → Body W V E → St W V E → Option (Except E V × St W V E)
  | 0, _, _ => none
  | _ + 1, .ret v, s => some (.ok v, s)
  | _ + 1, .raise e, s => some (.error e, s)
  | n + 1, .act f k, s => run body n (k (f s.world)) { s with world := f s.world }
  | n + 1, .call i k, s =>
    -- CallByNeed.__call__ (30-34)
    if s.initialized i then
      match s.value i with
      | some v => run body n (k (.ok v)) (s.add (.answer i (.ok v)))
      | none => none
    else
      match run body n (body i) (s.add (.start i)) with
      | none => none
      | some (.error e, s') =>
        run body n (k (.error e)) ((s'.add (.stop i (.error e))).add (.answer i (.error e)))
      | some (.ok v, s') =>
        let s'' : St W V E :=
          { s' with value := upd s'.value i (some v), initialized := upd s'.initialized i true }
        run body n (k (.ok v)) ((s''.add (.stop i (.ok v))).add (.answer i (.ok v)))

/-- New objects (23-28). -/
def init (w : W) : St W V E := ⟨w, fun _ => none, fun _ => false, []⟩

/-- A client that makes the requests `is` and ignores the answers. -/
def requests (v : V) : List Nat → Body W V E
  | [] => .ret v
  | i :: is => .call i (fun _ => requests v is)

/-! ## Specification -/

/-- A body that requests only objects of rank below `b`. -/
inductive Below (rank : Nat → Nat) (b : Nat) : Body W V E → Prop
  | ret (v) : Below rank b (.ret v)
  | raise (e) : Below rank b (.raise e)
  | act (f k) : (∀ w, Below rank b (k w)) → Below rank b (.act f k)
  | call (i k) : rank i < b → (∀ r, Below rank b (k r)) → Below rank b (.call i k)

/-- The requests between objects have no cycle, and the program `p` requests them in any way. -/
def Acyclic (body : Nat → Body W V E) (p : Body W V E) : Prop :=
  ∃ (rank : Nat → Nat) (b : Nat), (∀ i, Below rank (rank i) (body i)) ∧ Below rank b p

/-- The function of object `i` ended with a value. -/
def Done (l : List (Event V E)) (i : Nat) : List V :=
  l.filterMap (fun e => match e with
    | .stop j (.ok v) => if j = i then some v else none
    | _ => none)

/-- The values with which requests for `i` were answered. -/
def Answers (l : List (Event V E)) (i : Nat) : List V :=
  l.filterMap (fun e => match e with
    | .answer j (.ok v) => if j = i then some v else none
    | _ => none)

/-- The state of the objects agrees with the history. -/
structure Inv (s : St W V E) : Prop where
  done : ∀ i, s.initialized i = true → ∃ v, s.value i = some v ∧ Done s.log i = [v] ∧
    ∀ w ∈ Answers s.log i, w = v
  todo : ∀ i, s.initialized i = false → Done s.log i = [] ∧ Answers s.log i = []
  /-- the function does not start again once it has ended with a value -/
  order : ∀ (i : Nat) l1 l2, s.log = l1 ++ Event.start i :: l2 → Done l1 i = []
  /-- each exception is the one raised by the computation that the request started -/
  errors : ∀ (i : Nat) l1 l2 e, s.log = l1 ++ Event.answer i (.error e) :: l2 →
    ∃ l0, l1 = l0 ++ [.stop i (.error e)]

theorem Done_append (l l' : List (Event V E)) (i : Nat) : Done (l ++ l') i = Done l i ++ Done l' i := by
  simp [Done]

theorem Answers_append (l l' : List (Event V E)) (i : Nat) :
    Answers (l ++ l') i = Answers l i ++ Answers l' i := by
  simp [Answers]

theorem snoc_split {α : Type} {l l1 l2 : List α} {a b : α} (h : l ++ [a] = l1 ++ b :: l2) :
    (l = l1 ∧ a = b ∧ l2 = []) ∨ ∃ l3, l2 = l3 ++ [a] ∧ l = l1 ++ b :: l3 := by
  rcases List.eq_nil_or_concat l2 with h2 | ⟨l3, c, h2⟩
  · subst h2
    have := List.append_inj' h rfl
    simp at this
    exact .inl ⟨this.1, this.2, rfl⟩
  · subst h2
    have h' : l ++ [a] = (l1 ++ b :: l3) ++ [c] := by rw [h]; simp
    have := List.append_inj' h' rfl
    simp at this
    refine .inr ⟨l3, by simp [this.2], this.1⟩

/-- Only objects of rank below `b` are touched. -/
structure Frame (rank : Nat → Nat) (b : Nat) (s s' : St W V E) : Prop where
  value : ∀ i, b ≤ rank i → s'.value i = s.value i
  initialized : ∀ i, b ≤ rank i → s'.initialized i = s.initialized i
  mono : ∀ i, s.initialized i = true → s'.initialized i = true
  log : ∃ l, s'.log = s.log ++ l ∧ ∀ i, b ≤ rank i → Done l i = [] ∧ Answers l i = []

theorem Frame.refl (rank : Nat → Nat) (b : Nat) (s : St W V E) : Frame rank b s s :=
  ⟨fun _ _ => rfl, fun _ _ => rfl, fun _ h => h, [], by simp, fun _ _ => ⟨rfl, rfl⟩⟩

theorem Frame.trans {rank : Nat → Nat} {b : Nat} {s1 s2 s3 : St W V E} (h1 : Frame rank b s1 s2)
    (h2 : Frame rank b s2 s3) : Frame rank b s1 s3 := by
  obtain ⟨l, e, hl⟩ := h1.log
  obtain ⟨l', e', hl'⟩ := h2.log
  refine ⟨fun i hi => (h2.value i hi).trans (h1.value i hi),
    fun i hi => (h2.initialized i hi).trans (h1.initialized i hi),
    fun i hi => h2.mono i (h1.mono i hi), l ++ l', by rw [e', e]; simp, ?_⟩
  intro i hi
  rw [Done_append, Answers_append, (hl i hi).1, (hl i hi).2, (hl' i hi).1, (hl' i hi).2]
  simp

theorem Frame.weaken {rank : Nat → Nat} {b b' : Nat} {s s' : St W V E} (h : Frame rank b s s')
    (hb : b ≤ b') : Frame rank b' s s' := by
  obtain ⟨l, e, hl⟩ := h.log
  exact ⟨fun i hi => h.value i (by omega), fun i hi => h.initialized i (by omega), h.mono, l, e,
    fun i hi => hl i (by omega)⟩

/-- Recording the start of a function that has not ended with a value. -/
theorem inv_start {s : St W V E} {i : Nat} (h : Inv s) (hi : s.initialized i = false) :
    Inv (s.add (.start i)) := by
  have hd : ∀ j, Done (s.log ++ [Event.start i]) j = Done s.log j := by
    intro j; simp [Done]
  have ha : ∀ j, Answers (s.log ++ [Event.start i]) j = Answers s.log j := by
    intro j; simp [Answers]
  refine ⟨?_, ?_, ?_, ?_⟩
  · intro j hj
    simp only [St.add, hd, ha]
    exact h.done j hj
  · intro j hj
    simp only [St.add, hd, ha]
    exact h.todo j hj
  · intro j l1 l2 e
    rcases snoc_split e with ⟨e1, e2, -⟩ | ⟨l3, -, e1⟩
    · cases e2
      rw [← e1]
      exact (h.todo i hi).1
    · exact h.order j l1 l3 e1
  · intro j l1 l2 er e
    rcases snoc_split e with ⟨-, e2, -⟩ | ⟨l3, -, e1⟩
    · cases e2
    · exact h.errors j l1 l3 er e1

theorem frame_start (rank : Nat → Nat) (b : Nat) (s : St W V E) (i : Nat) :
    Frame rank b s (s.add (.start i)) :=
  ⟨fun _ _ => rfl, fun _ _ => rfl, fun _ h => h, [.start i], rfl, fun _ _ => ⟨rfl, rfl⟩⟩

theorem inv_error {s : St W V E} {i : Nat} {er : E} (h : Inv s) :
    Inv ((s.add (.stop i (.error er))).add (.answer i (.error er))) := by
  have hd : ∀ j, Done ((s.log ++ [Event.stop i (.error er)]) ++ [.answer i (.error er)]) j
      = Done s.log j := by
    intro j; simp [Done]
  have ha : ∀ j, Answers ((s.log ++ [Event.stop i (.error er)]) ++ [.answer i (.error er)]) j
      = Answers s.log j := by
    intro j; simp [Answers]
  refine ⟨?_, ?_, ?_, ?_⟩
  · intro j hj
    simp only [St.add, hd, ha]
    exact h.done j hj
  · intro j hj
    simp only [St.add, hd, ha]
    exact h.todo j hj
  · intro j l1 l2 e
    rcases snoc_split e with ⟨e1, e2, -⟩ | ⟨l3, -, e1⟩
    · cases e2
    · rcases snoc_split e1 with ⟨e3, e2, -⟩ | ⟨l4, -, e3⟩
      · cases e2
      · exact h.order j l1 l4 e3
  · intro j l1 l2 er' e
    rcases snoc_split e with ⟨e1, e2, -⟩ | ⟨l3, -, e1⟩
    · cases e2
      exact ⟨s.log, e1.symm⟩
    · rcases snoc_split e1 with ⟨e3, e2, -⟩ | ⟨l4, -, e3⟩
      · cases e2
      · exact h.errors j l1 l4 er' e3

theorem frame_error (rank : Nat → Nat) (b : Nat) (s : St W V E) (i : Nat) (er : E) :
    Frame rank b s ((s.add (.stop i (.error er))).add (.answer i (.error er))) :=
  ⟨fun _ _ => rfl, fun _ _ => rfl, fun _ h => h, [.stop i (.error er), .answer i (.error er)],
    by simp [St.add], fun _ _ => ⟨rfl, rfl⟩⟩

theorem inv_answer {s : St W V E} {i : Nat} {v : V} (h : Inv s) (hi : s.initialized i = true)
    (hv : s.value i = some v) : Inv (s.add (.answer i (.ok v))) := by
  have hd : ∀ j, Done (s.log ++ [Event.answer i (.ok v)]) j = Done s.log j := by
    intro j; simp [Done]
  have ha : ∀ j, Answers (s.log ++ [Event.answer i (.ok v)]) j
      = Answers s.log j ++ if i = j then [v] else [] := by
    intro j
    rw [Answers_append]
    by_cases hj : i = j <;> simp [Answers, hj]
  refine ⟨?_, ?_, ?_, ?_⟩
  · intro j hj
    simp only [St.add, hd, ha]
    obtain ⟨w, h1, h2, h3⟩ := h.done j hj
    refine ⟨w, h1, h2, ?_⟩
    intro x hx
    rcases List.mem_append.1 hx with hx | hx
    · exact h3 x hx
    · by_cases hij : i = j
      · subst hij
        simp at hx
        rw [hv] at h1
        cases h1
        exact hx
      · simp [hij] at hx
  · intro j hj
    simp only [St.add, hd, ha] at hj ⊢
    have hij : ¬ i = j := by
      intro e; subst e; rw [hi] at hj; cases hj
    simp [hij, h.todo j hj]
  · intro j l1 l2 e
    rcases snoc_split e with ⟨e1, e2, -⟩ | ⟨l3, -, e1⟩
    · cases e2
    · exact h.order j l1 l3 e1
  · intro j l1 l2 er' e
    rcases snoc_split e with ⟨e1, e2, -⟩ | ⟨l3, -, e1⟩
    · cases e2
    · exact h.errors j l1 l3 er' e1

theorem frame_answer {rank : Nat → Nat} {b : Nat} {s : St W V E} {i : Nat} {v : V}
    (hr : rank i < b) : Frame rank b s (s.add (.answer i (.ok v))) := by
  refine ⟨fun _ _ => rfl, fun _ _ => rfl, fun _ h => h, [.answer i (.ok v)], rfl, fun j hj => ?_⟩
  have : ¬ i = j := by intro e; subst e; omega
  simp [Done, Answers, this]

/-- The first value of an object. -/
def St.store (s : St W V E) (i : Nat) (v : V) : St W V E :=
  { s with value := upd s.value i (some v), initialized := upd s.initialized i true }

theorem inv_store {s : St W V E} {i : Nat} {v : V} (h : Inv s) (hi : s.initialized i = false) :
    Inv ((s.store i v).add (.stop i (.ok v))) := by
  have hd : ∀ j, Done (s.log ++ [Event.stop i (.ok v)]) j
      = Done s.log j ++ if i = j then [v] else [] := by
    intro j
    rw [Done_append]
    by_cases hj : i = j <;> simp [Done, hj]
  have ha : ∀ j, Answers (s.log ++ [Event.stop i (.ok v)]) j = Answers s.log j := by
    intro j; simp [Answers]
  refine ⟨?_, ?_, ?_, ?_⟩
  · intro j hj
    simp only [St.add, St.store, hd, ha, upd] at hj ⊢
    by_cases hij : j = i
    · subst hij
      refine ⟨v, by simp, ?_, ?_⟩
      · simp [(h.todo j hi).1]
      · rw [(h.todo j hi).2]
        intro w hw
        cases hw
    · have hji : ¬ i = j := fun e => hij e.symm
      simp only [hij, if_false] at hj
      simpa [hij, hji] using h.done j hj
  · intro j hj
    simp only [St.add, St.store, hd, ha, upd] at hj ⊢
    by_cases hij : j = i
    · simp [hij] at hj
    · have hji : ¬ i = j := fun e => hij e.symm
      simp only [hij, if_false] at hj
      simpa [hij, hji] using h.todo j hj
  · intro j l1 l2 e
    rcases snoc_split e with ⟨e1, e2, -⟩ | ⟨l3, -, e1⟩
    · cases e2
    · exact h.order j l1 l3 e1
  · intro j l1 l2 er' e
    rcases snoc_split e with ⟨e1, e2, -⟩ | ⟨l3, -, e1⟩
    · cases e2
    · exact h.errors j l1 l3 er' e1

theorem frame_store {rank : Nat → Nat} {b : Nat} {s : St W V E} {i : Nat} {v : V}
    (hr : rank i < b) : Frame rank b s ((s.store i v).add (.stop i (.ok v))) := by
  refine ⟨fun j hj => ?_, fun j hj => ?_, fun j h => ?_, [.stop i (.ok v)], rfl, fun j hj => ?_⟩
  · have : ¬ j = i := by intro e; subst e; omega
    simp [St.add, St.store, upd, this]
  · have : ¬ j = i := by intro e; subst e; omega
    simp [St.add, St.store, upd, this]
  · simp only [St.add, St.store, upd]
    split
    · rfl
    · exact h
  · have : ¬ i = j := by intro e; subst e; omega
    simp [Done, Answers, this]

theorem run_inv {body : Nat → Body W V E} {rank : Nat → Nat}
    (hb : ∀ i, Below rank (rank i) (body i)) :
    ∀ n b p s r s', Below rank b p → Inv s → run body n p s = some (r, s') →
      Inv s' ∧ Frame rank b s s' := by
  intro n
  induction n with
  | zero => intro b p s r s' _ _ e; cases e
  | succ n ih =>
    intro b p s r s' hp hi e
    cases hp with
    | ret v =>
      simp only [run, Option.some.injEq, Prod.mk.injEq] at e
      rw [← e.2]
      exact ⟨hi, Frame.refl _ _ _⟩
    | raise v =>
      simp only [run, Option.some.injEq, Prod.mk.injEq] at e
      rw [← e.2]
      exact ⟨hi, Frame.refl _ _ _⟩
    | act f k hk =>
      simp only [run] at e
      obtain ⟨h1, h2⟩ := ih b _ { s with world := f s.world } r s' (hk _)
        ⟨hi.done, hi.todo, hi.order, hi.errors⟩ e
      exact ⟨h1, ⟨h2.value, h2.initialized, h2.mono, h2.log⟩⟩
    | call i k hr hk =>
      simp only [run] at e
      split at e
      · next hini =>
        split at e
        · next v hv =>
          obtain ⟨h1, h2⟩ := ih b _ _ r s' (hk _) (inv_answer hi hini hv) e
          exact ⟨h1, (frame_answer hr).trans h2⟩
        · cases e
      · next hini =>
        have hini : s.initialized i = false := by simpa using hini
        split at e
        · cases e
        · next er s1 h1 =>
          obtain ⟨k1, k2⟩ := ih (rank i) _ _ _ s1 (hb i) (inv_start hi hini) h1
          obtain ⟨k3, k4⟩ := ih b _ _ r s' (hk _) (inv_error k1) e
          exact ⟨k3, (frame_start rank b s i).trans
            ((k2.weaken (by omega)).trans ((frame_error rank b s1 i er).trans k4))⟩
        · next v s1 h1 =>
          obtain ⟨k1, k2⟩ := ih (rank i) _ _ _ s1 (hb i) (inv_start hi hini) h1
          have hi1 : s1.initialized i = false := by
            rw [k2.initialized i (Nat.le_refl _)]
            exact hini
          have hst : Inv (((s1.store i v).add (.stop i (.ok v))).add (.answer i (.ok v))) :=
            inv_answer (inv_store k1 hi1) (by simp [St.add, St.store, upd])
              (by simp [St.add, St.store, upd])
          obtain ⟨k3, k4⟩ := ih b _ _ r s' (hk _) hst e
          exact ⟨k3, (frame_start rank b s i).trans ((k2.weaken (by omega)).trans
            ((frame_store hr).trans ((frame_answer hr).trans k4)))⟩

theorem init_inv (w : W) : Inv (init w : St W V E) :=
  ⟨fun _ h => (by cases h), fun _ _ => ⟨rfl, rfl⟩, fun i l1 l2 h => (by simp [init] at h),
    fun i l1 l2 e h => (by simp [init] at h)⟩

/-- **C28 (partial).** Let the requests between components have no cycle. In every program that
requests new components, with any effects in between: the computation of each component ends with a value at most
once and never starts again after that; all requests answered with a value are answered with that value;
a request that raises does so because the computation that it started raised the same exception; and a
component is marked as computed exactly if its computation has ended with a value. -/
theorem C28_once_partial (body : Nat → Body W V E) (p : Body W V E) (h : Acyclic body p) (n : Nat)
    (w : W) (r : Except E V) (s : St W V E) (e : run body n p (init w) = some (r, s)) (i : Nat) :
    (Done s.log i).length ≤ 1 ∧
    (∀ a ∈ Answers s.log i, Done s.log i = [a]) ∧
    (∀ l1 l2, s.log = l1 ++ .start i :: l2 → Done l1 i = []) ∧
    (∀ l1 l2 er, s.log = l1 ++ .answer i (.error er) :: l2 → ∃ l0, l1 = l0 ++ [.stop i (.error er)]) ∧
    (s.initialized i = true ↔ Done s.log i ≠ []) := by
  obtain ⟨rank, b, hb, hb'⟩ := h
  obtain ⟨hi, -⟩ := run_inv hb n b _ _ _ _ hb' (init_inv w) e
  cases hini : s.initialized i with
  | true =>
    obtain ⟨x, -, h2, h3⟩ := hi.done i hini
    refine ⟨(by rw [h2]; simp), fun a ha => (by rw [h2, h3 a ha]), hi.order i, hi.errors i, ?_⟩
    rw [h2]; simp
  | false =>
    obtain ⟨h1, h2⟩ := hi.todo i hini
    refine ⟨(by rw [h1]; simp), fun a ha => (by rw [h2] at ha; cases ha), hi.order i, hi.errors i, ?_⟩
    rw [h1]; simp

/-! ## Examples -/

/-- Object 0 counts its runs, and raises the first time; object 1 requests object 0. -/
def exBody : Nat → Body Nat Nat Nat
  | 0 => .act (· + 1) (fun w => if w = 1 then .raise 9 else .ret w)
  | 1 => .call 0 (fun r => match r with
    | .ok v => .ret (v + 10)
    | .error e => .raise e)
  | _ => .ret 0

example : Acyclic exBody (requests 0 [1, 0, 1, 0]) := by
  refine ⟨fun i => i, 2, fun i => ?_,
    .call _ _ (by decide) (fun _ => .call _ _ (by decide) (fun _ => .call _ _ (by decide)
      (fun _ => .call _ _ (by decide) (fun _ => .ret _))))⟩
  match i with
  | 0 => exact .act _ _ (fun w => by split; exact .raise _; exact .ret _)
  | 1 => exact .call 0 _ (by decide) (fun r => by cases r; exact .raise _; exact .ret _)
  | _ + 2 => exact .ret _

example : (run exBody 20 (requests 0 [1, 0, 1, 0]) (init 0)).map (fun x => x.2.log) = some
    [.start 1, .start 0, .stop 0 (.error 9), .answer 0 (.error 9), .stop 1 (.error 9),
      .answer 1 (.error 9), .start 0, .stop 0 (.ok 2), .answer 0 (.ok 2), .start 1, .answer 0 (.ok 2),
      .stop 1 (.ok 12), .answer 1 (.ok 12), .answer 0 (.ok 2)] := by rfl

/-- **C28 fails** for a component that requests itself: it is computed twice, and the requests get
different values. -/
theorem C28_reentrant_fails : ∃ body : Nat → Body Nat Nat Nat,
    (run body 20 (requests 0 [0, 0]) (init 0)).map
      (fun x => (Done x.2.log 0, Answers x.2.log 0)) = some ([5, 6], [5, 6, 6]) :=
  ⟨fun _ => .act (· + 1) (fun w => if w = 1 then .call 0 (fun _ => .ret 6) else .ret 5), rfl⟩

end Verif.Product.Need
