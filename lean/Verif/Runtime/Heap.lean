import Verif.Runtime.Lemmas

/-!
# Dict objects and the runtime (C13)

Interpretations are mutable dicts.  The model has a heap of dict objects, user variables that
refer to them, and the reference held by the runtime.
-/

namespace Verif.Runtime

variable {W : Type}



/-- What user code can do. Variables are numbers. -/
inductive HEv (W : Type) : Type where
  /-- `x = {}` -/
  | new (x : Nat)
  /-- `x = y` (aliasing) -/
  | alias (x y : Nat)
  /-- `x[o] = f` -/
  | setitem (x : Nat) (o : UOp) (f : Fn W)
  /-- `x.clear()` -/
  | clear (x : Nat)
  /-- `x = coproduct(y, z)` -/
  | coprod (x y z : Nat)
  /-- `handler(x).__enter__()` -/
  | enterHandler (x : Nat)
  /-- `interpreter(x).__enter__()` -/
  | enterInterp (x : Nat)
  /-- leave the innermost block -/
  | exit
  /-- call an operation: looks up its handler -/
  | call (o : UOp)
  /-- look at one's own dict -/
  | read (x : Nat)

/-- What is observed. -/
inductive HOut (W : Type) : Type where
  | handlerOf (c : Option (Clo W))
  | contents (d : Intp W)

/-- The state of the process: objects (allocated so far: the first `next`), variables,
`r.interpretation` and the `old_intp` of the open blocks — all references. -/
structure HSt (W : Type) where
  next : Nat
  obj : Nat → Intp W
  vars : Nat → Option Nat
  cur : Nat
  frames : List Nat

/-- Allocate a dict with given contents. -/
def HSt.alloc (s : HSt W) (d : Intp W) : HSt W × Nat :=
  ({ s with next := s.next + 1, obj := fun r => if r = s.next then d else s.obj r }, s.next)

/-- Set the contents of an object. -/
def HSt.write (s : HSt W) (r : Nat) (d : Intp W) : HSt W :=
  { s with obj := fun r' => if r' = r then d else s.obj r' }

/-- One step (`internals/runtime.py` 25-33: `interpreter` installs `dict(intp)`, a copy;
`ops/semantics.py` 88-103: `coproduct` builds a new dict `res = dict(intp)`;
`ops/semantics.py` 106-115: `handler`). An undefined variable: nothing happens. -/
def hstep (s : HSt W) : HEv W → HSt W × List (HOut W)
  | .new x =>
    let (s1, r) := s.alloc []
    ({ s1 with vars := fun v => if v = x then some r else s1.vars v }, [])
  | .alias x y => ({ s with vars := fun v => if v = x then s.vars y else s.vars v }, [])
  | .setitem x o f =>
    match s.vars x with
    | none => (s, [])
    | some r => (s.write r ((s.obj r).set (.usr o) (.fn f)), [])
  | .clear x =>
    match s.vars x with
    | none => (s, [])
    | some r => (s.write r [], [])
  | .coprod x y z =>
    match s.vars y, s.vars z with
    | some a, some b =>
      let (s1, r) := s.alloc (coproduct (s.obj a) (s.obj b))
      ({ s1 with vars := fun v => if v = x then some r else s1.vars v }, [])
    | _, _ => (s, [])
  | .enterHandler x =>
    match s.vars x with
    | none => (s, [])
    | some r =>
      -- `coproduct` allocates `res`; `interpreter` copies it once more
      let (s1, r1) := s.alloc (coproduct (s.obj s.cur) (s.obj r))
      let (s2, r2) := s1.alloc (s1.obj r1)
      ({ s2 with cur := r2, frames := s.cur :: s.frames }, [])
  | .enterInterp x =>
    match s.vars x with
    | none => (s, [])
    | some r =>
      let (s1, r1) := s.alloc (s.obj r)
      ({ s1 with cur := r1, frames := s.cur :: s.frames }, [])
  | .exit =>
    match s.frames with
    | [] => (s, [])
    | r :: fs => ({ s with cur := r, frames := fs }, [])
  | .call o => (s, [.handlerOf ((s.obj s.cur).get (.usr o))])
  | .read x =>
    match s.vars x with
    | none => (s, [])
    | some r => (s, [.contents (s.obj r)])

def hruns : HSt W → List (HEv W) → List (HOut W)
  | _, [] => []
  | s, e :: evs => let (s1, o) := hstep s e; o ++ hruns s1 evs

/-- Start: the runtime holds its own empty dict. -/
def HSt.start : HSt W := ⟨1, fun _ => [], fun _ => none, 0, []⟩

/-! ## Specification: interpretations are captured by value -/

/-- User objects, and interpretations as values. `next` only names objects (it skips the names
that the implementation uses for its own copies). -/
structure VSt (W : Type) where
  next : Nat
  obj : Nat → Intp W
  vars : Nat → Option Nat
  cur : Intp W
  frames : List (Intp W)

/-- One step: entering a block captures the contents of the dict at that moment; it touches no
user object. -/
def vstep (s : VSt W) : HEv W → VSt W × List (HOut W)
  | .new x => ({ s with
      next := s.next + 1
      obj := fun r => if r = s.next then [] else s.obj r
      vars := fun v => if v = x then some s.next else s.vars v }, [])
  | .alias x y => ({ s with vars := fun v => if v = x then s.vars y else s.vars v }, [])
  | .setitem x o f =>
    match s.vars x with
    | none => (s, [])
    | some r => ({ s with obj := fun r' =>
        if r' = r then (s.obj r).set (.usr o) (.fn f) else s.obj r' }, [])
  | .clear x =>
    match s.vars x with
    | none => (s, [])
    | some r => ({ s with obj := fun r' => if r' = r then [] else s.obj r' }, [])
  | .coprod x y z =>
    match s.vars y, s.vars z with
    | some a, some b => ({ s with
        next := s.next + 1
        obj := fun r => if r = s.next then coproduct (s.obj a) (s.obj b) else s.obj r
        vars := fun v => if v = x then some s.next else s.vars v }, [])
    | _, _ => (s, [])
  | .enterHandler x =>
    match s.vars x with
    | none => (s, [])
    | some r => ({ s with
        next := s.next + 2
        cur := coproduct s.cur (s.obj r)
        frames := s.cur :: s.frames }, [])
  | .enterInterp x =>
    match s.vars x with
    | none => (s, [])
    | some r => ({ s with
        next := s.next + 1
        cur := s.obj r
        frames := s.cur :: s.frames }, [])
  | .exit =>
    match s.frames with
    | [] => (s, [])
    | i :: fs => ({ s with cur := i, frames := fs }, [])
  | .call o => (s, [.handlerOf (s.cur.get (.usr o))])
  | .read x =>
    match s.vars x with
    | none => (s, [])
    | some r => (s, [.contents (s.obj r)])

def vruns : VSt W → List (HEv W) → List (HOut W)
  | _, [] => []
  | s, e :: evs => let (s1, o) := vstep s e; o ++ vruns s1 evs

def VSt.start : VSt W := ⟨1, fun _ => [], fun _ => none, [], []⟩

/-! ## Refinement -/

/-- The runtime's references are allocated and are not reachable from user variables. -/
structure HRel (s : HSt W) (v : VSt W) : Prop where
  next : s.next = v.next
  vars : s.vars = v.vars
  obj : ∀ x r, s.vars x = some r → s.obj r = v.obj r
  alloc : ∀ x r, s.vars x = some r → r < s.next
  cur : s.obj s.cur = v.cur
  curAlloc : s.cur < s.next
  curFresh : ∀ x, s.vars x ≠ some s.cur
  frames : s.frames.map s.obj = v.frames
  framesAlloc : ∀ r ∈ s.frames, r < s.next
  framesFresh : ∀ r ∈ s.frames, ∀ x, s.vars x ≠ some r

theorem map_obj_congr {s : List Nat} {f g : Nat → Intp W} (h : ∀ r ∈ s, f r = g r) :
    s.map f = s.map g := List.map_congr_left h

theorem hstep_rel {s : HSt W} {v : VSt W} (h : HRel s v) (e : HEv W) :
    HRel (hstep s e).1 (vstep v e).1 ∧ (hstep s e).2 = (vstep v e).2 := by
  obtain ⟨hn, hv, ho, ha, hc, hca, hcf, hf, hfa, hff⟩ := h
  have ne_cur : ∀ {x r}, s.vars x = some r → s.cur ≠ r := fun hx e => hcf _ (e ▸ hx)
  have ne_fr : ∀ {x r q}, s.vars x = some r → q ∈ s.frames → q ≠ r :=
    fun hx hq e => hff _ hq _ (e ▸ hx)
  cases e with
  | new x =>
    refine ⟨?_, rfl⟩
    simp only [hstep, vstep, HSt.alloc]
    constructor
    · simp [hn]
    · simp [hv, hn]
    · intro y r hy
      simp only at hy ⊢
      by_cases hyx : y = x
      · simp only [hyx, if_true, Option.some.injEq] at hy
        subst hy; simp [hn]
      · simp only [hyx, if_false] at hy
        have := ha _ _ hy
        have h1 : r ≠ s.next := by omega
        have h2 : r ≠ v.next := by rw [← hn]; exact h1
        simp only [h1, h2, if_false]
        exact ho _ _ hy
    · intro y r hy
      simp only at hy ⊢
      by_cases hyx : y = x
      · simp only [hyx, if_true, Option.some.injEq] at hy; omega
      · simp only [hyx, if_false] at hy; have := ha _ _ hy; omega
    · have h1 : s.cur ≠ s.next := by omega
      simp only [h1, if_false]; exact hc
    · simp only; omega
    · intro y
      simp only
      by_cases hyx : y = x
      · simp only [hyx, if_true, ne_eq, Option.some.injEq]; omega
      · simp only [hyx, if_false]; exact hcf y
    · rw [← hf]
      apply map_obj_congr
      intro r hr
      have := hfa r hr
      have h1 : r ≠ s.next := by omega
      simp only [h1, if_false]
    · intro r hr; have := hfa r hr; simp only; omega
    · intro r hr y
      simp only
      have := hfa r hr
      by_cases hyx : y = x
      · simp only [hyx, if_true, ne_eq, Option.some.injEq]; omega
      · simp only [hyx, if_false]; exact hff r hr y
  | alias x y =>
    refine ⟨?_, rfl⟩
    simp only [hstep, vstep]
    constructor
    · exact hn
    · simp [hv]
    · intro z r hz
      simp only at hz
      by_cases hzx : z = x
      · simp only [hzx, if_true] at hz; exact ho _ _ hz
      · simp only [hzx, if_false] at hz; exact ho _ _ hz
    · intro z r hz
      simp only at hz
      by_cases hzx : z = x
      · simp only [hzx, if_true] at hz; exact ha _ _ hz
      · simp only [hzx, if_false] at hz; exact ha _ _ hz
    · exact hc
    · exact hca
    · intro z
      simp only
      by_cases hzx : z = x
      · simp only [hzx, if_true]; exact hcf y
      · simp only [hzx, if_false]; exact hcf z
    · exact hf
    · exact hfa
    · intro r hr z
      simp only
      by_cases hzx : z = x
      · simp only [hzx, if_true]; exact hff r hr y
      · simp only [hzx, if_false]; exact hff r hr z
  | setitem x o f =>
    simp only [hstep, vstep, ← hv]
    cases hx : s.vars x with
    | none => exact ⟨⟨hn, hv, ho, ha, hc, hca, hcf, hf, hfa, hff⟩, rfl⟩
    | some r =>
      refine ⟨?_, rfl⟩
      simp only [HSt.write]
      constructor
      · exact hn
      · rfl
      · intro y q hy
        simp only
        by_cases hq : q = r
        · simp only [hq, if_true]; rw [ho _ _ hx]
        · simp only [hq, if_false]; exact ho _ _ hy
      · exact ha
      · simp only [ne_cur hx, if_false]; exact hc
      · exact hca
      · exact hcf
      · rw [← hf]
        apply map_obj_congr
        intro q hq
        simp only [ne_fr hx hq, if_false]
      · exact hfa
      · exact hff
  | clear x =>
    simp only [hstep, vstep, ← hv]
    cases hx : s.vars x with
    | none => exact ⟨⟨hn, hv, ho, ha, hc, hca, hcf, hf, hfa, hff⟩, rfl⟩
    | some r =>
      refine ⟨?_, rfl⟩
      simp only [HSt.write]
      constructor
      · exact hn
      · rfl
      · intro y q hy
        simp only
        by_cases hq : q = r
        · simp only [hq, if_true]
        · simp only [hq, if_false]; exact ho _ _ hy
      · exact ha
      · simp only [ne_cur hx, if_false]; exact hc
      · exact hca
      · exact hcf
      · rw [← hf]
        apply map_obj_congr
        intro q hq
        simp only [ne_fr hx hq, if_false]
      · exact hfa
      · exact hff
  | coprod x y z =>
    simp only [hstep, vstep, ← hv]
    cases hy : s.vars y with
    | none => exact ⟨⟨hn, hv, ho, ha, hc, hca, hcf, hf, hfa, hff⟩, rfl⟩
    | some a =>
    cases hz : s.vars z with
    | none => exact ⟨⟨hn, hv, ho, ha, hc, hca, hcf, hf, hfa, hff⟩, rfl⟩
    | some b =>
    refine ⟨?_, rfl⟩
    simp only [HSt.alloc]
    constructor
    · simp [hn]
    · simp [hv, hn]
    · intro y' r hy'
      simp only at hy' ⊢
      by_cases hyx : y' = x
      · simp only [hyx, if_true, Option.some.injEq] at hy'
        subst hy'; simp [hn, ho _ _ hy, ho _ _ hz]
      · simp only [hyx, if_false] at hy'
        have := ha _ _ hy'
        have h1 : r ≠ s.next := by omega
        have h2 : r ≠ v.next := by rw [← hn]; exact h1
        simp only [h1, h2, if_false]
        exact ho _ _ hy'
    · intro y' r hy'
      simp only at hy' ⊢
      by_cases hyx : y' = x
      · simp only [hyx, if_true, Option.some.injEq] at hy'; omega
      · simp only [hyx, if_false] at hy'; have := ha _ _ hy'; omega
    · have h1 : s.cur ≠ s.next := by omega
      simp only [h1, if_false]; exact hc
    · simp only; omega
    · intro y'
      simp only
      by_cases hyx : y' = x
      · simp only [hyx, if_true, ne_eq, Option.some.injEq]; omega
      · simp only [hyx, if_false]; exact hcf y'
    · rw [← hf]
      apply map_obj_congr
      intro r hr
      have := hfa r hr
      have h1 : r ≠ s.next := by omega
      simp only [h1, if_false]
    · intro r hr; have := hfa r hr; simp only; omega
    · intro r hr y'
      simp only
      have := hfa r hr
      by_cases hyx : y' = x
      · simp only [hyx, if_true, ne_eq, Option.some.injEq]; omega
      · simp only [hyx, if_false]; exact hff r hr y'
  | enterHandler x =>
    simp only [hstep, vstep, ← hv]
    cases hx : s.vars x with
    | none => exact ⟨⟨hn, hv, ho, ha, hc, hca, hcf, hf, hfa, hff⟩, rfl⟩
    | some r =>
      refine ⟨?_, rfl⟩
      simp only [HSt.alloc]
      have objEq : ∀ q, q < s.next → (if q = s.next + 1 then
          (if True then coproduct (s.obj s.cur) (s.obj r) else s.obj s.next)
          else if q = s.next then coproduct (s.obj s.cur) (s.obj r) else s.obj q) = s.obj q := by
        intro q hq
        have h1 : q ≠ s.next := by omega
        have h2 : q ≠ s.next + 1 := by omega
        simp only [h1, h2, if_false]
      constructor
      · simp [hn]
      · rfl
      · intro y q hy
        simp only
        rw [objEq q (ha _ _ hy)]
        exact ho _ _ hy
      · intro y q hy; have := ha _ _ hy; simp only; omega
      · simp [hc, ho _ _ hx]
      · simp only; omega
      · intro y e
        simp only at e
        have := ha _ _ e; omega
      · simp only [List.map_cons]
        rw [objEq _ hca, map_obj_congr (fun q hq => objEq q (hfa q hq)), hc, hf]
      · intro q hq
        simp only [List.mem_cons] at hq
        simp only
        rcases hq with rfl | hq
        · omega
        · have := hfa q hq; omega
      · intro q hq y
        simp only [List.mem_cons] at hq
        simp only
        rcases hq with rfl | hq
        · exact hcf y
        · exact hff q hq y
  | enterInterp x =>
    simp only [hstep, vstep, ← hv]
    cases hx : s.vars x with
    | none => exact ⟨⟨hn, hv, ho, ha, hc, hca, hcf, hf, hfa, hff⟩, rfl⟩
    | some r =>
      refine ⟨?_, rfl⟩
      simp only [HSt.alloc]
      have objEq : ∀ q, q < s.next → (if q = s.next then s.obj r else s.obj q) = s.obj q := by
        intro q hq
        have h1 : q ≠ s.next := by omega
        simp only [h1, if_false]
      constructor
      · simp [hn]
      · rfl
      · intro y q hy
        simp only
        rw [objEq q (ha _ _ hy)]
        exact ho _ _ hy
      · intro y q hy; have := ha _ _ hy; simp only; omega
      · simp [ho _ _ hx]
      · simp only; omega
      · intro y e
        simp only at e
        have := ha _ _ e; omega
      · simp only [List.map_cons]
        rw [objEq _ hca, map_obj_congr (fun q hq => objEq q (hfa q hq)), hc, hf]
      · intro q hq
        simp only [List.mem_cons] at hq
        simp only
        rcases hq with rfl | hq
        · omega
        · have := hfa q hq; omega
      · intro q hq y
        simp only [List.mem_cons] at hq
        simp only
        rcases hq with rfl | hq
        · exact hcf y
        · exact hff q hq y
  | exit =>
    simp only [hstep, vstep]
    cases hfr : s.frames with
    | nil =>
      rw [hfr] at hf
      simp only [List.map_nil] at hf
      rw [← hf]
      refine ⟨⟨hn, hv, ho, ha, hc, hca, hcf, ?_, hfa, hff⟩, rfl⟩
      rw [hfr, ← hf]; rfl
    | cons r fs =>
      rw [hfr] at hf
      simp only [List.map_cons] at hf
      rw [← hf]
      have hr : r ∈ s.frames := by rw [hfr]; simp
      have hsub : ∀ q ∈ fs, q ∈ s.frames := fun q hq => by rw [hfr]; simp [hq]
      exact ⟨⟨hn, hv, ho, ha, rfl, hfa r hr, hff r hr, rfl,
        fun q hq => hfa q (hsub q hq), fun q hq => hff q (hsub q hq)⟩, rfl⟩
  | call o =>
    refine ⟨⟨hn, hv, ho, ha, hc, hca, hcf, hf, hfa, hff⟩, ?_⟩
    simp only [hstep, vstep, hc]
  | read x =>
    simp only [hstep, vstep, ← hv]
    cases hx : s.vars x with
    | none => exact ⟨⟨hn, hv, ho, ha, hc, hca, hcf, hf, hfa, hff⟩, rfl⟩
    | some r =>
      refine ⟨⟨hn, hv, ho, ha, hc, hca, hcf, hf, hfa, hff⟩, ?_⟩
      simp only [ho _ _ hx]

theorem hruns_rel {s : HSt W} {v : VSt W} (h : HRel s v) (evs : List (HEv W)) :
    hruns s evs = vruns v evs := by
  induction evs generalizing s v with
  | nil => rfl
  | cons e evs ih =>
    obtain ⟨h1, h2⟩ := hstep_rel h e
    simp only [hruns, vruns]
    rw [h2, ih h1]

theorem HRel.start : HRel (HSt.start : HSt W) VSt.start := by
  constructor <;> simp [HSt.start, VSt.start]

/-- C13: whatever user code does with its dicts (updates, aliases, coproducts, blocks, calls), it
observes the same as if every block and coproduct had captured the contents of its dicts by value
when it was entered or built, and as if entering a block touched no dict of the user. -/
theorem C13_captured_on_entry (evs : List (HEv W)) :
    hruns HSt.start evs = vruns VSt.start evs :=
  hruns_rel HRel.start evs

/-- The state after a history. -/
def hafter (evs : List (HEv W)) : HSt W := evs.foldl (fun s e => (hstep s e).1) HSt.start

theorem hafter_rel (evs : List (HEv W)) :
    HRel (hafter evs) (evs.foldl (fun s e => (vstep s e).1) VSt.start) := by
  have : ∀ (s : HSt W) (v : VSt W), HRel s v →
      HRel (evs.foldl (fun s e => (hstep s e).1) s) (evs.foldl (fun s e => (vstep s e).1) v) := by
    induction evs with
    | nil => exact fun _ _ h => h
    | cons e evs ih => exact fun s v h => ih _ _ (hstep_rel h e).1
  exact this _ _ HRel.start

/-- C13, consequence stated on its own: at any point of any history, updating or clearing a dict
does not change the handler that a call finds. -/
theorem C13_update_after_entry (evs : List (HEv W)) (x : Nat) (o o' : UOp) (f : Fn W) :
    (hstep (hstep (hafter evs) (.setitem x o f)).1 (.call o')).2 =
      (hstep (hafter evs) (.call o')).2 ∧
    (hstep (hstep (hafter evs) (.clear x)).1 (.call o')).2 = (hstep (hafter evs) (.call o')).2 := by
  have h := hafter_rel evs
  generalize evs.foldl (fun s e => (vstep s e).1) VSt.start = v at h
  constructor
  · rw [(hstep_rel (hstep_rel h _).1 _).2, (hstep_rel h _).2]
    simp only [vstep]
    cases v.vars x <;> rfl
  · rw [(hstep_rel (hstep_rel h _).1 _).2, (hstep_rel h _).2]
    simp only [vstep]
    cases v.vars x <;> rfl

/-- C13, consequence stated on its own: entering a block (or leaving one) changes no dict of the
user. -/
theorem C13_blocks_touch_no_dict (evs : List (HEv W)) (e : HEv W) (x : Nat)
    (he : (∃ y, e = .enterHandler y) ∨ (∃ y, e = .enterInterp y) ∨ e = .exit) :
    (hstep (hstep (hafter evs) e).1 (.read x)).2 = (hstep (hafter evs) (.read x)).2 := by
  have h := hafter_rel evs
  generalize evs.foldl (fun s e => (vstep s e).1) VSt.start = v at h
  rw [(hstep_rel (hstep_rel h _).1 _).2, (hstep_rel h _).2]
  rcases he with ⟨y, rfl⟩ | ⟨y, rfl⟩ | rfl
  · simp only [vstep]; cases v.vars y <;> simp only <;> cases v.vars x <;> rfl
  · simp only [vstep]; cases v.vars y <;> simp only <;> cases v.vars x <;> rfl
  · simp only [vstep]; cases v.frames <;> simp only <;> cases v.vars x <;> rfl

/-- C02, last part: building a coproduct leaves the dicts it was built from, and every other dict,
unchanged. -/
theorem C02_arguments_unchanged (evs : List (HEv W)) (x y z w : Nat) (hw : w ≠ x) :
    (hstep (hstep (hafter evs) (.coprod x y z)).1 (.read w)).2 =
      (hstep (hafter evs) (.read w)).2 := by
  have h := hafter_rel evs
  generalize evs.foldl (fun s e => (vstep s e).1) VSt.start = v at h
  rw [(hstep_rel (hstep_rel h _).1 _).2, (hstep_rel h _).2]
  have hlt : ∀ r, v.vars w = some r → r ≠ v.next := by
    intro r hr e
    have := h.alloc w r (by rw [h.vars]; exact hr)
    rw [h.next, e] at this
    omega
  simp only [vstep]
  cases v.vars y <;> cases v.vars z <;> simp only [hw, if_false] <;>
    cases hr : v.vars w <;> simp only
  rw [if_neg (hlt _ hr)]

/-- C02, example: the coproduct of two dicts for the same operation; both are as before. -/
example (o : UOp) (f g : Fn W) : hruns HSt.start
    [.new 0, .setitem 0 o f, .new 1, .setitem 1 o g, .coprod 2 0 1, .read 0, .read 1] =
    [.contents [(.usr o, .fn f)], .contents [(.usr o, .fn g)]] := by
  simp [hruns, hstep, HSt.start, HSt.alloc, HSt.write, Intp.set]

/-- C13, example: build a dict, alias it, enter a block with it, update it through the alias; the
call still finds the old handler, and the dict has the new one. -/
example (o : UOp) (f g : Fn W) : hruns HSt.start
    [.new 0, .setitem 0 o f, .alias 1 0, .enterInterp 0, .setitem 1 o g, .call o, .read 0] =
    [.handlerOf (some (.fn f)), .contents [(.usr o, .fn g)]] := by
  simp [hruns, hstep, HSt.start, HSt.alloc, HSt.write, Intp.set, Intp.get]

end Verif.Runtime
