import Verif.Runtime.Lemmas

/-!
# Threads and suspended blocks (C10, C12)

Blocks are entered and left by separate events, so that generators, coroutines and threads can
interleave them.
-/

namespace Verif.Runtime

variable {W : Type}

/-- The two kinds of blocks: `with handler(i)` (`ops/semantics.py` 106-115) and
`with interpreter(i)` (`internals/runtime.py` 25-33). -/
inductive Block (W : Type) : Type where
  | handler (i : IExpr W)
  | interpreter (i : IExpr W)

/-- The interpretation that a block installs over the current one. -/
def Block.install : Block W → Intp W → Intp W
  | .handler i, cur => coproduct cur i.compile
  | .interpreter i, _ => i.compile

/-! ## One thread, blocks with identities (C12) -/

/-- Events of one thread. `enter n b`: the generator object `n` of a block runs up to its
`yield`; `exit n`: its `finally` clause runs. -/
inductive Ev (W : Type) : Type where
  | enter (n : Nat) (b : Block W)
  | exit (n : Nat)

/-- State of a thread: `r.interpretation`, and for each suspended block its local variable
`old_intp` (`internals/runtime.py` 28). -/
structure BSt (W : Type) where
  cur : Intp W
  old : List (Nat × Intp W)

/-- Local variable `old_intp` of block `n`. -/
def BSt.saved (s : BSt W) (n : Nat) : Option (Intp W) := (s.old.find? (fun e => e.1 = n)).map (·.2)

/-- Effect of an event (`internals/runtime.py` 27-33). -/
def bstep (s : BSt W) : Ev W → BSt W
  | .enter n b => ⟨b.install s.cur, (n, s.cur) :: s.old⟩
  | .exit n =>
    match s.saved n with
    | some i => ⟨i, s.old.filter (fun e => e.1 ≠ n)⟩
    | none => s

/-- Run a history from the start of a thread. -/
def bruns (evs : List (Ev W)) : BSt W := evs.foldl bstep ⟨[], []⟩

/-- Specification: the blocks that are open after a history, innermost (latest) first. -/
def openBlocks : List (Ev W) → List (Nat × Block W) → List (Nat × Block W)
  | [], open_ => open_
  | .enter n b :: evs, open_ => openBlocks evs ((n, b) :: open_)
  | .exit n :: evs, open_ => openBlocks evs (open_.filter (fun e => e.1 ≠ n))

/-- Specification: the expression whose value should be in force inside the given open blocks
(innermost first): a handler block extends what is outside, an interpreter block hides it. -/
def expected : List (Block W) → IExpr W
  | [] => .nil
  | .handler i :: bs => .coprod (expected bs) i
  | .interpreter i :: _ => i

/-- The interpretation given by a list of open blocks, innermost first. -/
def ofBlocks (bs : List (Nat × Block W)) : Intp W := (expected (bs.map Prod.snd)).compile

theorem install_expected (b : Block W) (bs : List (Block W)) :
    b.install (expected bs).compile = (expected (b :: bs)).compile := by
  cases b <;> rfl

/-- A history in which each block is entered once with a new identity and only the innermost
open block is ever left, as in code without suspended blocks. -/
inductive WellNested : List (Ev W) → List (Nat × Block W) → Prop where
  | nil {o} : WellNested [] o
  | enter {n b evs o} : n ∉ o.map Prod.fst → WellNested evs ((n, b) :: o) →
      WellNested (.enter n b :: evs) o
  | exit {n b evs o} : WellNested evs o → WellNested (.exit n :: evs) ((n, b) :: o)

/-- Saved variables of well-nested open blocks. -/
def savedOf : List (Nat × Block W) → List (Nat × Intp W)
  | [] => []
  | (n, _) :: bs => (n, ofBlocks bs) :: savedOf bs

theorem savedOf_fst (bs : List (Nat × Block W)) : (savedOf bs).map Prod.fst = bs.map Prod.fst := by
  induction bs with
  | nil => rfl
  | cons e bs ih => obtain ⟨n, b⟩ := e; simp [savedOf, ih]

theorem filter_fresh {α : Type} (l : List (Nat × α)) (n : Nat) (h : n ∉ l.map Prod.fst) :
    l.filter (fun e => e.1 ≠ n) = l := by
  rw [List.filter_eq_self]
  intro e he
  simp only [ne_eq, decide_not, Bool.not_eq_eq_eq_not, Bool.not_true, decide_eq_false_iff_not]
  rintro rfl
  exact h (List.mem_map_of_mem he)

theorem wellNested_run (evs : List (Ev W)) (o : List (Nat × Block W)) (hd : (o.map Prod.fst).Nodup)
    (h : WellNested evs o) :
    evs.foldl bstep ⟨ofBlocks o, savedOf o⟩ =
      ⟨ofBlocks (openBlocks evs o), savedOf (openBlocks evs o)⟩ := by
  induction h with
  | nil => rfl
  | @enter n b evs o hn _ ih =>
    rw [List.foldl_cons]
    have e : bstep (⟨ofBlocks o, savedOf o⟩ : BSt W) (.enter n b) =
        ⟨ofBlocks ((n, b) :: o), savedOf ((n, b) :: o)⟩ := by
      simp only [bstep, savedOf, ofBlocks, List.map_cons]
      rw [install_expected]
    rw [e]
    exact ih (by simp only [List.map_cons, List.nodup_cons]; exact ⟨hn, hd⟩)
  | @exit n b evs o h ih =>
    simp only [List.map_cons, List.nodup_cons] at hd
    rw [List.foldl_cons]
    have h1 : o.filter (fun e => e.1 ≠ n) = o := filter_fresh o n hd.1
    have h2 : (savedOf o).filter (fun e => e.1 ≠ n) = savedOf o :=
      filter_fresh _ n (by rw [savedOf_fst]; exact hd.1)
    have : bstep (⟨ofBlocks ((n, b) :: o), savedOf ((n, b) :: o)⟩ : BSt W) (.exit n) =
        ⟨ofBlocks o, savedOf o⟩ := by
      simp [bstep, BSt.saved, savedOf] at h2 ⊢
      exact h2
    rw [this]
    have e : openBlocks (.exit n :: evs) ((n, b) :: o) = openBlocks evs o := by
      show openBlocks evs (((n, b) :: o).filter (fun e => e.1 ≠ n)) = _
      rw [List.filter_cons_of_neg (by simp), h1]
    rw [e]
    exact ih hd.2

/-- C12 (partial): as long as only the innermost open block is left, the interpretation in force
is the one given by the open blocks. Missing: blocks left in another order
(`C12_overlapping_blocks_fails`). -/
theorem C12_open_blocks_partial (evs : List (Ev W)) (h : WellNested evs []) :
    (bruns evs).cur = ofBlocks (openBlocks evs []) := by
  have := wellNested_run evs [] (by simp) h
  unfold bruns
  rw [show (⟨[], []⟩ : BSt W) = ⟨ofBlocks [], savedOf []⟩ from rfl, this]

/-- C12, example: a well-nested history with an open block at the end. -/
example (i j k : IExpr W) : WellNested
    [.enter 0 (.handler i), .enter 1 (.interpreter j), .exit 1, .enter 2 (.handler k)] [] :=
  .enter (by simp) (.enter (by simp) (.exit (.enter (by simp) .nil)))

/-- C12 fails for overlapping blocks (two suspended generators): enter A, enter B, leave A,
leave B.  After A is left, B is open but its handlers are gone; after both are left, the handlers
of A are in force although no block is open. -/
theorem C12_overlapping_blocks_fails (o : UOp) (f : Fn W) :
    let A : Ev W := .enter 0 (.handler (.bind .nil o f))
    let B : Ev W := .enter 1 (.handler (.bind .nil o f))
    (bruns [A, B, .exit 0]).cur = [] ∧ openBlocks [A, B, .exit 0] [] ≠ [] ∧
    openBlocks [A, B, .exit 0, .exit 1] [] = [] ∧
      (bruns [A, B, .exit 0, .exit 1]).cur ≠ [] := by
  refine ⟨rfl, by simp [openBlocks], rfl, ?_⟩
  simp [bruns, bstep, BSt.saved, Block.install, IExpr.compile, Intp.set, coproduct,
    coproductStep, Intp.get]

/-! ## Threads (C10) -/

/-- A step of a thread: enter a block, leave its innermost block (threads without suspended
blocks), or call an operation / look at the interpretation. -/
inductive TEv (W : Type) : Type where
  | enter (b : Block W)
  | exit
  | look

/-- State of all threads. `attr t` is the attribute `interpretation` that thread `t` has on the
`threading.local` object `Runtime`, once it has touched it (`internals/runtime.py` 11-18);
`frames t` are the local variables `old_intp` of its open blocks.  `init` is the argument `{}` that
`threading.local` passes to `__init__` again in each thread; it is shared by all threads. -/
structure TSt (W : Type) where
  init : Intp W
  attr : Nat → Option (Intp W)
  frames : Nat → List (Intp W)

/-- `get_interpretation()` in thread `t` (`internals/runtime.py` 16-22): on first access
`threading.local` runs `__init__` with the original arguments. -/
def TSt.cur (s : TSt W) (t : Nat) : Intp W := (s.attr t).getD s.init

def TSt.put (s : TSt W) (t : Nat) (i : Intp W) (fs : List (Intp W)) : TSt W :=
  { s with
    attr := fun t' => if t' = t then some i else s.attr t'
    frames := fun t' => if t' = t then fs else s.frames t' }

/-- One step of thread `t`; `look` reports the interpretation that a call would use. -/
def tstep (s : TSt W) (t : Nat) : TEv W → TSt W × List (Nat × Intp W)
  | .enter b => (s.put t (b.install (s.cur t)) (s.cur t :: s.frames t), [])
  | .exit =>
    match s.frames t with
    | [] => (s, [])
    | i :: fs => (s.put t i fs, [])
  | .look => (s.put t (s.cur t) (s.frames t), [(t, s.cur t)])

/-- Run an interleaving; returns what was looked up, by whom, in order. -/
def truns : TSt W → List (Nat × TEv W) → TSt W × List (Nat × Intp W)
  | s, [] => (s, [])
  | s, (t, e) :: sched =>
    let (s1, o1) := tstep s t e
    let (s2, o2) := truns s1 sched
    (s2, o1 ++ o2)

/-- No thread has touched the runtime yet. -/
def TSt.start : TSt W := ⟨[], fun _ => none, fun _ => []⟩

/-- Specification: what thread `t` alone sees, from its own blocks (innermost first). -/
def aloneLooks : List (Block W) → List (TEv W) → List (Intp W)
  | _, [] => []
  | bs, .enter b :: evs => aloneLooks (b :: bs) evs
  | bs, .exit :: evs => aloneLooks bs.tail evs
  | bs, .look :: evs => (expected bs).compile :: aloneLooks bs evs

/-- The interpretations below each open block. -/
def below : List (Block W) → List (Intp W)
  | [] => []
  | _ :: bs => (expected bs).compile :: below bs

theorem truns_proj (t : Nat) (sched : List (Nat × TEv W)) (s : TSt W) (bs : List (Block W))
    (hinit : s.init = []) (hc : s.cur t = (expected bs).compile) (hf : s.frames t = below bs) :
    ((truns s sched).2.filter (fun e => e.1 = t)).map Prod.snd =
      aloneLooks bs ((sched.filter (fun e => e.1 = t)).map Prod.snd) := by
  induction sched generalizing s bs with
  | nil => rfl
  | cons e sched ih =>
    obtain ⟨t', e⟩ := e
    by_cases ht : t' = t
    · subst ht
      cases e with
      | enter b =>
        have := ih (s.put t' (b.install (s.cur t')) (s.cur t' :: s.frames t')) (b :: bs) hinit
          (by rw [← install_expected, ← hc]; simp [TSt.put, TSt.cur])
          (by simp [TSt.put, below, hc, hf])
        simpa [truns, tstep, aloneLooks] using this
      | exit =>
        cases bs with
        | nil =>
          have hfr : s.frames t' = [] := hf
          have := ih s [] hinit hc hf
          simpa [truns, tstep, aloneLooks, hfr] using this
        | cons b bs =>
          have hfr : s.frames t' = (expected bs).compile :: below bs := hf
          have := ih (s.put t' ((expected bs).compile) (below bs)) bs hinit
            (by simp [TSt.put, TSt.cur]) (by simp [TSt.put])
          simpa [truns, tstep, aloneLooks, hfr] using this
      | look =>
        have := ih (s.put t' (s.cur t') (s.frames t')) bs hinit
          (by simp [TSt.put, TSt.cur] ; rw [← hc]; rfl) (by simp [TSt.put, hf])
        simp [truns, tstep, aloneLooks, hc]
        rw [hc] at this
        simpa using this
    · have key : ∀ s1 o1, tstep s t' e = (s1, o1) → s1.init = s.init ∧ s1.cur t = s.cur t ∧
          s1.frames t = s.frames t ∧ o1.filter (fun e => e.1 = t) = [] := by
        intro s1 o1 h
        have ht' : ¬ t = t' := fun e => ht e.symm
        cases e with
        | enter b => simp [tstep] at h; obtain ⟨rfl, rfl⟩ := h; simp [TSt.put, TSt.cur, ht']
        | exit =>
          simp only [tstep] at h
          split at h
          · cases h; simp
          · cases h; simp [TSt.put, TSt.cur, ht']
        | look => simp [tstep] at h; obtain ⟨rfl, rfl⟩ := h; simp [TSt.put, TSt.cur, ht', ht]
      generalize hst : tstep s t' e = q
      obtain ⟨s1, o1⟩ := q
      obtain ⟨k1, k2, k3, k4⟩ := key s1 o1 hst
      have := ih s1 bs (k1.trans hinit) (k2.trans hc) (k3.trans hf)
      simp [truns, hst, ht]
      simp at k4
      rw [List.filter_eq_nil_iff.2 (by intro a ha; simpa using k4 _ _ ha)]
      simpa using this

/-- C10: for every interleaving of any number of threads, what a thread sees at each of its steps
is determined by the blocks that it entered and left itself; a new thread starts with no
handlers. -/
theorem C10_thread_local (sched : List (Nat × TEv W)) (t : Nat) :
    ((truns TSt.start sched).2.filter (fun e => e.1 = t)).map Prod.snd =
      aloneLooks [] ((sched.filter (fun e => e.1 = t)).map Prod.snd) :=
  truns_proj t sched TSt.start [] rfl rfl rfl

/-- C10, example: thread 1 enters a block between two looks of thread 0; thread 2 is new. -/
example (o : UOp) (f : Fn W) : ((truns TSt.start [(0, .enter (.handler (.bind .nil o f))), (1, .look),
      (1, .enter (.interpreter (.bind .nil o f))), (0, .look), (2, .look), (1, .look)]).2).map
      (fun e => (e.1, e.2.length)) = [(1, 0), (0, 1), (2, 0), (1, 1)] := by
  simp [truns, tstep, TSt.start, TSt.cur, TSt.put, Block.install, IExpr.compile, Intp.set,
    coproduct, coproductStep, Intp.get]

end Verif.Runtime
