/-!
# C90: the beam search of `docs/source/beam.py`

Model of the handlers `ReplayIntp`, `TraceIntp`, `ScoreIntp` and `ChooseOnceIntp` (`beam.py` 32-76), of
`BeamCandidate.expand` (91-107) and of the loop of `beam_search` (115-127). Programs are trees of calls of `choose` and `score`
that raise nothing themselves. Scores are integers. `random.choice` picks by an arbitrary function of the number of earlier
picks. `heapq` is what its documentation says: a push adds an element, `heappushpop` leaves out a smallest one, and the order of
the list is not determined.
-/

namespace Verif.Examples.Beam

variable {A R : Type}

/-- Programs. -/
inductive Prog (A R : Type) where
  | ret (r : R)
  | choose (cs : List A) (k : A → Prog A R)
  | score (v : Int) (k : Prog A R)

/-- An entry of a trace: the choices, and what was chosen. -/
abbrev Entry (A : Type) := List A × A

/-- The states of the four handlers, and the number of picks. -/
structure St (A : Type) where
  step : Nat
  first : Bool
  trace : List (Entry A)
  score : Int
  picks : Nat

/-- Exceptions: `Suspend`, and the IndexError of `random.choice([])`. -/
inductive Err where
  | suspend
  | index
  deriving DecidableEq

/-- `choose` without handlers (17-21). -/
def dflt (pick : Nat → Nat) (cs : List A) (st : St A) : Except Err A × St A :=
  match cs[pick st.picks % cs.length]? with
  | some a => (.ok a, { st with picks := st.picks + 1 })
  | none => (.error .index, st)

/-- `ChooseOnceIntp` (70-76). -/
def once (pick : Nat → Nat) (cs : List A) (st : St A) : Except Err A × St A :=
  if st.first then dflt pick cs { st with first := false } else (.error .suspend, st)

/-- `ReplayIntp(old)` (37-43). -/
def replay (pick : Nat → Nat) (old : List (Entry A)) (cs : List A) (st : St A) : Except Err A × St A :=
  match old[st.step]? with
  | some e => (.ok e.2, { st with step := st.step + 1 })
  | none => once pick cs st

/-- `TraceIntp` (50-54). -/
def traced (pick : Nat → Nat) (old : List (Entry A)) (cs : List A) (st : St A) : Except Err A × St A :=
  match replay pick old cs st with
  | (.ok a, st) => (.ok a, { st with trace := st.trace ++ [(cs, a)] })
  | e => e

/-- The program under the handlers. -/
def run (pick : Nat → Nat) (old : List (Entry A)) : Prog A R → St A → Except Err R × St A
  | .ret r, st => (.ok r, st)
  | .score v k, st => run pick old k { st with score := st.score + v }  -- 61-63
  | .choose cs k, st =>
    match traced pick old cs st with
    | (.ok a, st) => run pick old (k a) st
    | (.error e, st) => (.error e, st)

/-- `BeamCandidate` (79-86). -/
structure Cand (A R : Type) where
  trace : List (Entry A)
  score : Int
  inProgress : Bool
  result : Option R

/-- `expand` (91-107): `none` is an IndexError. -/
def expand (pick : Nat → Nat) (p : Prog A R) (old : List (Entry A)) (picks : Nat) : Option (Cand A R × Nat) :=
  match run pick old p ⟨0, true, [], 0, picks⟩ with
  | (.ok r, st) => some (⟨st.trace, st.score, false, some r⟩, st.picks)
  | (.error .suspend, st) => some (⟨st.trace, st.score, true, none⟩, st.picks)
  | (.error .index, _) => none

/-- `new_candidates` (122). -/
def expandAll (pick : Nat → Nat) (p : Prog A R) : List (Cand A R) → Nat → Option (List (Cand A R) × Nat)
  | [], n => some ([], n)
  | c :: cs, n =>
    match expand pick p c.trace n with
    | none => none
    | some (c', n) =>
      match expandAll pick p cs n with
      | none => none
      | some (cs', n) => some (c' :: cs', n)

/-- `heapq.heappushpop(beam, c)`. -/
inductive PushPop : List (Cand A R) → Cand A R → List (Cand A R) → Prop where
  | keep {b b' : List (Cand A R)} {c : Cand A R} : (∀ m ∈ b, ¬ m.score < c.score) → b.Perm b' → PushPop b c b'
  | swap {b b' r : List (Cand A R)} {c m : Cand A R} : b.Perm (m :: r) → (∀ x ∈ b, ¬ x.score < m.score) → m.score < c.score →
      b'.Perm (c :: r) → PushPop b c b'

/-- The loop over new candidates (124-127). -/
inductive PushAll (width : Nat) : List (Cand A R) → List (Cand A R) → List (Cand A R) → Prop where
  | nil (b : List (Cand A R)) : PushAll width b [] b
  | push {b b' b'' : List (Cand A R)} {c : Cand A R} {cs : List (Cand A R)} : b.length < width → b'.Perm (c :: b) →
      PushAll width b' cs b'' → PushAll width b (c :: cs) b''
  | pop {b b' b'' : List (Cand A R)} {c : Cand A R} {cs : List (Cand A R)} : width ≤ b.length → PushPop b c b' →
      PushAll width b' cs b'' → PushAll width b (c :: cs) b''

/-- `BeamCandidate([], 0.0, True, None)` (115). -/
def root : Cand A R := ⟨[], 0, true, none⟩

/-- `expandable` (118). -/
def expandable (width : Nat) (b : List (Cand A R)) : List (Cand A R) :=
  (List.replicate width (b.filter (·.inProgress))).flatten

/-- The beams at the start of the loop, with the number of picks. -/
inductive Reach (pick : Nat → Nat) (p : Prog A R) (width n0 : Nat) : List (Cand A R) → Nat → Prop where
  | start : Reach pick p width n0 [root] n0
  | next {b new b' : List (Cand A R)} {n n' : Nat} : Reach pick p width n0 b n → expandable width b ≠ [] →
      expandAll pick p (expandable width b) n = some (new, n') → PushAll width b new b' → Reach pick p width n0 b' n'

/-- `beam_search` returns this beam (119-120). -/
def Returns (pick : Nat → Nat) (p : Prog A R) (width n0 : Nat) (b : List (Cand A R)) : Prop :=
  ∃ n, Reach pick p width n0 b n ∧ expandable width b = []

/-! ## Specification -/

/-- With these choices the program gets this score, and then stops at a choice or ends. -/
inductive Path : Prog A R → List (Entry A) → Int → Prog A R → Prop where
  | ret (r : R) : Path (.ret r) [] 0 (.ret r)
  | stop (cs : List A) (k : A → Prog A R) : Path (.choose cs k) [] 0 (.choose cs k)
  | score {v : Int} {k q : Prog A R} {t : List (Entry A)} {s : Int} : Path k t s q → Path (.score v k) t (v + s) q
  | choose {cs : List A} {k : A → Prog A R} {a : A} {t : List (Entry A)} {s : Int} {q : Prog A R} : a ∈ cs →
      Path (k a) t s q → Path (.choose cs k) ((cs, a) :: t) s q

/-- A candidate tells the truth about its trace. -/
inductive Good (p : Prog A R) : Cand A R → Prop where
  | done {t : List (Entry A)} {s : Int} {r : R} : Path p t s (.ret r) → Good p ⟨t, s, false, some r⟩
  | more {t : List (Entry A)} {s : Int} {cs : List A} {k : A → Prog A R} : Path p t s (.choose cs k) → Good p ⟨t, s, true, none⟩

/-! ## Expansion -/

/-- There is a way on from any place, without choices. -/
theorem path_nil (p : Prog A R) : ∃ s q, Path p [] s q := by
  induction p with
  | ret r => exact ⟨0, _, .ret r⟩
  | choose cs k _ => exact ⟨0, _, .stop cs k⟩
  | score v k ih => obtain ⟨s, q, h⟩ := ih; exact ⟨v + s, q, .score h⟩

theorem path_stop {p q : Prog A R} {t : List (Entry A)} {s : Int} (h : Path p t s q) :
    (∃ r, q = .ret r) ∨ ∃ cs k, q = .choose cs k := by
  induction h with
  | ret r => exact Or.inl ⟨r, rfl⟩
  | stop cs k => exact Or.inr ⟨cs, k, rfl⟩
  | score _ ih => exact ih
  | choose _ _ ih => exact ih

/-- One more choice. -/
theorem path_snoc {p : Prog A R} {t : List (Entry A)} {s : Int} {cs : List A} {k : A → Prog A R}
    (h : Path p t s (.choose cs k)) {a : A} (ha : a ∈ cs) {s' : Int} {q : Prog A R} (h' : Path (k a) [] s' q) :
    Path p (t ++ [(cs, a)]) (s + s') q := by
  generalize hg : Prog.choose cs k = g at h
  induction h with
  | ret r => cases hg
  | stop cs' k' => cases hg; rw [Int.zero_add]; exact .choose ha h'
  | score _ ih => rw [Int.add_assoc]; exact .score (ih hg)
  | choose hm _ ih => exact .choose hm (ih hg)

/-- How a run ends at a place. -/
def outcome : Prog A R → Except Err R
  | .ret r => .ok r
  | _ => .error .suspend

/-- The run after the trace is used up and one choice is made. -/
theorem run_after (pick : Nat → Nat) (old : List (Entry A)) {p q : Prog A R} {t : List (Entry A)} {s : Int} (h : Path p t s q)
    (ht : t = []) : ∀ st : St A, old.length ≤ st.step → st.first = false →
    run pick old p st = (outcome q, { st with score := st.score + s }) := by
  induction h with
  | ret r => intro st _ _; simp [run, outcome]
  | stop cs k =>
    intro st hs hf
    obtain ⟨a, b, c, d, e⟩ := st
    simp only at hs hf
    simp [run, traced, replay, List.getElem?_eq_none hs, once, hf, outcome]
  | score _ ih =>
    intro st hs hf
    simp only [run]
    rw [ih ht { st with score := st.score + _ } hs hf]
    simp [Int.add_assoc]
  | choose _ _ _ => cases ht

/-- A run along a path to its end. -/
theorem run_ret (pick : Nat → Nat) (old : List (Entry A)) {p q : Prog A R} {t : List (Entry A)} {s : Int} (h : Path p t s q)
    {r : R} (hq : q = .ret r) : ∀ (u : List (Entry A)) (st : St A), old = u ++ t → st.step = u.length → st.trace = u →
    run pick old p st = (.ok r, ⟨old.length, st.first, old, st.score + s, st.picks⟩) := by
  induction h with
  | ret r' =>
    intro u st h1 h2 h3
    cases hq
    obtain ⟨a, b, c, d, e⟩ := st
    simp_all [run]
  | stop cs k => cases hq
  | score _ ih =>
    intro u st h1 h2 h3
    simp only [run]
    rw [ih hq u { st with score := st.score + _ } h1 h2 h3]
    simp [Int.add_assoc]
  | @choose cs k a t s q _ _ ih =>
    intro u st h1 h2 h3
    have hl : old[st.step]? = some (cs, a) := by rw [h1, h2]; simp
    simp only [run, traced, replay, hl]
    rw [ih hq (u ++ [(cs, a)]) _ (by simp [h1]) (by simp [h2]) (by simp [h3])]

/-- A run along a path to a choice: it picks, and runs on to the next choice or the end. -/
theorem run_choose (pick : Nat → Nat) (old : List (Entry A)) {p q : Prog A R} {t : List (Entry A)} {s : Int} (h : Path p t s q)
    {cs : List A} {k : A → Prog A R} (hq : q = .choose cs k) : ∀ (u : List (Entry A)) (st : St A), old = u ++ t →
    st.step = u.length → st.trace = u → st.first = true →
    (cs = [] ∧ (run pick old p st).1 = .error .index) ∨
      ∃ a s' q', a ∈ cs ∧ Path (k a) [] s' q' ∧
        run pick old p st = (outcome q', ⟨old.length, false, old ++ [(cs, a)], st.score + s + s', st.picks + 1⟩) := by
  induction h with
  | ret r' => cases hq
  | stop cs' k' =>
    intro u st h1 h2 h3 h4
    cases hq
    have hl : old[st.step]? = none := by rw [h1, h2]; simp
    have h1' : old = u := by simpa using h1
    by_cases hc : cs = []
    · left
      subst hc
      simp [run, traced, replay, hl, once, h4, dflt]
    · right
      have hlt : pick st.picks % cs.length < cs.length := Nat.mod_lt _ (List.length_pos_iff.2 hc)
      obtain ⟨s', q', hp⟩ := path_nil (k cs[pick st.picks % cs.length])
      refine ⟨_, s', q', List.getElem_mem hlt, hp, ?_⟩
      simp only [run, traced, replay, hl, once, h4, if_true, dflt, List.getElem?_eq_getElem hlt]
      rw [run_after pick old hp rfl _ (by simp [h1', h2]) rfl]
      simp [h1', h2, h3]
  | score _ ih =>
    intro u st h1 h2 h3 h4
    simp only [run]
    rcases ih hq u { st with score := st.score + _ } h1 h2 h3 h4 with h | ⟨a, s', q', ha, hp, he⟩
    · exact Or.inl h
    · refine Or.inr ⟨a, s', q', ha, hp, ?_⟩
      rw [he]
      simp [Int.add_assoc]
  | @choose cs' k' a t s q _ _ ih =>
    intro u st h1 h2 h3 h4
    have hl : old[st.step]? = some (cs', a) := by rw [h1, h2]; simp
    simp only [run, traced, replay, hl]
    exact ih hq (u ++ [(cs', a)]) _ (by simp [h1]) (by simp [h2]) (by simp [h3]) h4

/-- **C90.** Expanding a candidate whose trace leads to the end of the program gives the trace, its score and the result; no
random choice is made. -/
theorem C90_expand_done (pick : Nat → Nat) {p : Prog A R} {t : List (Entry A)} {s : Int} {r : R} (h : Path p t s (.ret r))
    (n : Nat) : expand pick p t n = some (⟨t, s, false, some r⟩, n) := by
  simp only [expand]
  rw [run_ret pick t h rfl [] _ rfl rfl rfl]
  simp

/-- **C90.** Expanding a candidate whose trace leads to a choice gives the trace with one of the choices added, the score of all
of it, and whether the program goes on to a further choice; one random choice is made. -/
theorem C90_expand_more (pick : Nat → Nat) {p : Prog A R} {t : List (Entry A)} {s : Int} {cs : List A} {k : A → Prog A R}
    (h : Path p t s (.choose cs k)) (hc : cs ≠ []) (n : Nat) :
    ∃ c a, expand pick p t n = some (c, n + 1) ∧ a ∈ cs ∧ c.trace = t ++ [(cs, a)] ∧ Good p c := by
  rcases run_choose pick t h rfl [] ⟨0, true, [], 0, n⟩ rfl rfl rfl rfl with ⟨h, _⟩ | ⟨a, s', q', ha, hp, he⟩
  · exact (hc h).elim
  · have hpath := path_snoc h ha hp
    rcases path_stop hp with ⟨r, rfl⟩ | ⟨cs', k', rfl⟩
    · refine ⟨⟨t ++ [(cs, a)], s + s', false, some r⟩, a, ?_, ha, rfl, .done hpath⟩
      simp [expand, he, outcome]
    · refine ⟨⟨t ++ [(cs, a)], s + s', true, none⟩, a, ?_, ha, rfl, .more hpath⟩
      simp [expand, he, outcome]

/-- **C90.** If there is nothing to choose from, expanding raises. -/
theorem C90_expand_empty (pick : Nat → Nat) {p : Prog A R} {t : List (Entry A)} {s : Int} {k : A → Prog A R}
    (h : Path p t s (.choose [] k)) (n : Nat) : expand pick p t n = none := by
  rcases run_choose pick t h rfl [] ⟨0, true, [], 0, n⟩ rfl rfl rfl rfl with ⟨_, h⟩ | ⟨a, _, _, ha, _⟩
  · simp only [expand]
    revert h
    cases run pick t p ⟨0, true, [], 0, n⟩ with
    | mk x st => intro h; simp only at h; subst h; rfl
  · simp at ha

/-! ## The search -/

/-- A candidate is the first one, or tells the truth. -/
def Fair (p : Prog A R) (c : Cand A R) : Prop := c = root ∨ Good p c

theorem fair_path {p : Prog A R} {c : Cand A R} (h : Fair p c) : ∃ s q, Path p c.trace s q := by
  rcases h with rfl | h
  · exact path_nil p
  · cases h with
    | done h => exact ⟨_, _, h⟩
    | more h => exact ⟨_, _, h⟩

theorem expand_good (pick : Nat → Nat) {p : Prog A R} {c : Cand A R} (h : Fair p c) {n n' : Nat} {c' : Cand A R}
    (he : expand pick p c.trace n = some (c', n')) : Good p c' := by
  obtain ⟨s, q, hp⟩ := fair_path h
  rcases path_stop hp with ⟨r, rfl⟩ | ⟨cs, k, rfl⟩
  · rw [C90_expand_done pick hp n] at he
    cases he
    exact .done hp
  · by_cases hc : cs = []
    · subst hc; rw [C90_expand_empty pick hp n] at he; cases he
    · obtain ⟨c2, a, h1, _, _, h2⟩ := C90_expand_more pick hp hc n
      rw [h1] at he
      cases he
      exact h2

theorem expandAll_good (pick : Nat → Nat) {p : Prog A R} : ∀ (cs : List (Cand A R)), (∀ c ∈ cs, Fair p c) → ∀ {n n' new},
    expandAll pick p cs n = some (new, n') → ∀ c ∈ new, Good p c := by
  intro cs
  induction cs with
  | nil => intro _ n n' new h; simp only [expandAll] at h; cases h; simp
  | cons c cs ih =>
    intro hf n n' new h
    simp only [expandAll] at h
    split at h
    · cases h
    · rename_i c' n1 h1
      split at h
      · cases h
      · rename_i cs' n2 h2
        cases h
        intro x hx
        rcases List.mem_cons.1 hx with rfl | hx
        · exact expand_good pick (hf c (by simp)) h1
        · exact ih (fun y hy => hf y (by simp [hy])) h2 x hx

theorem expandable_sub {width : Nat} {b : List (Cand A R)} {c : Cand A R} (h : c ∈ expandable width b) :
    c ∈ b ∧ c.inProgress = true := by
  simp only [expandable, List.mem_flatten, List.mem_replicate] at h
  obtain ⟨l, ⟨_, rfl⟩, h⟩ := h
  exact List.mem_filter.1 h

theorem pushPop_mem {b b' : List (Cand A R)} {c x : Cand A R} (h : PushPop b c b') (hx : x ∈ b') : x = c ∨ x ∈ b := by
  cases h with
  | keep _ hp => exact Or.inr (hp.mem_iff.2 hx)
  | swap hp _ _ hp' =>
    rcases List.mem_cons.1 (hp'.mem_iff.1 hx) with h | h
    · exact Or.inl h
    · exact Or.inr (hp.mem_iff.2 (List.mem_cons_of_mem _ h))

theorem pushAll_mem {width : Nat} {b cs b' : List (Cand A R)} (h : PushAll width b cs b') {x : Cand A R} (hx : x ∈ b') :
    x ∈ cs ∨ x ∈ b := by
  induction h with
  | nil b => exact Or.inr hx
  | push _ hp _ ih =>
    rcases ih hx with h | h
    · exact Or.inl (List.mem_cons_of_mem _ h)
    · rcases List.mem_cons.1 (hp.mem_iff.1 h) with rfl | h
      · exact Or.inl (by simp)
      · exact Or.inr h
  | pop _ hp _ ih =>
    rcases ih hx with h | h
    · exact Or.inl (List.mem_cons_of_mem _ h)
    · rcases pushPop_mem hp h with rfl | h
      · exact Or.inl (by simp)
      · exact Or.inr h

theorem pushPop_length {b b' : List (Cand A R)} {c : Cand A R} (h : PushPop b c b') : b'.length = b.length := by
  cases h with
  | keep _ hp => exact hp.length_eq.symm
  | swap hp _ _ hp' => rw [hp.length_eq, hp'.length_eq]; rfl

theorem pushAll_length {width : Nat} {b cs b' : List (Cand A R)} (h : PushAll width b cs b') :
    b.length ≤ b'.length ∧ b'.length ≤ max width b.length := by
  induction h with
  | nil b => omega
  | push hl hp _ ih =>
    have := hp.length_eq
    simp only [List.length_cons] at this
    omega
  | pop hl hp _ ih =>
    have := pushPop_length hp
    omega

/-- **C90.** The beam always has one candidate at least and no more than the width (one, if the width is zero); each is the first
candidate, or its trace is a path of choices of the program, with the score along it, and the result if the program ends there. -/
theorem C90_beam (pick : Nat → Nat) {p : Prog A R} {width n0 n : Nat} {b : List (Cand A R)} (h : Reach pick p width n0 b n) :
    (1 ≤ b.length ∧ b.length ≤ max width 1) ∧ ∀ c ∈ b, c = root ∨ Good p c := by
  induction h with
  | start => exact ⟨⟨by simp, by simp; omega⟩, by simp⟩
  | @next b new b' n n' _ _ he hp ih =>
    have hl := pushAll_length hp
    refine ⟨by omega, fun c hc => ?_⟩
    rcases pushAll_mem hp hc with h | h
    · exact Or.inr (expandAll_good pick _ (fun c hc => ih.2 c (expandable_sub hc).1) he c h)
    · exact ih.2 c h

/-- **C90.** What `beam_search` returns, for a width that is not zero: finished candidates only, with their scores and results. -/
theorem C90_returns (pick : Nat → Nat) {p : Prog A R} {width n0 : Nat} (hw : 0 < width) {b : List (Cand A R)}
    (h : Returns pick p width n0 b) : ∀ c ∈ b, ∃ r, Path p c.trace c.score (.ret r) ∧ c.result = some r := by
  obtain ⟨n, hr, he⟩ := h
  intro c hc
  have hnot : c.inProgress = false := by
    cases hi : c.inProgress with
    | false => rfl
    | true =>
      exfalso
      have : c ∈ expandable width b := by
        simp only [expandable, List.mem_flatten, List.mem_replicate]
        exact ⟨_, ⟨by omega, rfl⟩, List.mem_filter.2 ⟨hc, hi⟩⟩
      rw [he] at this
      simp at this
  rcases (C90_beam pick hr).2 c hc with rfl | h
  · cases hnot
  · cases h with
    | done h => exact ⟨_, h, rfl⟩
    | more h => cases hnot

/-- Each is beaten or equalled by one of the others. -/
def Below (a b : List (Cand A R)) : Prop := ∀ c ∈ a, ∃ d ∈ b, c.score ≤ d.score

theorem below_refl (a : List (Cand A R)) : Below a a := fun c hc => ⟨c, hc, Int.le_refl _⟩

theorem below_trans {a b c : List (Cand A R)} (h1 : Below a b) (h2 : Below b c) : Below a c := by
  intro x hx
  obtain ⟨y, hy, h⟩ := h1 x hx
  obtain ⟨z, hz, h'⟩ := h2 y hy
  exact ⟨z, hz, Int.le_trans h h'⟩

theorem pushPop_below {b b' : List (Cand A R)} {c : Cand A R} (hb : b ≠ []) (h : PushPop b c b') : Below (c :: b) b' := by
  intro x hx
  cases h with
  | keep hall hp =>
    rcases List.mem_cons.1 hx with rfl | hx
    · cases b with
      | nil => exact (hb rfl).elim
      | cons y b => exact ⟨y, hp.mem_iff.1 (by simp), Int.not_lt.1 (hall y (by simp))⟩
    · exact ⟨x, hp.mem_iff.1 hx, Int.le_refl _⟩
  | swap hp _ hlt hp' =>
    rcases List.mem_cons.1 hx with rfl | hx
    · exact ⟨x, hp'.mem_iff.2 (by simp), Int.le_refl _⟩
    · rcases List.mem_cons.1 (hp.mem_iff.1 hx) with rfl | hx
      · exact ⟨c, hp'.mem_iff.2 (by simp), by omega⟩
      · exact ⟨x, hp'.mem_iff.2 (by simp [hx]), Int.le_refl _⟩

theorem pushAll_below {width : Nat} {b cs b' : List (Cand A R)} (h : PushAll width b cs b') (hb : b ≠ []) :
    Below (cs ++ b) b' := by
  induction h with
  | nil b => exact below_refl _
  | @push b b1 b' c cs _ hp _ ih =>
    have hb1 : b1 ≠ [] := by rintro rfl; have := hp.length_eq; simp at this
    intro x hx
    apply ih hb1 x
    simp only [List.cons_append, List.mem_cons, List.mem_append] at hx ⊢
    rcases hx with rfl | hx | hx
    · exact Or.inr (hp.mem_iff.2 (by simp))
    · exact Or.inl hx
    · exact Or.inr (hp.mem_iff.2 (by simp [hx]))
  | @pop b b1 b' c cs _ hp _ ih =>
    have hb1 : b1 ≠ [] := by
      rintro rfl
      have := pushPop_length hp
      cases b with
      | nil => exact hb rfl
      | cons _ _ => simp at this
    have h1 := ih hb1
    intro x hx
    simp only [List.cons_append, List.mem_cons, List.mem_append] at hx
    rcases hx with rfl | hx | hx
    · obtain ⟨y, hy, h⟩ := pushPop_below hb hp x (by simp)
      obtain ⟨z, hz, h'⟩ := h1 y (by simp [hy])
      exact ⟨z, hz, Int.le_trans h h'⟩
    · exact h1 x (by simp [hx])
    · obtain ⟨y, hy, h⟩ := pushPop_below hb hp x (by simp [hx])
      obtain ⟨z, hz, h'⟩ := h1 y (by simp [hy])
      exact ⟨z, hz, Int.le_trans h h'⟩

/-- **C90.** The best score is never lost: in a round, each candidate of the beam and each new candidate is equalled or beaten by
one of the next beam. -/
theorem C90_best (pick : Nat → Nat) {p : Prog A R} {width n0 n : Nat} {b new b' : List (Cand A R)}
    (h : Reach pick p width n0 b n) (hp : PushAll width b new b') : Below (new ++ b) b' := by
  refine pushAll_below hp ?_
  rintro rfl
  have := (C90_beam pick h).1.1
  simp at this

/-- **C90, fails.** The search does not end if the scores of all paths are zero or less, as for log-probabilities or
programs without scores: the first candidate, with score zero, stays in the beam. -/
theorem C90_ends_fails (pick : Nat → Nat) {p : Prog A R} {width n0 : Nat} (hw : 0 < width)
    (hneg : ∀ t s q, Path p t s q → s ≤ 0) (b : List (Cand A R)) : ¬ Returns pick p width n0 b := by
  have hpop : ∀ {b b' : List (Cand A R)} {c : Cand A R}, PushPop b c b' → c.score ≤ 0 → root ∈ b → root ∈ b' := by
    intro b b' c h hc hr
    cases h with
    | keep _ hp => exact hp.mem_iff.1 hr
    | swap hp _ hlt hp' =>
      rcases List.mem_cons.1 (hp.mem_iff.1 hr) with h | h
      · rw [← h] at hlt
        simp only [root] at hlt
        omega
      · exact hp'.mem_iff.2 (by simp [h])
  have hall : ∀ {b cs b' : List (Cand A R)}, PushAll width b cs b' → (∀ c ∈ cs, c.score ≤ 0) → root ∈ b → root ∈ b' := by
    intro b cs b' h
    induction h with
    | nil b => exact fun _ h => h
    | push _ hp _ ih =>
      exact fun hc hr => ih (fun c h => hc c (List.mem_cons_of_mem _ h)) (hp.mem_iff.2 (List.mem_cons_of_mem _ hr))
    | pop _ hp _ ih =>
      exact fun hc hr => ih (fun c h => hc c (List.mem_cons_of_mem _ h)) (hpop hp (hc _ (by simp)) hr)
  have hroot : ∀ {b n}, Reach pick p width n0 b n → root ∈ b := by
    intro b n h
    induction h with
    | start => simp
    | next hr _ he hp ih =>
      refine hall hp (fun c hc => ?_) ih
      have hg := expandAll_good pick _ (fun c hc => (C90_beam pick hr).2 c (expandable_sub hc).1) he c hc
      cases hg with
      | done h => exact hneg _ _ _ h
      | more h => exact hneg _ _ _ h
  rintro ⟨n, hr, he⟩
  have : root ∈ expandable width b := by
    simp only [expandable, List.mem_flatten, List.mem_replicate]
    exact ⟨_, ⟨by omega, rfl⟩, List.mem_filter.2 ⟨hroot hr, rfl⟩⟩
  rw [he] at this
  simp at this

/-! ## Examples -/

/-- Two choices with scores. -/
def prog0 (v : Int) : Prog Int Int := .choose [1, 2] fun x => .score (v * x) (.choose [3, 4] fun y => .score (v * y) (.ret y))

/-- What can be seen of candidates. -/
def seen (c : Cand Int Int) : List Int × Int × Bool × Option Int := (c.trace.map (·.2), c.score, c.inProgress, c.result)

example : (expand (fun n => n) (prog0 1) [] 1).map (fun x => (seen x.1, x.2)) = some (([2], 2, true, none), 2) := by decide

example : (expand (fun n => n) (prog0 1) [([1, 2], 2)] 1).map (fun x => (seen x.1, x.2)) =
    some (([2, 4], 6, false, some 4), 2) := by decide

/-- Two steps of a search of width one that returns. -/
example : ∃ b, Returns (fun n => n) (prog0 1) 1 0 b ∧ b.map seen = [([1, 4], 5, false, some 4)] := by
  refine ⟨[⟨[([1, 2], 1), ([3, 4], 4)], 5, false, some 4⟩], ⟨2, ?_, rfl⟩, rfl⟩
  refine .next (b := [⟨[([1, 2], 1)], 1, true, none⟩]) (n := 1) (.next .start (by simp [expandable, root]) rfl
    (.pop (by simp) (.swap (m := root) (r := []) (.refl _) (by simp) (by decide) (.refl _)) (.nil _)))
    (by simp [expandable]) rfl
    (.pop (by simp) (.swap (m := ⟨[([1, 2], 1)], 1, true, none⟩) (r := []) (.refl _) (by simp) (by decide) (.refl _)) (.nil _))

/-- **C90, fails.** The candidates of a beam need not be different: here both are the same. -/
theorem C90_distinct_fails : ∃ (p : Prog Int Int) (c : Cand Int Int), ∀ pick, Returns pick p 2 0 [c, c] := by
  refine ⟨.choose [1] fun x => .score x (.ret x), ⟨[([1], 1)], 1, false, some 1⟩, fun pick => ⟨2, ?_, rfl⟩⟩
  refine .next (n := 0) (new := [⟨[([1], 1)], 1, false, some 1⟩, ⟨[([1], 1)], 1, false, some 1⟩]) .start
    (by simp [expandable, root]) ?_
    (.push (by simp) (.refl _) (.pop (by simp)
      (.swap (m := root) (r := [⟨[([1], 1)], 1, false, some 1⟩]) (List.Perm.swap _ _ _) (by simp [root]) (by decide) (.refl _))
      (.nil _)))
  simp [expandable, root, expandAll, expand, run, traced, replay, once, dflt, Nat.mod_one]

/-- A program whose scores are never positive. -/
example : ∀ t s q, Path (prog0 0) t s q → s ≤ 0 := by
  intro t s q h
  cases h with
  | stop => omega
  | choose _ h =>
    cases h with
    | score h =>
      cases h with
      | stop => omega
      | choose _ h =>
        cases h with
        | score h => cases h; omega

end Verif.Examples.Beam
