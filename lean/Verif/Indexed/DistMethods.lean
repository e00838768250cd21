import Verif.Indexed.Dist

/-!
# C98: `to_event` and `expand` of distribution terms

Model of the shapes of `_DistributionTerm` (`handlers/numpyro.py` 191-378) and `_DistributionMethodTerm` (401-425): `to_event` (357-359)
makes a method term; `expand` (361-378) changes the arguments; `batch_shape`, `event_shape` and `log_prob` (248-267, 292-316) use the
positional distribution.

Simplifications: only shapes. All arguments are eager (arrays, arrays with names, numbers). After `_to_positional` (109-122) every array
has the dimensions of all names first, whichever names it had (C75), so that an array is given by its shape without names. The event
shape of a plain distribution is given. `to_event`, `Independent` and `log_prob` of numpyro are taken from its documentation.
-/

namespace Verif.Indexed.DistMethods

open Verif.Indexed.Dist (bdim brev bcast bcastAll bcast_append bcast_longer bcast_nil_left bcast_nil_right bcast_length)

/-- An argument: an array of a shape whose last `ev` dimensions belong to the event, or a number. -/
inductive Arg where
  | arr (shape : List Nat) (ev : Nat)
  | num

inductive Err where
  /-- `ValueError` -/
  | value
  /-- `AssertionError` -/
  | assertion
  /-- `IndexError` -/
  | index
deriving DecidableEq

/-- A plain distribution: arguments and event shape. -/
structure Plain where
  args : List Arg
  event : List Nat

/-- Distribution terms. -/
inductive DT where
  | plain (d : Plain)
  /-- `d.to_event(k)` (`_DistributionMethodTerm`, 401-425); `none` for `None` -/
  | toEvent (d : DT) (k : Option Nat)

/-- The shape of batch dimensions of an argument that has the dimensions of the names, of sizes `ns`, first (109-122). -/
def argBatch (ns : List Nat) : Arg → List Nat
  | .arr shape ev => (ns ++ shape).take ((ns ++ shape).length - ev)
  | .num => []

/-- numpyro's `to_event(k)` on batch and event shape. -/
def toEventPos (k : Option Nat) (b e : List Nat) : Except Err (List Nat × List Nat) :=
  let n := k.getD b.length
  if b.length < n then .error .value else .ok (b.take (b.length - n), b.drop (b.length - n) ++ e)

/-- Batch and event shape of `_pos_base_dist` (222-225; 416-425 for method terms), if the names have the sizes `ns`. -/
def pos (ns : List Nat) : DT → Except Err (List Nat × List Nat)
  | .plain d =>
    match bcastAll [] (d.args.map (argBatch ns)) with
    | none => .error .value
    | some b => .ok (b, d.event)
  | .toEvent d k =>
    match pos ns d with
    | .error e => .error e
    | .ok (b, e) => toEventPos k b e

/-- `batch_shape` (250-253). -/
def batchShape (ns : List Nat) (d : DT) : Except Err (List Nat) :=
  match pos ns d with
  | .error e => .error e
  | .ok (b, _) => .ok (b.drop ns.length)

/-- `event_shape` (264-267). -/
def eventShape (ns : List Nat) (d : DT) : Except Err (List Nat) :=
  match pos ns d with
  | .error e => .error e
  | .ok (_, e) => .ok e

/-- `expand_arg` (366-369) and `expand_to_batch_shape` (156-188). -/
def expandArg (rank : Nat) (s : List Nat) : Arg → Except Err Arg
  | .num => .ok .num
  | .arr shape ev =>
    if shape.length < rank then .error .assertion
    else if s.length < rank then .error .value
    else
      match bcast (shape.take rank) s with
      | none => .error .value
      | some b => .ok (.arr (b ++ shape.drop rank) ev)

def expandArgs (rank : Nat) (s : List Nat) : List Arg → Except Err (List Arg)
  | [] => .ok []
  | a :: as =>
    match expandArg rank s a with
    | .error e => .error e
    | .ok a =>
      match expandArgs rank s as with
      | .error e => .error e
      | .ok as => .ok (a :: as)

/-- `expand(batch_shape)` (362-378). The arguments of a method term are a distribution and a number, which `expand_arg` leaves as they
are, and its operation is called again. -/
def expand (ns : List Nat) (d : DT) (s : List Nat) : Except Err DT :=
  match batchShape ns d with
  | .error e => .error e
  | .ok b =>
    if b = s then .ok d
    else
      match d with
      | .toEvent d k => .ok (.toEvent d k)
      | .plain d =>
        match expandArgs b.length s d.args with
        | .error e => .error e
        | .ok as => .ok (.plain { d with args := as })

/-- The shape of numpyro's `log_prob` of a value with a shape: that of the plain distribution without the dimensions that `to_event`
has made part of the event. -/
def logPos (ns : List Nat) : DT → List Nat → Except Err (List Nat)
  | .plain d, v =>
    match bcastAll [] (d.args.map (argBatch ns)) with
    | none => .error .value
    | some b =>
      match bcast (v.take (v.length - d.event.length)) b with
      | none => .error .value
      | some o => .ok o
  | .toEvent d k, v =>
    match pos ns d with
    | .error e => .error e
    | .ok (b, _) =>
      if b.length < k.getD b.length then .error .value
      else
        match logPos ns d v with
        | .error e => .error e
        | .ok o => .ok (o.take (o.length - k.getD b.length))

/-- `_reindex_sample` (269-272): the names index the dimensions after those of the sample shape. The result is the sizes of the
dimensions that got the names and the remaining shape. -/
def reindex (names sample : Nat) (o : List Nat) : Except Err (List Nat × List Nat) :=
  if o.length < sample + names then .error .index
  else .ok ((o.drop sample).take names, o.take sample ++ o.drop (sample + names))

/-- `log_prob(value)` (293-316) for a value whose shape without names is `v`. -/
def logProb (ns : List Nat) (d : DT) (v : List Nat) : Except Err (List Nat × List Nat) :=
  match batchShape ns d, eventShape ns d with
  | .ok b, .ok e =>
    let n := b.length + e.length
    let sample := if n = 0 then v.length else v.length - n
    let w := ns ++ v
    match logPos ns d ((w.drop ns.length).take sample ++ w.take ns.length ++ w.drop (ns.length + sample)) with
    | .error e => .error e
    | .ok o => reindex ns.length sample o
  | .error e, _ => .error e
  | _, .error e => .error e

/-! ## Specification -/

/-- All arrays have `r` batch dimensions. -/
def Rank (r : Nat) : DT → Prop
  | .plain d => ∀ a ∈ d.args, match a with
    | .arr shape ev => shape.length = r + ev
    | .num => True
  | .toEvent d _ => Rank r d

/-- Some argument is an array. Only arrays have names. -/
def HasArr : DT → Prop
  | .plain d => ∃ shape ev, Arg.arr shape ev ∈ d.args
  | .toEvent d _ => HasArr d

/-- Every `to_event` says how many dimensions. -/
def Explicit : DT → Prop
  | .plain _ => True
  | .toEvent d k => Explicit d ∧ k ≠ none

/-! ## Lemmas -/

theorem argBatch_arr (ns shape : List Nat) (ev : Nat) (h : ev ≤ shape.length) :
    argBatch ns (.arr shape ev) = ns ++ argBatch [] (.arr shape ev) := by
  have h1 : (ns ++ shape).length - ev = ns.length + (shape.length - ev) := by simp; omega
  rw [argBatch, h1, List.take_length_add_append]
  simp [argBatch]

theorem argBatch_length (shape : List Nat) (ev r : Nat) (h : shape.length = r + ev) : (argBatch [] (.arr shape ev)).length = r := by
  simp [argBatch]
  omega

theorem all_names (ns : List Nat) (r : Nat) : ∀ (as : List Arg) (acc b : List Nat), acc.length = r →
    (∀ a ∈ as, match a with | .arr shape ev => shape.length = r + ev | .num => True) →
    bcastAll acc (as.map (argBatch [])) = some b →
    bcastAll (ns ++ acc) (as.map (argBatch ns)) = some (ns ++ b) ∧ b.length = r
  | [], acc, b, hl, _, h => by
    cases h
    exact ⟨rfl, hl⟩
  | .num :: as, acc, b, hl, hr, h => by
    rw [List.map_cons, bcastAll, argBatch, bcast_nil_right] at h ⊢
    exact all_names ns r as acc b hl (fun a ha => hr a (by simp [ha])) h
  | .arr shape ev :: as, acc, b, hl, hr, h => by
    have hs : shape.length = r + ev := hr (.arr shape ev) (by simp)
    rw [List.map_cons, bcastAll] at h ⊢
    have hb := argBatch_length shape ev r hs
    rw [argBatch_arr ns shape ev (by omega), bcast_append _ _ _ (by omega)]
    cases hc : bcast acc (argBatch [] (.arr shape ev)) with
    | none => rw [hc] at h; cases h
    | some c =>
      rw [hc] at h
      exact all_names ns r as c b (by rw [bcast_length (by omega) hc, hl]) (fun a ha => hr a (by simp [ha])) h

theorem all_start (ns : List Nat) (r : Nat) : ∀ (as : List Arg) (b : List Nat),
    (∀ a ∈ as, match a with | .arr shape ev => shape.length = r + ev | .num => True) → (∃ shape ev, Arg.arr shape ev ∈ as) →
    bcastAll [] (as.map (argBatch [])) = some b →
    bcastAll [] (as.map (argBatch ns)) = some (ns ++ b) ∧ b.length = r
  | [], _, _, ⟨_, _, hm⟩, _ => by cases hm
  | .num :: as, b, hr, ⟨shape, ev, hm⟩, h => by
    rw [List.map_cons, bcastAll, argBatch, bcast_nil_right] at h ⊢
    exact all_start ns r as b (fun a ha => hr a (by simp [ha])) ⟨shape, ev, by simpa using hm⟩ h
  | .arr shape ev :: as, b, hr, _, h => by
    have hs : shape.length = r + ev := hr (.arr shape ev) (by simp)
    rw [List.map_cons, bcastAll, bcast_nil_left] at h ⊢
    rw [argBatch_arr ns shape ev (by omega)]
    exact all_names ns r as _ b (argBatch_length shape ev r hs) (fun a ha => hr a (by simp [ha])) h

theorem pos_names (ns : List Nat) (r : Nat) : ∀ (d : DT) (b e : List Nat), Rank r d → HasArr d → Explicit d →
    pos [] d = .ok (b, e) → pos ns d = .ok (ns ++ b, e)
  | .plain d, b, e, hr, ha, _, h => by
    rw [pos] at h ⊢
    cases hb : bcastAll [] (d.args.map (argBatch [])) with
    | none => rw [hb] at h; cases h
    | some c =>
      rw [hb] at h
      cases h
      rw [(all_start ns r d.args b hr ha hb).1]
  | .toEvent d none, b, e, _, _, he, _ => absurd rfl he.2
  | .toEvent d (some k), b, e, hr, ha, he, h => by
    rw [pos] at h ⊢
    cases hp : pos [] d with
    | error x => rw [hp] at h; cases h
    | ok q =>
      obtain ⟨b', e'⟩ := q
      rw [hp] at h
      rw [pos_names ns r d b' e' hr ha he.1 hp]
      simp only [toEventPos, Option.getD_some] at h ⊢
      by_cases hk : b'.length < k
      · rw [if_pos hk] at h; cases h
      · rw [if_neg hk] at h
        cases h
        have h1 : (ns ++ b').length - k = ns.length + (b'.length - k) := by simp; omega
        rw [if_neg (by simp; omega), h1, List.take_length_add_append, List.drop_length_add_append]

theorem reindex_spec (s ns o : List Nat) : reindex ns.length s.length (s ++ ns ++ o) = .ok (ns, s ++ o) := by
  rw [reindex, if_neg (by simp)]
  have h1 : ((s ++ ns ++ o).drop s.length).take ns.length = ns := by rw [List.append_assoc, List.drop_left]; simp
  have h2 : (s ++ ns ++ o).take s.length = s := by rw [List.append_assoc, List.take_left]
  have h3 : (s ++ ns ++ o).drop (s.length + ns.length) = o := by
    rw [← List.length_append, List.drop_left]
  rw [h1, h2, h3]

theorem logPos_names (ns : List Nat) (r : Nat) : ∀ (d : DT) (b e s rest o : List Nat), Rank r d → HasArr d → Explicit d →
    pos [] d = .ok (b, e) → rest.length = b.length + e.length → logPos [] d (s ++ rest) = .ok o →
    ∃ o', o = s ++ o' ∧ o'.length = b.length ∧ logPos ns d (s ++ ns ++ rest) = .ok (s ++ ns ++ o')
  | .plain d, b, e, s, rest, o, hr, ha, _, h, hl, ho => by
    rw [pos] at h
    rw [logPos] at ho ⊢
    cases hb : bcastAll [] (d.args.map (argBatch [])) with
    | none => rw [hb] at h; cases h
    | some c =>
      rw [hb] at h ho
      cases h
      rw [(all_start ns r d.args b hr ha hb).1]
      have t1 : ((s ++ rest).take ((s ++ rest).length - d.event.length)) = s ++ rest.take b.length := by
        have : (s ++ rest).length - d.event.length = s.length + b.length := by simp [hl]; omega
        rw [this, List.take_length_add_append]
      have t2 : ((s ++ ns ++ rest).take ((s ++ ns ++ rest).length - d.event.length)) = s ++ (ns ++ rest.take b.length) := by
        have : (s ++ ns ++ rest).length - d.event.length = (s ++ ns).length + b.length := by simp [hl]; omega
        rw [this, List.take_length_add_append, List.append_assoc]
      have hlen : (rest.take b.length).length = b.length := by simp [hl]
      simp only at ho ⊢
      rw [t1, bcast_longer _ _ _ hlen] at ho
      rw [t2, bcast_longer _ _ _ (by simp [hlen]), bcast_append _ _ _ hlen]
      cases hc : bcast (rest.take b.length) b with
      | none => rw [hc] at ho; cases ho
      | some z =>
        rw [hc] at ho
        cases ho
        exact ⟨z, rfl, by rw [bcast_length hlen hc, hlen], by simp⟩
  | .toEvent d none, b, e, s, rest, o, _, _, he, _, _, _ => absurd rfl he.2
  | .toEvent d (some k), b, e, s, rest, o, hr, ha, he, h, hl, ho => by
    rw [pos] at h
    rw [logPos] at ho ⊢
    cases hp : pos [] d with
    | error x => rw [hp] at h; cases h
    | ok q =>
      obtain ⟨b', e'⟩ := q
      rw [hp] at h ho
      rw [pos_names ns r d b' e' hr ha he.1 hp]
      simp only [toEventPos, Option.getD_some] at h ho ⊢
      by_cases hk : b'.length < k
      · rw [if_pos hk] at h; cases h
      · rw [if_neg hk] at h ho
        rw [if_neg (by simp; omega)]
        cases h
        have hl' : rest.length = b'.length + e'.length := by
          rw [hl]
          simp only [List.length_take, List.length_append, List.length_drop]
          omega
        cases hq : logPos [] d (s ++ rest) with
        | error x => rw [hq] at ho; cases ho
        | ok o₁ =>
          obtain ⟨o', rfl, h2, h3⟩ := logPos_names ns r d b' e' s rest o₁ hr ha he.1 hp hl' hq
          rw [hq] at ho
          rw [h3]
          simp only [Except.ok.injEq] at ho ⊢
          refine ⟨o'.take (o'.length - k), ?_, ?_, ?_⟩
          · rw [← ho]
            have : (s ++ o').length - k = s.length + (o'.length - k) := by simp; omega
            rw [this, List.take_length_add_append]
          · simp only [List.length_take]; omega
          · have : (s ++ ns ++ o').length - k = (s ++ ns).length + (o'.length - k) := by simp; omega
            rw [this, List.take_length_add_append]

theorem bcast_self (s : List Nat) : bcast s s = some s := by
  have h : ∀ l : List Nat, brev l l = some l := by
    intro l
    induction l with
    | nil => rfl
    | cons x l ih => simp [brev, bdim, ih]
  simp [bcast, h]

theorem all_same (s : List Nat) : ∀ (as : List Arg) (acc : List Nat), acc = s ∨ (acc = [] ∧ ∃ shape ev, Arg.arr shape ev ∈ as) →
    (∀ shape ev, Arg.arr shape ev ∈ as → argBatch [] (.arr shape ev) = s) → bcastAll acc (as.map (argBatch [])) = some s
  | [], acc, h, _ => by
    rcases h with rfl | ⟨_, _, _, h⟩
    · rfl
    · cases h
  | .num :: as, acc, h, hs => by
    rw [List.map_cons, bcastAll, argBatch, bcast_nil_right]
    refine all_same s as acc ?_ (fun shape ev hm => hs shape ev (by simp [hm]))
    rcases h with h | ⟨h, shape, ev, hm⟩
    · exact .inl h
    · exact .inr ⟨h, shape, ev, by simpa using hm⟩
  | .arr shape ev :: as, acc, h, hs => by
    rw [List.map_cons, bcastAll, hs shape ev (by simp)]
    have : bcast acc s = some s := by
      rcases h with rfl | ⟨rfl, _⟩
      · exact bcast_self _
      · exact bcast_nil_left s
    rw [this]
    exact all_same s as s (.inl rfl) (fun shape ev hm => hs shape ev (by simp [hm]))

theorem expandArgs_spec (r : Nat) (s : List Nat) (hs : r ≤ s.length) : ∀ as : List Arg,
    (∀ a ∈ as, match a with | .arr shape ev => shape.length = r + ev | .num => True) →
    (∀ shape ev, Arg.arr shape ev ∈ as → bcast (argBatch [] (.arr shape ev)) s = some s) →
    ∃ as', expandArgs r s as = .ok as' ∧
      (∀ a ∈ as', match a with | .arr shape ev => shape.length = s.length + ev | .num => True) ∧
      (∀ shape ev, Arg.arr shape ev ∈ as' → argBatch [] (.arr shape ev) = s) ∧
      ((∃ shape ev, Arg.arr shape ev ∈ as) → ∃ shape ev, Arg.arr shape ev ∈ as')
  | [], _, _ => ⟨[], rfl, by simp, by simp, by simp⟩
  | .num :: as, hr, hb => by
    obtain ⟨as', h1, h2, h3, h4⟩ := expandArgs_spec r s hs as (fun a ha => hr a (by simp [ha]))
      (fun shape ev hm => hb shape ev (by simp [hm]))
    refine ⟨.num :: as', by rw [expandArgs, expandArg, h1], ?_, ?_, ?_⟩
    · intro a ha
      rcases List.mem_cons.1 ha with rfl | ha
      · trivial
      · exact h2 a ha
    · intro shape ev hm
      exact h3 shape ev (by simpa using hm)
    · rintro ⟨shape, ev, hm⟩
      obtain ⟨sh, e, h⟩ := h4 ⟨shape, ev, by simpa using hm⟩
      exact ⟨sh, e, by simp [h]⟩
  | .arr shape ev :: as, hr, hb => by
    obtain ⟨as', h1, h2, h3, _⟩ := expandArgs_spec r s hs as (fun a ha => hr a (by simp [ha]))
      (fun shape ev hm => hb shape ev (by simp [hm]))
    have hl : shape.length = r + ev := hr (.arr shape ev) (by simp)
    have hc := hb shape ev (by simp)
    have ht : argBatch [] (.arr shape ev) = shape.take r := by
      have : shape.length - ev = r := by omega
      simp [argBatch, this]
    rw [ht] at hc
    have hd : (shape.drop r).length = ev := by simp; omega
    refine ⟨.arr (s ++ shape.drop r) ev :: as', ?_, ?_, ?_, fun _ => ⟨_, _, List.mem_cons_self ..⟩⟩
    · rw [expandArgs, expandArg, if_neg (by omega), if_neg (by omega), hc, h1]
    · intro a ha
      rcases List.mem_cons.1 ha with rfl | ha
      · simp [hd]
      · exact h2 a ha
    · intro sh e hm
      rcases List.mem_cons.1 hm with h | hm
      · cases h
        have : (s ++ shape.drop r).length - ev = s.length := by simp; omega
        rw [argBatch, List.nil_append, this]
        simp
      · exact h3 sh e hm

/-! ## Theorems -/

/-- Shapes of `d.to_event(k)` are those that the distribution has for each value of its names, if all arrays have the same number of
batch dimensions and each `to_event` says how many dimensions. -/
theorem C98_family_partial (ns : List Nat) (r : Nat) (d : DT) (b e : List Nat) (hr : Rank r d) (ha : HasArr d) (he : Explicit d)
    (hb : batchShape [] d = .ok b) (hv : eventShape [] d = .ok e) : batchShape ns d = .ok b ∧ eventShape ns d = .ok e := by
  have hp : pos [] d = .ok (b, e) := by
    unfold batchShape at hb
    unfold eventShape at hv
    cases h : pos [] d with
    | error x => rw [h] at hb; cases hb
    | ok q =>
      rw [h] at hb hv
      cases hb
      cases hv
      rfl
  have := pos_names ns r d b e hr ha he hp
  constructor
  · rw [batchShape, this]
    simp
  · rw [eventShape, this]

/-- The laws of `to_event(k)` (stated in `tests/test_handlers_numpyro.py` 955-964): the last `k` batch dimensions become the first event
dimensions. -/
theorem C98_to_event_partial (ns : List Nat) (r k : Nat) (d : DT) (b e : List Nat) (hr : Rank r d) (ha : HasArr d) (he : Explicit d)
    (hb : batchShape [] d = .ok b) (hv : eventShape [] d = .ok e) (hk : k ≤ b.length) :
    batchShape ns (.toEvent d (some k)) = .ok (b.take (b.length - k)) ∧
    eventShape ns (.toEvent d (some k)) = .ok (b.drop (b.length - k) ++ e) := by
  have hp : pos [] d = .ok (b, e) := by
    unfold batchShape at hb
    unfold eventShape at hv
    cases h : pos [] d with
    | error x => rw [h] at hb; cases hb
    | ok q =>
      rw [h] at hb hv
      cases hb
      cases hv
      rfl
  have hq : pos [] (.toEvent d (some k)) = .ok (b.take (b.length - k), b.drop (b.length - k) ++ e) := by
    rw [pos, hp]
    simp only [toEventPos, Option.getD_some]
    rw [if_neg (by omega)]
  have := pos_names ns r (.toEvent d (some k)) _ _ hr ha ⟨he, by simp⟩ hq
  constructor
  · rw [batchShape, this]
    simp
  · rw [eventShape, this]

/-- `to_event` twice is `to_event` of the sum. -/
theorem C98_to_event_twice_partial (ns : List Nat) (r k l : Nat) (d : DT) (b e : List Nat) (hr : Rank r d) (ha : HasArr d)
    (he : Explicit d) (hb : batchShape [] d = .ok b) (hv : eventShape [] d = .ok e) (hk : k + l ≤ b.length) :
    batchShape ns (.toEvent (.toEvent d (some k)) (some l)) = batchShape ns (.toEvent d (some (k + l))) ∧
    eventShape ns (.toEvent (.toEvent d (some k)) (some l)) = eventShape ns (.toEvent d (some (k + l))) := by
  obtain ⟨u1, u2⟩ := C98_to_event_partial [] r k d b e hr ha he hb hv (by omega)
  obtain ⟨v1, v2⟩ := C98_to_event_partial ns r l (.toEvent d (some k)) _ _ hr ha ⟨he, by simp⟩ u1 u2 (by simp; omega)
  obtain ⟨w1, w2⟩ := C98_to_event_partial ns r (k + l) d b e hr ha he hb hv hk
  rw [v1, v2, w1, w2]
  have hx : (b.take (b.length - k)).length - l = b.length - (k + l) := by simp; omega
  have hy : min (b.length - (k + l)) (b.length - k) = b.length - (k + l) := by omega
  constructor
  · rw [hx, List.take_take, hy]
  · rw [hx, ← List.append_assoc]
    congr 2
    have : b.drop (b.length - (k + l)) = (b.take (b.length - k) ++ b.drop (b.length - k)).drop (b.length - (k + l)) := by
      rw [List.take_append_drop]
    rw [this, List.drop_append_of_le_length (by simp; omega)]

/-- `log_prob` of a value has all names of the distribution and, for each value of the names, the shape that it has for this value. -/
theorem C98_log_prob_partial (ns : List Nat) (r : Nat) (d : DT) (b e v o : List Nat) (hr : Rank r d) (ha : HasArr d) (he : Explicit d)
    (hb : batchShape [] d = .ok b) (hv : eventShape [] d = .ok e) (hl : b.length + e.length ≤ v.length)
    (ho : logProb [] d v = .ok ([], o)) : logProb ns d v = .ok (ns, o) := by
  have hp : pos [] d = .ok (b, e) := by
    unfold batchShape at hb
    unfold eventShape at hv
    cases h : pos [] d with
    | error x => rw [h] at hb; cases hb
    | ok q =>
      rw [h] at hb hv
      cases hb
      cases hv
      rfl
  obtain ⟨f1, f2⟩ := C98_family_partial ns r d b e hr ha he hb hv
  have hS : ∀ n : Nat, n ≤ v.length → (if n = 0 then v.length else v.length - n) = v.length - n := by
    intro n _
    split <;> omega
  unfold logProb at ho ⊢
  rw [hb, hv] at ho
  rw [f1, f2]
  simp only at ho ⊢
  rw [hS _ hl] at ho ⊢
  generalize hm : v.length - (b.length + e.length) = m at ho ⊢
  have e1 : (([] ++ v).drop ([] : List Nat).length).take m ++ ([] ++ v).take ([] : List Nat).length ++
      ([] ++ v).drop (([] : List Nat).length + m) = v.take m ++ v.drop m := by simp
  have e2 : ((ns ++ v).drop ns.length).take m ++ (ns ++ v).take ns.length ++ (ns ++ v).drop (ns.length + m) =
      v.take m ++ ns ++ v.drop m := by
    rw [List.drop_length_add_append]
    simp
  rw [e1] at ho
  rw [e2]
  cases hq : logPos [] d (v.take m ++ v.drop m) with
  | error x => rw [hq] at ho; cases ho
  | ok o₁ =>
    obtain ⟨o', rfl, _, h3⟩ := logPos_names ns r d b e (v.take m) (v.drop m) o₁ hr ha he hp (by simp; omega) hq
    rw [hq] at ho
    rw [h3]
    have hm' : (v.take m).length = m := by simp; omega
    have r1 := reindex_spec (v.take m) [] o'
    have r2 := reindex_spec (v.take m) ns o'
    rw [hm'] at r1 r2
    simp only [List.append_nil] at r1
    simp only at ho ⊢
    rw [r1] at ho
    rw [r2]
    cases ho
    rfl

/-- The laws of `expand(s)` (stated in `tests/test_handlers_numpyro.py` 955-964) for plain distributions: the batch shape is `s`, the
event shape is unchanged. -/
theorem C98_expand_partial (ns : List Nat) (r : Nat) (d : Plain) (s : List Nat) (hr : Rank r (.plain d)) (ha : HasArr (.plain d))
    (hs : r ≤ s.length) (hb : ∀ shape ev, Arg.arr shape ev ∈ d.args → bcast (shape.take (shape.length - ev)) s = some s)
    (hd : ∃ b, batchShape [] (.plain d) = .ok b) :
    ∃ d', expand ns (.plain d) s = .ok (.plain d') ∧ batchShape ns (.plain d') = .ok s ∧ eventShape ns (.plain d') = .ok d.event := by
  obtain ⟨b, hd⟩ := hd
  have hp : bcastAll [] (d.args.map (argBatch [])) = some b := by
    unfold batchShape pos at hd
    cases h : bcastAll [] (d.args.map (argBatch [])) with
    | none => rw [h] at hd; cases hd
    | some c => rw [h] at hd; cases hd; rfl
  have hv : eventShape [] (.plain d) = .ok d.event := by rw [eventShape, pos, hp]
  obtain ⟨f1, f2⟩ := C98_family_partial ns r (.plain d) b d.event hr ha trivial hd hv
  have hl : b.length = r := (all_start [] r d.args b hr ha hp).2
  rw [expand, f1]
  simp only
  by_cases e : b = s
  · rw [if_pos e]
    exact ⟨d, rfl, by rw [f1, e], f2⟩
  · rw [if_neg e, hl]
    obtain ⟨as', h1, h2, h3, h4⟩ := expandArgs_spec r s hs d.args hr (by
      intro shape ev hm
      rw [argBatch]
      exact hb shape ev hm)
    rw [h1]
    have hp' := all_same s as' [] (.inr ⟨rfl, h4 ha⟩) h3
    have g1 : batchShape [] (.plain { d with args := as' }) = .ok s := by rw [batchShape, pos, hp']; rfl
    have g2 : eventShape [] (.plain { d with args := as' }) = .ok d.event := by rw [eventShape, pos, hp']
    obtain ⟨k1, k2⟩ := C98_family_partial ns s.length (.plain { d with args := as' }) s d.event h2 (h4 ha) trivial g1 g2
    exact ⟨_, rfl, k1, k2⟩

/-- `Normal(loc, 1.0)` with `loc` of shape `(3, 4)` and a name of size 2 -/
example : Rank 2 (.plain ⟨[.arr [3, 4] 0, .num], []⟩) ∧ HasArr (.plain ⟨[.arr [3, 4] 0, .num], []⟩) ∧
    batchShape [] (.toEvent (.plain ⟨[.arr [3, 4] 0, .num], []⟩) (some 1)) = .ok [3] ∧
    eventShape [2] (.toEvent (.plain ⟨[.arr [3, 4] 0, .num], []⟩) (some 1)) = .ok [4] ∧
    logProb [] (.toEvent (.plain ⟨[.arr [3, 4] 0, .num], []⟩) (some 1)) [7, 3, 4] = .ok ([], [7, 3]) ∧
    logProb [2] (.toEvent (.plain ⟨[.arr [3, 4] 0, .num], []⟩) (some 1)) [7, 3, 4] = .ok ([2], [7, 3]) := by
  refine ⟨?_, ⟨[3, 4], 0, by simp⟩, by rfl, by rfl, by rfl, by rfl⟩
  intro a ha
  simp only [List.mem_cons, List.not_mem_nil, or_false] at ha
  rcases ha with rfl | rfl
  · rfl
  · trivial

/-- A multivariate normal with a mean of shape `(1, 3)` and a matrix of shape `(4, 3, 3)`, expanded to `(5, 4)` -/
example : expand [2] (.plain ⟨[.arr [1, 3] 1, .arr [4, 3, 3] 2], [3]⟩) [5, 4] =
    .ok (.plain ⟨[.arr [5, 4, 3] 1, .arr [5, 4, 3, 3] 2], [3]⟩) := rfl

/-- `to_event()` without number makes the names part of the event: the shapes of the distribution with names are not those for each
value of the names, and `log_prob` raises `IndexError`. -/
theorem C98_none_fails : ∃ (ns : List Nat) (d : DT), Rank 1 d ∧ HasArr d ∧
    eventShape [] (.toEvent d none) = .ok [3] ∧ eventShape ns (.toEvent d none) = .ok [2, 3] ∧
    logProb [] (.toEvent d none) [3] = .ok ([], []) ∧ logProb ns (.toEvent d none) [3] = .error .index := by
  refine ⟨[2], .plain ⟨[.arr [3] 0], []⟩, ?_, ⟨[3], 0, by simp⟩, by rfl, by rfl, by rfl, by rfl⟩
  intro a ha
  cases List.mem_singleton.1 ha
  rfl

/-- `to_event(k)` for more dimensions than there are does not raise if there are names. -/
theorem C98_too_many_fails : ∃ (ns : List Nat) (d : DT), Rank 1 d ∧ HasArr d ∧
    batchShape [] (.toEvent d (some 2)) = .error .value ∧
    batchShape ns (.toEvent d (some 2)) = .ok [] ∧ eventShape ns (.toEvent d (some 2)) = .ok [2, 3] := by
  refine ⟨[2], .plain ⟨[.arr [3] 0], []⟩, ?_, ⟨[3], 0, by simp⟩, by rfl, by rfl, by rfl⟩
  intro a ha
  cases List.mem_singleton.1 ha
  rfl

/-- `expand` after `to_event` does nothing, whatever the shape. -/
theorem C98_expand_fails (ns : List Nat) (d : DT) (k : Option Nat) (b s : List Nat) (hb : batchShape ns (.toEvent d k) = .ok b) :
    expand ns (.toEvent d k) s = .ok (.toEvent d k) := by
  rw [expand, hb]
  simp

example : batchShape [] (.toEvent (.plain ⟨[.arr [3, 4] 0], []⟩) (some 1)) = .ok [3] ∧
    expand [] (.toEvent (.plain ⟨[.arr [3, 4] 0], []⟩) (some 1)) [5, 3] = .ok (.toEvent (.plain ⟨[.arr [3, 4] 0], []⟩) (some 1)) :=
  ⟨by rfl, by rfl⟩

end Verif.Indexed.DistMethods
