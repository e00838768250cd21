/-!
# C84: containers in arguments of terms

`evaluate` on containers (`ops/semantics.py` 151-226) with what the constructors of the container classes do. `defdata` evaluates the
arguments of every term it makes (`ops/syntax.py` 519-543).

Simplifications: no state (the order of evaluation is C14); keys are evaluated apart from values, which matters only for which of two
exceptions is raised; equality of keys is structural (`1 == True` is left out); all terms are hashable; the maps of a `ChainMap` are
mappings of the other classes, or the one tuple that evaluation puts there.
-/

namespace Verif.Terms.Containers

/-- Classes of sequences. -/
inductive SeqKind where
  | list
  | tuple
  /-- A named tuple, with its class. -/
  | named (c : Nat)
  | userList
  | deque (maxlen : Option Nat)
  /-- Sequences that cannot be made of a generator: `range`, `array.array`, `memoryview`. -/
  | noIter (c : Nat)
deriving DecidableEq

/-- Classes of mappings. -/
inductive MapKind where
  | dict
  | ordered
  | userDict
  | default (factory : Nat)
  | proxy
  /-- `collections.Counter`. -/
  | counter
  /-- Mappings whose constructor takes no items, such as `IndexSet` (`handlers/indexed.py` 48-54). -/
  | noItems (c : Nat)
deriving DecidableEq

/-- Values. -/
inductive Val where
  | num (n : Int)
  | term (n : Nat)
  | seq (k : SeqKind) (xs : List Val)
  /-- Keys and values, in order. -/
  | map (k : MapKind) (ks vs : List Val)
  /-- A `ChainMap`. -/
  | chain (maps : List Val)
  | set (xs : List Val)
  /-- Views of a mapping. -/
  | keys (ks : List Val)
  | values (vs : List Val)
  | items (ks vs : List Val)

inductive Err where
  /-- `TypeError`. -/
  | type
  /-- `KeyError`, `IndexError`. -/
  | key
  /-- What the handlers raise. -/
  | raised (n : Nat)
deriving DecidableEq

mutual

def Val.decEq : (a b : Val) → Decidable (a = b)
  | .num n, .num m => if h : n = m then isTrue (h ▸ rfl) else isFalse fun e => h (Val.num.inj e)
  | .term n, .term m => if h : n = m then isTrue (h ▸ rfl) else isFalse fun e => h (Val.term.inj e)
  | .seq k xs, .seq l ys =>
    match (inferInstance : Decidable (k = l)), Val.decEqs xs ys with
    | isTrue h, isTrue g => isTrue (h ▸ g ▸ rfl)
    | isFalse h, _ => isFalse fun e => h (Val.seq.inj e).1
    | _, isFalse g => isFalse fun e => g (Val.seq.inj e).2
  | .map k xs vs, .map l ys ws =>
    match (inferInstance : Decidable (k = l)), Val.decEqs xs ys, Val.decEqs vs ws with
    | isTrue h, isTrue g, isTrue f => isTrue (h ▸ g ▸ f ▸ rfl)
    | isFalse h, _, _ => isFalse fun e => h (Val.map.inj e).1
    | _, isFalse g, _ => isFalse fun e => g (Val.map.inj e).2.1
    | _, _, isFalse f => isFalse fun e => f (Val.map.inj e).2.2
  | .chain xs, .chain ys =>
    match Val.decEqs xs ys with
    | isTrue g => isTrue (g ▸ rfl)
    | isFalse g => isFalse fun e => g (Val.chain.inj e)
  | .set xs, .set ys =>
    match Val.decEqs xs ys with
    | isTrue g => isTrue (g ▸ rfl)
    | isFalse g => isFalse fun e => g (Val.set.inj e)
  | .keys xs, .keys ys =>
    match Val.decEqs xs ys with
    | isTrue g => isTrue (g ▸ rfl)
    | isFalse g => isFalse fun e => g (Val.keys.inj e)
  | .values xs, .values ys =>
    match Val.decEqs xs ys with
    | isTrue g => isTrue (g ▸ rfl)
    | isFalse g => isFalse fun e => g (Val.values.inj e)
  | .items xs vs, .items ys ws =>
    match Val.decEqs xs ys, Val.decEqs vs ws with
    | isTrue g, isTrue f => isTrue (g ▸ f ▸ rfl)
    | isFalse g, _ => isFalse fun e => g (Val.items.inj e).1
    | _, isFalse f => isFalse fun e => f (Val.items.inj e).2
  | .num _, .term _ | .num _, .seq _ _ | .num _, .map _ _ _ | .num _, .chain _ | .num _, .set _ | .num _, .keys _ | .num _, .values _
  | .num _, .items _ _ | .term _, .num _ | .term _, .seq _ _ | .term _, .map _ _ _ | .term _, .chain _ | .term _, .set _
  | .term _, .keys _ | .term _, .values _ | .term _, .items _ _ | .seq _ _, .num _ | .seq _ _, .term _ | .seq _ _, .map _ _ _
  | .seq _ _, .chain _ | .seq _ _, .set _ | .seq _ _, .keys _ | .seq _ _, .values _ | .seq _ _, .items _ _ | .map _ _ _, .num _
  | .map _ _ _, .term _ | .map _ _ _, .seq _ _ | .map _ _ _, .chain _ | .map _ _ _, .set _ | .map _ _ _, .keys _
  | .map _ _ _, .values _ | .map _ _ _, .items _ _ | .chain _, .num _ | .chain _, .term _ | .chain _, .seq _ _ | .chain _, .map _ _ _
  | .chain _, .set _ | .chain _, .keys _ | .chain _, .values _ | .chain _, .items _ _ | .set _, .num _ | .set _, .term _
  | .set _, .seq _ _ | .set _, .map _ _ _ | .set _, .chain _ | .set _, .keys _ | .set _, .values _ | .set _, .items _ _
  | .keys _, .num _ | .keys _, .term _ | .keys _, .seq _ _ | .keys _, .map _ _ _ | .keys _, .chain _ | .keys _, .set _
  | .keys _, .values _ | .keys _, .items _ _ | .values _, .num _ | .values _, .term _ | .values _, .seq _ _ | .values _, .map _ _ _
  | .values _, .chain _ | .values _, .set _ | .values _, .keys _ | .values _, .items _ _ | .items _ _, .num _ | .items _ _, .term _
  | .items _ _, .seq _ _ | .items _ _, .map _ _ _ | .items _ _, .chain _ | .items _ _, .set _ | .items _ _, .keys _
  | .items _ _, .values _ => isFalse fun e => nomatch e

def Val.decEqs : (xs ys : List Val) → Decidable (xs = ys)
  | [], [] => isTrue rfl
  | [], _ :: _ => isFalse fun e => nomatch e
  | _ :: _, [] => isFalse fun e => nomatch e
  | x :: xs, y :: ys =>
    match Val.decEq x y, Val.decEqs xs ys with
    | isTrue h, isTrue g => isTrue (h ▸ g ▸ rfl)
    | isFalse h, _ => isFalse fun e => h (List.cons.inj e).1
    | _, isFalse g => isFalse fun e => g (List.cons.inj e).2

end

instance : DecidableEq Val := Val.decEq

/-! ## Dicts -/

mutual

/-- `hash` does not raise. -/
def hashable : Val → Bool
  | .num _ => true
  | .term _ => true
  | .seq k xs =>
    match k with
    | .tuple => hashables xs
    | .named _ => hashables xs
    | .noIter _ => true
    | _ => false
  | .map (.noItems _) _ _ => true
  | .map _ _ _ => false
  | .chain _ => false
  | .set _ => false
  | .keys _ => false
  | .values _ => true
  | .items _ _ => false

def hashables : List Val → Bool
  | [] => true
  | x :: xs => hashable x && hashables xs

end

/-- `d[k] = v`. -/
def insert (k v : Val) : List (Val × Val) → List (Val × Val)
  | [] => [(k, v)]
  | p :: d => if p.1 = k then (k, v) :: d else p :: insert k v d

/-- `dict(pairs)`, with what is there already. -/
def ofPairs : List (Val × Val) → List (Val × Val) → List (Val × Val)
  | d, [] => d
  | d, p :: ps => ofPairs (insert p.1 p.2 d) ps

/-- The first of each of equal values, without those in `seen`. -/
def distinct (seen : List Val) : List Val → List Val
  | [] => []
  | x :: xs => if x ∈ seen then distinct seen xs else x :: distinct (x :: seen) xs

/-- The tuples of keys and values, as `mapping.items()` has them. -/
def pairs (ks vs : List Val) : List Val := (ks.zip vs).map fun p => .seq .tuple [p.1, p.2]

/-- `type(expr)(items)`: `dict` and the like (184-196), `Counter`, and classes that do not take it. -/
def rebuild (k : MapKind) (ks vs : List Val) : Except Err Val :=
  match k with
  | .counter =>
    if hashables (pairs ks vs) then
      let es := distinct [] (pairs ks vs)
      .ok (.map .counter es (es.map fun e => .num ((pairs ks vs).count e)))
    else .error .type
  | .noItems _ => .error .type
  | k =>
    if hashables ks then
      let d := ofPairs [] (ks.zip vs)
      .ok (.map k (d.map (·.1)) (d.map (·.2)))
    else .error .type

/-- All results, or the first exception. -/
def sequence : List (Except Err Val) → Except Err (List Val)
  | [] => .ok []
  | .ok x :: rs =>
    match sequence rs with
    | .ok xs => .ok (x :: xs)
    | .error e => .error e
  | .error e :: _ => .error e

/-- A key of a map with the results for the key and the value. -/
abbrev Entry := Val × Except Err Val × Except Err Val

/-- The entry that `ChainMap.__getitem__` finds: that of the first map with the key. -/
def visible (es : List (List Entry)) (k : Val) : Option Entry := es.flatten.find? fun e => e.1 = k

/-- `ChainMap.items()`: the keys in order of first occurrence, from the last map to the first. -/
def chainEntries (es : List (List Entry)) : List Entry :=
  (distinct [] (es.reverse.flatten.map (·.1))).filterMap (visible es)

def isMap : Val → Bool
  | .map _ _ _ => true
  | _ => false

/-! ## Evaluation -/

mutual

/-- `evaluate(expr)`; `ev` gives the values of terms. Sets are returned as they are (151-166). -/
def evaluate (ev : Nat → Except Err Val) : Val → Except Err Val
  | .num n => .ok (.num n)
  | .term n => ev n
  | .seq k xs =>
    match k with
    | .noIter _ => .error .type
    | .deque _ => (sequence (evaluateAll ev xs)).map (.seq (.deque none))
    | k => (sequence (evaluateAll ev xs)).map (.seq k)
  | .map k ks vs =>
    match sequence (evaluateAll ev ks), sequence (evaluateAll ev vs) with
    | .ok ks', .ok vs' => rebuild k ks' vs'
    | .error e, _ => .error e
    | _, .error e => .error e
  | .chain maps =>
    if maps.all isMap then
      match sequence ((chainEntries (entries ev maps)).map (·.2.1)), sequence ((chainEntries (entries ev maps)).map (·.2.2)) with
      | .ok ks', .ok vs' => .ok (.chain [.seq .tuple (pairs ks' vs')])
      | .error e, _ => .error e
      | _, .error e => .error e
    else
      match maps with
      | [.seq .tuple []] => .ok (.chain [.seq .tuple []])
      | _ => .error .type
  | .set xs => .ok (.set xs)
  | .keys ks =>
    match sequence (evaluateAll ev ks) with
    | .ok ks' => if hashables ks' then .ok (.set (distinct [] ks')) else .error .type
    | .error e => .error e
  | .values vs => (sequence (evaluateAll ev vs)).map (.seq .list)
  | .items ks vs =>
    match sequence (evaluateAll ev ks), sequence (evaluateAll ev vs) with
    | .ok ks', .ok vs' => if hashables (pairs ks' vs') then .ok (.set (distinct [] (pairs ks' vs'))) else .error .type
    | .error e, _ => .error e
    | _, .error e => .error e
termination_by structural v => v

def evaluateAll (ev : Nat → Except Err Val) : List Val → List (Except Err Val)
  | [] => []
  | x :: xs => evaluate ev x :: evaluateAll ev xs
termination_by structural v => v

/-- The entries of each map of a chain. -/
def entries (ev : Nat → Except Err Val) : List Val → List (List Entry)
  | [] => []
  | .map _ ks vs :: maps => ks.zip ((evaluateAll ev ks).zip (evaluateAll ev vs)) :: entries ev maps
  | _ :: maps => [] :: entries ev maps
termination_by structural v => v

end

/-- The arguments of the term made for an operation without a handler (`defdata`, 536-547). -/
def build (ev : Nat → Except Err Val) (args : List Val) : Except Err (List Val) := sequence (evaluateAll ev args)

/-! ## Specification -/

mutual

/-- No terms outside of sets. -/
def Val.plain : Val → Prop
  | .num _ => True
  | .term _ => False
  | .seq _ xs => Val.plains xs
  | .map _ ks vs => Val.plains ks ∧ Val.plains vs
  | .chain ms => Val.plains ms
  | .set _ => True
  | .keys ks => Val.plains ks
  | .values vs => Val.plains vs
  | .items ks vs => Val.plains ks ∧ Val.plains vs

def Val.plains : List Val → Prop
  | [] => True
  | x :: xs => x.plain ∧ Val.plains xs

end

mutual

/-- Mappings have a value for each key, and different hashable keys; chains are of mappings. -/
def Val.wf : Val → Prop
  | .num _ => True
  | .term _ => True
  | .seq _ xs => Val.wfs xs
  | .map _ ks vs => ks.length = vs.length ∧ ks.Nodup ∧ hashables ks = true ∧ Val.wfs ks ∧ Val.wfs vs
  | .chain ms => ms.all isMap = true ∧ Val.wfs ms
  | .set _ => True
  | .keys ks => Val.wfs ks
  | .values vs => Val.wfs vs
  | .items ks vs => Val.wfs ks ∧ Val.wfs vs

def Val.wfs : List Val → Prop
  | [] => True
  | x :: xs => x.wf ∧ Val.wfs xs

end

/-- Sequences that can be made of their items alone. -/
def SeqKind.kept : SeqKind → Prop
  | .deque (some _) => False
  | .noIter _ => False
  | _ => True

mutual

/-- All containers, outside of sets, are of classes that are made of their items. -/
def Val.kept : Val → Prop
  | .num _ => True
  | .term _ => True
  | .seq k xs => k.kept ∧ Val.kepts xs
  | .map k ks vs =>
    match k with
    | .counter => ks = []
    | .noItems _ => False
    | _ => Val.kepts ks ∧ Val.kepts vs
  | .chain _ => False
  | .set _ => True
  | .keys _ => False
  | .values _ => False
  | .items _ _ => False

def Val.kepts : List Val → Prop
  | [] => True
  | x :: xs => x.kept ∧ Val.kepts xs

end

/-- `mapping[key]`. -/
def getItem (key : Val) : List Val → Except Err Val
  | [] => .error .key
  | .map _ ks vs :: ms =>
    match (ks.zip vs).find? (fun p => p.1 = key) with
    | some p => .ok p.2
    | none => getItem key ms
  | .seq _ xs :: _ =>
    match key with
    | .num i => if h : i.toNat < xs.length then .ok xs[i.toNat] else .error .key
    | _ => .error .type
  | _ :: _ => .error .type

/-! ## Proofs -/

theorem sequence_ok {rs : List (Except Err Val)} {ys : List Val} (h : sequence rs = .ok ys) : rs = ys.map .ok := by
  induction rs generalizing ys with
  | nil => cases h; rfl
  | cons r rs ih =>
    cases r with
    | error e => cases h
    | ok x =>
      rw [sequence] at h
      split at h
      · next xs hx => cases h; rw [ih hx]; rfl
      · cases h

theorem sequence_map (ys : List Val) : sequence (ys.map .ok) = .ok ys := by
  induction ys with
  | nil => rfl
  | cons y ys ih => rw [List.map_cons, sequence, ih]

theorem evaluateAll_length (ev : Nat → Except Err Val) (xs : List Val) : (evaluateAll ev xs).length = xs.length := by
  induction xs with
  | nil => rfl
  | cons x xs ih => rw [evaluateAll, List.length_cons, ih, List.length_cons]

theorem results_length {ev : Nat → Except Err Val} {xs ys : List Val} (h : sequence (evaluateAll ev xs) = .ok ys) :
    ys.length = xs.length := by
  have := congrArg List.length (sequence_ok h)
  rw [evaluateAll_length, List.length_map] at this
  exact this.symm

theorem insert_new {k v : Val} {d : List (Val × Val)} (h : k ∉ d.map (·.1)) : insert k v d = d ++ [(k, v)] := by
  induction d with
  | nil => rfl
  | cons p d ih =>
    rw [List.map_cons, List.mem_cons, not_or] at h
    rw [insert, if_neg (fun e => h.1 e.symm), ih h.2]
    rfl

theorem insert_old {k v : Val} {d : List (Val × Val)} (h : k ∈ d.map (·.1)) : (insert k v d).length = d.length := by
  induction d with
  | nil => cases h
  | cons p d ih =>
    rw [insert]
    split
    · rfl
    · next hne =>
      rw [List.map_cons, List.mem_cons] at h
      rw [List.length_cons, ih (h.resolve_left fun e => hne e.symm), List.length_cons]

theorem insert_length (k v : Val) (d : List (Val × Val)) : (insert k v d).length ≤ d.length + 1 := by
  by_cases h : k ∈ d.map (·.1)
  · rw [insert_old h]; omega
  · rw [insert_new h, List.length_append]; exact Nat.le_refl _

theorem ofPairs_length (ps d : List (Val × Val)) : (ofPairs d ps).length ≤ d.length + ps.length := by
  induction ps generalizing d with
  | nil => exact Nat.le_refl _
  | cons p ps ih =>
    have h1 := ih (insert p.1 p.2 d)
    have h2 := insert_length p.1 p.2 d
    rw [ofPairs, List.length_cons]
    omega

theorem ofPairs_all {ps d : List (Val × Val)} (h : (ofPairs d ps).length = d.length + ps.length) : ofPairs d ps = d ++ ps := by
  induction ps generalizing d with
  | nil => rw [ofPairs, List.append_nil]
  | cons p ps ih =>
    rw [ofPairs, List.length_cons] at h
    rw [ofPairs]
    by_cases hk : p.1 ∈ d.map (·.1)
    · have h1 := ofPairs_length ps (insert p.1 p.2 d)
      rw [insert_old hk] at h1
      omega
    · rw [insert_new hk] at h ⊢
      rw [ih (by rw [h, List.length_append, List.length_singleton]; omega), List.append_assoc]
      rfl

theorem ofPairs_nodup {ps d : List (Val × Val)} (h : ((d ++ ps).map (·.1)).Nodup) : ofPairs d ps = d ++ ps := by
  induction ps generalizing d with
  | nil => rw [ofPairs, List.append_nil]
  | cons p ps ih =>
    have hk : p.1 ∉ d.map (·.1) := by
      rw [List.map_append, List.map_cons] at h
      intro hm
      exact (List.nodup_append.mp h).2.2 _ hm _ (List.mem_cons_self ..) rfl
    rw [ofPairs, insert_new hk, ih (by rw [List.append_assoc]; exact h), List.append_assoc]
    rfl

theorem distinct_nodup {xs seen : List Val} (h : xs.Nodup) (hs : ∀ x ∈ xs, x ∉ seen) : distinct seen xs = xs := by
  induction xs generalizing seen with
  | nil => rfl
  | cons x xs ih =>
    rw [List.nodup_cons] at h
    rw [distinct, if_neg (hs x (List.mem_cons_self ..)), ih h.2]
    intro y hy hm
    rcases List.mem_cons.mp hm with rfl | hm
    · exact h.1 hy
    · exact hs y (List.mem_cons_of_mem _ hy) hm

theorem fst_zip {ks vs : List Val} (h : ks.length = vs.length) : (ks.zip vs).map (·.1) = ks :=
  List.map_fst_zip (Nat.le_of_eq h)

theorem snd_zip {ks vs : List Val} (h : ks.length = vs.length) : (ks.zip vs).map (·.2) = vs :=
  List.map_snd_zip (Nat.le_of_eq h.symm)

/-- The mappings that are made of their items. -/
def MapKind.ofItems : MapKind → Prop
  | .counter => False
  | .noItems _ => False
  | _ => True

theorem rebuild_ofItems {k : MapKind} (hk : k.ofItems) (ks vs : List Val) :
    rebuild k ks vs = if hashables ks then
        .ok (.map k ((ofPairs [] (ks.zip vs)).map (·.1)) ((ofPairs [] (ks.zip vs)).map (·.2))) else .error .type := by
  cases k <;> first | exact hk.elim | rfl

theorem kept_ofItems {k : MapKind} (hk : k.ofItems) (ks vs : List Val) :
    (Val.map k ks vs).kept ↔ Val.kepts ks ∧ Val.kepts vs := by
  cases k <;> first | exact hk.elim | exact Iff.rfl

/-- Nothing is a pair whose first part is its own result. -/
theorem no_loop (ev : Nat → Except Err Val) (v w x : Val) (h : evaluate ev v = .ok w) : v ≠ .seq .tuple [w, x] := by
  intro e
  subst e
  simp only [evaluate, evaluateAll] at h
  cases hw : evaluate ev w with
  | error e => rw [hw, sequence] at h; cases h
  | ok w' =>
    cases hx : evaluate ev x with
    | error e => rw [hw, hx, sequence, sequence] at h; cases h
    | ok x' =>
      rw [hw, hx] at h
      have e : Val.seq .tuple [w', x'] = w := Except.ok.inj h
      exact no_loop ev w w' x' hw e.symm
termination_by sizeOf w
decreasing_by
  subst e
  simp
  omega

theorem evaluate_chain (ev : Nat → Except Err Val) {ms : List Val} (hm : ms.all isMap = true) :
    evaluate ev (.chain ms) =
      match sequence ((chainEntries (entries ev ms)).map (·.2.1)), sequence ((chainEntries (entries ev ms)).map (·.2.2)) with
      | .ok ks', .ok vs' => .ok (.chain [.seq .tuple (pairs ks' vs')])
      | .error e, _ => .error e
      | _, .error e => .error e := by
  have h : ∀ {α : Type} (x y : α), (if ms.all isMap = true then x else y) = x := fun x y => if_pos hm
  exact h _ _

theorem chain_result {ev : Nat → Except Err Val} {ms : List Val} {r : Val} (hm : ms.all isMap = true)
    (h : evaluate ev (.chain ms) = .ok r) : ∃ ps, r = .chain [.seq .tuple ps] := by
  rw [evaluate_chain ev hm] at h
  split at h
  · cases h; exact ⟨_, rfl⟩
  · cases h
  · cases h

mutual

theorem kept_iff (ev : Nat → Except Err Val) : ∀ v : Val, v.wf → v.plain → (evaluate ev v = .ok v ↔ v.kept)
  | .num n, _, _ => ⟨fun _ => trivial, fun _ => rfl⟩
  | .term n, _, h => h.elim
  | .seq k xs, hw, hp => by
    have ih := kepts_iff ev xs hw hp
    have key : ∀ k', (sequence (evaluateAll ev xs)).map (Val.seq k') = .ok (.seq k xs) ↔ k' = k ∧ Val.kepts xs := by
      intro k'
      constructor
      · intro h
        cases hs : sequence (evaluateAll ev xs) with
        | error e => rw [hs] at h; cases h
        | ok ys =>
          rw [hs] at h
          have e := Val.seq.inj (Except.ok.inj h)
          exact ⟨e.1, ih.mp (by rw [hs, e.2])⟩
      · rintro ⟨rfl, h⟩
        rw [ih.mpr h]
        rfl
    cases k with
    | noIter c => exact ⟨fun h => (nomatch h), fun h => h.1.elim⟩
    | deque m =>
      have := key (.deque none)
      rw [evaluate, this]
      cases m with
      | none => exact ⟨fun h => ⟨trivial, h.2⟩, fun h => ⟨rfl, h.2⟩⟩
      | some m => exact ⟨fun h => (nomatch h.1), fun h => h.1.elim⟩
    | list => exact (key _).trans ⟨fun h => ⟨trivial, h.2⟩, fun h => ⟨rfl, h.2⟩⟩
    | tuple => exact (key _).trans ⟨fun h => ⟨trivial, h.2⟩, fun h => ⟨rfl, h.2⟩⟩
    | named c => exact (key _).trans ⟨fun h => ⟨trivial, h.2⟩, fun h => ⟨rfl, h.2⟩⟩
    | userList => exact (key _).trans ⟨fun h => ⟨trivial, h.2⟩, fun h => ⟨rfl, h.2⟩⟩
  | .map k ks vs, hw, hp => by
    have ihk := kepts_iff ev ks hw.2.2.2.1 hp.1
    have ihv := kepts_iff ev vs hw.2.2.2.2 hp.2
    by_cases hk : k.ofItems
    · rw [kept_ofItems hk]
      constructor
      · intro h
        rw [evaluate] at h
        split at h
        · next ks' vs' hks hvs =>
          rw [rebuild_ofItems hk] at h
          split at h
          · have e := Val.map.inj (Except.ok.inj h)
            have l1 := results_length hks
            have l2 := results_length hvs
            have l3 : ks'.length = vs'.length := by rw [l1, l2, hw.1]
            have l4 : (ofPairs [] (ks'.zip vs')).length = ks.length := by
              rw [← e.2.1, List.length_map]
            have e5 := ofPairs_all (ps := ks'.zip vs') (d := [])
              (by rw [l4, List.length_zip, ← l3, Nat.min_self, l1]; exact (Nat.zero_add _).symm)
            rw [e5, List.nil_append, fst_zip l3, snd_zip l3] at e
            exact ⟨ihk.mp (by rw [hks, e.2.1]), ihv.mp (by rw [hvs, e.2.2])⟩
          · cases h
        · cases h
        · cases h
      · intro h
        rw [evaluate, ihk.mpr h.1, ihv.mpr h.2]
        show rebuild k ks vs = _
        rw [rebuild_ofItems hk, if_pos hw.2.2.1, ofPairs_nodup (by rw [List.nil_append, fst_zip hw.1]; exact hw.2.1),
          List.nil_append, fst_zip hw.1, snd_zip hw.1]
    · cases k with
      | counter =>
        show _ ↔ ks = []
        constructor
        · intro h
          rw [evaluate] at h
          split at h
          · next ks' vs' hks hvs =>
            cases ks with
            | nil => rfl
            | cons x xs =>
              cases vs with
              | nil => exact (nomatch hw.1)
              | cons y ys =>
                have l1 := results_length hks
                have l2 := results_length hvs
                cases ks' with
                | nil => exact (nomatch l1)
                | cons x' xs' =>
                  cases vs' with
                  | nil => exact (nomatch l2)
                  | cons y' ys' =>
                    have hx : evaluate ev x = .ok x' := by
                      have := sequence_ok hks
                      rw [evaluateAll, List.map_cons] at this
                      exact (List.cons.inj this).1
                    rw [rebuild] at h
                    split at h
                    · have e := Val.map.inj (Except.ok.inj h)
                      have e1 : Val.seq .tuple [x', y'] = x := by
                        have := e.2.1
                        simp only [pairs, List.zip_cons_cons, List.map_cons, distinct, List.not_mem_nil, if_false] at this
                        exact (List.cons.inj this).1
                      exact absurd e1.symm (no_loop ev x x' y' hx)
                    · cases h
          · cases h
          · cases h
        · intro h
          subst h
          cases vs with
          | nil => rfl
          | cons y ys => exact (nomatch hw.1)
      | noItems c =>
        constructor
        · intro h
          rw [evaluate] at h
          split at h
          · cases h
          · cases h
          · cases h
        · intro h
          exact h.elim
      | dict => exact absurd trivial hk
      | ordered => exact absurd trivial hk
      | userDict => exact absurd trivial hk
      | default f => exact absurd trivial hk
      | proxy => exact absurd trivial hk
  | .chain ms, hw, hp => by
    refine ⟨fun h => ?_, fun h => h.elim⟩
    obtain ⟨ps, e⟩ := chain_result hw.1 h
    have e := Val.chain.inj e
    rw [e] at hw
    exact (nomatch hw.1)
  | .set xs, _, _ => ⟨fun _ => trivial, fun _ => rfl⟩
  | .keys ks, _, _ => by
    refine ⟨fun h => ?_, fun h => h.elim⟩
    rw [evaluate] at h
    split at h
    · split at h
      · cases h
      · cases h
    · cases h
  | .values vs, _, _ => by
    refine ⟨fun h => ?_, fun h => h.elim⟩
    rw [evaluate] at h
    cases hs : sequence (evaluateAll ev vs) with
    | error e => rw [hs] at h; cases h
    | ok ys => rw [hs] at h; cases h
  | .items ks vs, _, _ => by
    refine ⟨fun h => ?_, fun h => h.elim⟩
    rw [evaluate] at h
    split at h
    · split at h
      · cases h
      · cases h
    · cases h
    · cases h

theorem kepts_iff (ev : Nat → Except Err Val) : ∀ xs : List Val, Val.wfs xs → Val.plains xs →
    (sequence (evaluateAll ev xs) = .ok xs ↔ Val.kepts xs)
  | [], _, _ => ⟨fun _ => trivial, fun _ => rfl⟩
  | x :: xs, hw, hp => by
    have ih := kept_iff ev x hw.1 hp.1
    have ihs := kepts_iff ev xs hw.2 hp.2
    rw [Val.kepts, ← ih, ← ihs]
    constructor
    · intro h
      have := sequence_ok h
      rw [evaluateAll, List.map_cons] at this
      have e := List.cons.inj this
      exact ⟨e.1, by rw [e.2, sequence_map]⟩
    · rintro ⟨h1, h2⟩
      rw [evaluateAll, h1, sequence, h2]

end

theorem hashables_iff {xs : List Val} : hashables xs = true ↔ ∀ x ∈ xs, hashable x = true := by
  induction xs with
  | nil => exact ⟨fun _ x hx => (nomatch hx), fun _ => rfl⟩
  | cons x xs ih =>
    rw [hashables, Bool.and_eq_true, ih]
    exact ⟨fun h y hy => (List.mem_cons.mp hy).elim (fun e => e ▸ h.1) (h.2 y),
      fun h => ⟨h x (List.mem_cons_self ..), fun y hy => h y (List.mem_cons_of_mem _ hy)⟩⟩

theorem mem_pairs {ks vs : List Val} {e : Val} (h : e ∈ pairs ks vs) : ∃ k v, e = .seq .tuple [k, v] ∧ k ∈ ks ∧ v ∈ vs := by
  obtain ⟨p, hp, rfl⟩ := List.mem_map.mp h
  exact ⟨p.1, p.2, rfl, (List.of_mem_zip hp).1, (List.of_mem_zip hp).2⟩

theorem pairs_hashables {ks vs : List Val} (hk : hashables ks = true) (hv : hashables vs = true) : hashables (pairs ks vs) = true := by
  rw [hashables_iff]
  intro e he
  obtain ⟨k, v, rfl, h1, h2⟩ := mem_pairs he
  rw [hashable, hashables, hashables, hashables, hashables_iff.mp hk k h1, hashables_iff.mp hv v h2]
  rfl

theorem pairs_nodup {ks vs : List Val} (h : ks.Nodup) : (pairs ks vs).Nodup := by
  induction ks generalizing vs with
  | nil => exact List.nodup_nil
  | cons k ks ih =>
    cases vs with
    | nil => exact List.nodup_nil
    | cons v vs =>
      rw [List.nodup_cons] at h
      refine List.nodup_cons.mpr ⟨fun hm => ?_, ih h.2⟩
      obtain ⟨k', v', e, hk, _⟩ := mem_pairs hm
      have e := (Val.seq.inj e).2
      have e : k = k' := (List.cons.inj e).1
      exact h.1 (e ▸ hk)

theorem count_one {xs : List Val} (h : xs.Nodup) {x : Val} (hx : x ∈ xs) : xs.count x = 1 := by
  have h1 : 0 < xs.count x := List.count_pos_iff.mpr hx
  have h2 := List.nodup_iff_count.mp h x
  omega

/-- A Counter of plain values. -/
structure Counts (ks vs : List Val) : Prop where
  length : ks.length = vs.length
  nodup : ks.Nodup
  hashK : hashables ks = true
  hashV : hashables vs = true
  wfK : Val.wfs ks
  wfV : Val.wfs vs
  plainK : Val.plains ks
  plainV : Val.plains vs
  keptK : Val.kepts ks
  keptV : Val.kepts vs

theorem counts_evaluate {ks vs : List Val} (h : Counts ks vs) (ev : Nat → Except Err Val) :
    evaluate ev (.map .counter ks vs) = .ok (.map .counter (pairs ks vs) ((pairs ks vs).map fun _ => .num 1)) := by
  rw [evaluate, (kepts_iff ev ks h.wfK h.plainK).mpr h.keptK, (kepts_iff ev vs h.wfV h.plainV).mpr h.keptV]
  show rebuild .counter ks vs = _
  rw [rebuild, if_pos (pairs_hashables h.hashK h.hashV), distinct_nodup (pairs_nodup h.nodup) (fun _ _ => List.not_mem_nil)]
  have e : (pairs ks vs).map (fun e => Val.num ((pairs ks vs).count e)) = (pairs ks vs).map (fun _ => Val.num 1) := by
    apply List.map_congr_left
    intro x hx
    rw [count_one (pairs_nodup h.nodup) hx]
    rfl
  exact congrArg (fun l => Except.ok (Val.map .counter (pairs ks vs) l)) e

theorem wfs_iff {xs : List Val} : Val.wfs xs ↔ ∀ x ∈ xs, x.wf := by
  induction xs with
  | nil => exact ⟨fun _ x hx => (nomatch hx), fun _ => trivial⟩
  | cons x xs ih =>
    rw [Val.wfs, ih]
    exact ⟨fun h y hy => (List.mem_cons.mp hy).elim (fun e => e ▸ h.1) (h.2 y),
      fun h => ⟨h x (List.mem_cons_self ..), fun y hy => h y (List.mem_cons_of_mem _ hy)⟩⟩

theorem plains_iff {xs : List Val} : Val.plains xs ↔ ∀ x ∈ xs, x.plain := by
  induction xs with
  | nil => exact ⟨fun _ x hx => (nomatch hx), fun _ => trivial⟩
  | cons x xs ih =>
    rw [Val.plains, ih]
    exact ⟨fun h y hy => (List.mem_cons.mp hy).elim (fun e => e ▸ h.1) (h.2 y),
      fun h => ⟨h x (List.mem_cons_self ..), fun y hy => h y (List.mem_cons_of_mem _ hy)⟩⟩

theorem kepts_all {xs : List Val} : Val.kepts xs ↔ ∀ x ∈ xs, x.kept := by
  induction xs with
  | nil => exact ⟨fun _ x hx => (nomatch hx), fun _ => trivial⟩
  | cons x xs ih =>
    rw [Val.kepts, ih]
    exact ⟨fun h y hy => (List.mem_cons.mp hy).elim (fun e => e ▸ h.1) (h.2 y),
      fun h => ⟨h x (List.mem_cons_self ..), fun y hy => h y (List.mem_cons_of_mem _ hy)⟩⟩

theorem counts_next {ks vs : List Val} (h : Counts ks vs) : Counts (pairs ks vs) ((pairs ks vs).map fun _ => .num 1) where
  length := (List.length_map _).symm
  nodup := pairs_nodup h.nodup
  hashK := pairs_hashables h.hashK h.hashV
  hashV := hashables_iff.mpr fun x hx => by obtain ⟨_, _, rfl⟩ := List.mem_map.mp hx; rfl
  wfK := wfs_iff.mpr fun x hx => by
    obtain ⟨k, v, rfl, hk, hv⟩ := mem_pairs hx
    exact ⟨wfs_iff.mp h.wfK k hk, wfs_iff.mp h.wfV v hv, trivial⟩
  wfV := wfs_iff.mpr fun x hx => by obtain ⟨_, _, rfl⟩ := List.mem_map.mp hx; trivial
  plainK := plains_iff.mpr fun x hx => by
    obtain ⟨k, v, rfl, hk, hv⟩ := mem_pairs hx
    exact ⟨plains_iff.mp h.plainK k hk, plains_iff.mp h.plainV v hv, trivial⟩
  plainV := plains_iff.mpr fun x hx => by obtain ⟨_, _, rfl⟩ := List.mem_map.mp hx; trivial
  keptK := kepts_all.mpr fun x hx => by
    obtain ⟨k, v, rfl, hk, hv⟩ := mem_pairs hx
    exact ⟨trivial, kepts_all.mp h.keptK k hk, kepts_all.mp h.keptV v hv, trivial⟩
  keptV := kepts_all.mpr fun x hx => by obtain ⟨_, _, rfl⟩ := List.mem_map.mp hx; trivial

/-- Evaluated that many times. -/
def again (ev : Nat → Except Err Val) : Nat → Val → Except Err Val
  | 0, v => .ok v
  | n + 1, v =>
    match again ev n v with
    | .ok r => evaluate ev r
    | .error e => .error e

/-- `v` is a pair whose first part is a pair, and so on, `n` times. -/
inductive Nested : Nat → Val → Prop
  | zero (v) : Nested 0 v
  | succ {n k} (v) : Nested n k → Nested (n + 1) (.seq .tuple [k, v])

theorem insert_find (k v key : Val) (d : List (Val × Val)) :
    (insert k v d).find? (fun p => p.1 = key) = if k = key then some (k, v) else d.find? (fun p => p.1 = key) := by
  induction d with
  | nil =>
    rw [insert]
    by_cases h : k = key
    · rw [if_pos h, List.find?_cons_of_pos (by simpa using h)]
    · rw [if_neg h, List.find?_cons_of_neg (by simpa using h)]
  | cons p d ih =>
    rw [insert]
    by_cases hp : p.1 = k
    · rw [if_pos hp]
      by_cases h : k = key
      · rw [if_pos h, List.find?_cons_of_pos (by simpa using h)]
      · rw [if_neg h, List.find?_cons_of_neg (by simpa using h), List.find?_cons_of_neg (by simpa [hp] using h)]
    · rw [if_neg hp]
      by_cases h : p.1 = key
      · have hk : k ≠ key := fun e => hp (h.trans e.symm)
        rw [if_neg hk, List.find?_cons_of_pos (by simpa using h), List.find?_cons_of_pos (by simpa using h)]
      · rw [List.find?_cons_of_neg (by simpa using h), ih, List.find?_cons_of_neg (by simpa using h)]

theorem ofPairs_find (key : Val) (ps d : List (Val × Val)) :
    (ofPairs d ps).find? (fun p => p.1 = key) =
      ((ps.reverse.find? fun p => p.1 = key).or (d.find? fun p => p.1 = key)) := by
  induction ps generalizing d with
  | nil => rw [ofPairs, List.reverse_nil, List.find?_nil, Option.none_or]
  | cons p ps ih =>
    rw [ofPairs, ih, insert_find, List.reverse_cons, List.find?_append, Option.or_assoc]
    by_cases h : p.1 = key
    · rw [if_pos h, List.find?_cons_of_pos (by simpa using h), Option.some_or]
    · rw [if_neg h, List.find?_cons_of_neg (by simpa using h), List.find?_nil, Option.none_or]

theorem zip_parts (d : List (Val × Val)) : (d.map (·.1)).zip (d.map (·.2)) = d := by
  induction d with
  | nil => rfl
  | cons p d ih => rw [List.map_cons, List.map_cons, List.zip_cons_cons, ih]

/-! ## Theorems -/

/-- A value without terms evaluates to itself exactly if all its containers are of classes that are made of their items: not a `deque`
with a maximal length, `range` and the like, a `Counter` that is not empty, a mapping whose constructor takes no items, a `ChainMap` or
a view. -/
theorem C84_values (ev : Nat → Except Err Val) (v : Val) (hw : v.wf) (hp : v.plain) : evaluate ev v = .ok v ↔ v.kept :=
  kept_iff ev v hw hp

/-- A term that is made for arguments without terms has these arguments exactly if they are such values. -/
theorem C84_arguments (ev : Nat → Except Err Val) (args : List Val) (hw : ∀ v ∈ args, v.wf) (hp : ∀ v ∈ args, v.plain) :
    build ev args = .ok args ↔ ∀ v ∈ args, v.kept :=
  (kepts_iff ev args (wfs_iff.mpr hw) (plains_iff.mpr hp)).trans kepts_all

/-- With terms in them, sequences and mappings of these classes keep their class, and sequences their length. -/
theorem C84_classes (ev : Nat → Except Err Val) :
    (∀ k xs r, SeqKind.kept k → evaluate ev (.seq k xs) = .ok r → ∃ ys, r = .seq k ys ∧ ys.length = xs.length) ∧
    (∀ k ks vs r, MapKind.ofItems k → evaluate ev (.map k ks vs) = .ok r → ∃ ks' vs', r = .map k ks' vs') := by
  constructor
  · intro k xs r hk h
    have key : ∀ k', (sequence (evaluateAll ev xs)).map (Val.seq k') = .ok r → ∃ ys, r = .seq k' ys ∧ ys.length = xs.length := by
      intro k' h
      cases hs : sequence (evaluateAll ev xs) with
      | error e => rw [hs] at h; cases h
      | ok ys => rw [hs] at h; cases h; exact ⟨ys, rfl, results_length hs⟩
    cases k with
    | noIter c => exact hk.elim
    | deque m =>
      cases m with
      | none => exact key _ h
      | some m => exact hk.elim
    | list => exact key _ h
    | tuple => exact key _ h
    | named c => exact key _ h
    | userList => exact key _ h
  · intro k ks vs r hk h
    rw [evaluate] at h
    split at h
    · rw [rebuild_ofItems hk] at h
      split at h
      · cases h; exact ⟨_, _, rfl⟩
      · cases h
    · cases h
    · cases h

/-- In the new mapping a key has the value of the last of the old keys that evaluate to it. -/
theorem C84_lookup (ev : Nat → Except Err Val) (k : MapKind) (hk : k.ofItems) (ks vs : List Val) (r : Val)
    (h : evaluate ev (.map k ks vs) = .ok r) :
    ∃ ks' vs' : List Val, evaluateAll ev ks = ks'.map .ok ∧ evaluateAll ev vs = vs'.map .ok ∧
      ∀ key, getItem key [r] =
        match (ks'.zip vs').reverse.find? (fun p => p.1 = key) with
        | some p => .ok p.2
        | none => .error .key := by
  rw [evaluate] at h
  split at h
  · rename_i ks' vs' h1 h2
    refine ⟨ks', vs', sequence_ok h1, sequence_ok h2, fun key => ?_⟩
    rw [rebuild_ofItems hk] at h
    split at h
    · cases h
      rw [getItem, zip_parts, ofPairs_find, List.find?_nil, Option.or_none]
      rfl
    · cases h
  · cases h
  · cases h

/-- A `Counter` becomes a `Counter` of its items, each counted once. -/
theorem C84_counter_fails (ev : Nat → Except Err Val) {ks vs : List Val} (h : Counts ks vs) (hne : ks ≠ []) :
    evaluate ev (.map .counter ks vs) = .ok (.map .counter (pairs ks vs) ((pairs ks vs).map fun _ => .num 1)) ∧
      evaluate ev (.map .counter ks vs) ≠ .ok (.map .counter ks vs) :=
  ⟨counts_evaluate h ev, fun e => hne ((C84_values ev (.map .counter ks vs) ⟨h.length, h.nodup, h.hashK, h.wfK, h.wfV⟩ ⟨h.plainK, h.plainV⟩).mp e)⟩

/-- Each further evaluation adds a level: after `n` evaluations all keys are nested `n` times, and so never are the same again. -/
theorem C84_grows_fails (ev : Nat → Except Err Val) {ks vs : List Val} (h : Counts ks vs) (n : Nat) :
    ∃ ks' vs', again ev n (.map .counter ks vs) = .ok (.map .counter ks' vs') ∧ ks'.length = ks.length ∧ ∀ k ∈ ks', Nested n k := by
  have main : ∃ ks' vs', again ev n (.map .counter ks vs) = .ok (.map .counter ks' vs') ∧ Counts ks' vs' ∧ ks'.length = ks.length ∧
      ∀ k ∈ ks', Nested n k := by
    induction n with
    | zero => exact ⟨ks, vs, rfl, h, rfl, fun k _ => .zero k⟩
    | succ n ih =>
      obtain ⟨ks', vs', e, hc, hl, hn⟩ := ih
      refine ⟨_, _, ?_, counts_next hc, ?_, fun k hk => ?_⟩
      · rw [again, e]
        exact counts_evaluate hc ev
      · rw [pairs, List.length_map, List.length_zip, ← hc.length, Nat.min_self, hl]
      · obtain ⟨k', v', rfl, hk', _⟩ := mem_pairs hk
        exact .succ _ (hn k' hk')
  obtain ⟨ks', vs', e, _, hl, hn⟩ := main
  exact ⟨ks', vs', e, hl, hn⟩

/-- A `ChainMap` becomes one that has a tuple for its only map: reading a key that is no number raises `TypeError`, and so does the next
evaluation, if there were keys. -/
theorem C84_chain_fails (ev ev' : Nat → Except Err Val) (ms : List Val) (hm : ms.all isMap = true) (r : Val)
    (h : evaluate ev (.chain ms) = .ok r) :
    ∃ ps, r = .chain [.seq .tuple ps] ∧ (∀ key, (∀ n, key ≠ .num n) → getItem key [.seq .tuple ps] = .error .type) ∧
      (ps ≠ [] → evaluate ev' r = .error .type) := by
  obtain ⟨ps, rfl⟩ := chain_result hm h
  refine ⟨ps, rfl, fun key hk => ?_, fun hne => ?_⟩
  · cases key <;> first | exact absurd rfl (hk _) | rfl
  · cases ps with
    | nil => exact absurd rfl hne
    | cons p ps => rfl

/-- `range`, arrays and mappings such as `IndexSet` cannot be evaluated, nor be in the arguments of a term. -/
theorem C84_constructor_fails (ev : Nat → Except Err Val) :
    (∀ c xs, evaluate ev (.seq (.noIter c) xs) = .error .type) ∧
    (∀ c ks vs, ∃ e, evaluate ev (.map (.noItems c) ks vs) = .error e) ∧
    (∀ c ks vs args, .map (.noItems c) ks vs ∈ args → ∃ e, build ev args = .error e) := by
  have h2 : ∀ c ks vs, ∃ e, evaluate ev (.map (.noItems c) ks vs) = .error e := by
    intro c ks vs
    rw [evaluate]
    split
    · exact ⟨_, rfl⟩
    · exact ⟨_, rfl⟩
    · exact ⟨_, rfl⟩
  refine ⟨fun _ _ => rfl, h2, fun c ks vs args hm => ?_⟩
  induction args with
  | nil => cases hm
  | cons a args ih =>
    rw [build, evaluateAll]
    rcases List.mem_cons.mp hm with rfl | hm
    · obtain ⟨e, he⟩ := h2 c ks vs
      exact ⟨e, by rw [he, sequence]⟩
    · obtain ⟨e, he⟩ := ih hm
      cases evaluate ev a with
      | error e' => exact ⟨e', rfl⟩
      | ok x =>
        refine ⟨e, ?_⟩
        rw [build] at he
        rw [sequence, he]

/-- A `deque` loses its maximal length. -/
theorem C84_deque_fails (ev : Nat → Except Err Val) (m : Nat) (xs : List Val) (r : Val)
    (h : evaluate ev (.seq (.deque (some m)) xs) = .ok r) : ∃ ys, r = .seq (.deque none) ys := by
  rw [evaluate] at h
  cases hs : sequence (evaluateAll ev xs) with
  | error e => rw [hs] at h; cases h
  | ok ys => rw [hs] at h; cases h; exact ⟨ys, rfl⟩

/-- Views become a set or a list; for the items of a mapping with a value that is not hashable this raises `TypeError`. -/
theorem C84_views_fails (ev : Nat → Except Err Val) :
    (∀ ks r, evaluate ev (.keys ks) = .ok r → ∃ xs, r = .set xs) ∧
    (∀ vs r, evaluate ev (.values vs) = .ok r → ∃ xs, r = .seq .list xs) ∧
    (∀ ks vs r, evaluate ev (.items ks vs) = .ok r → ∃ xs, r = .set xs) ∧
    (∀ ks vs, ks.length = vs.length → Val.wfs ks → Val.wfs vs → Val.plains ks → Val.plains vs → Val.kepts ks → Val.kepts vs →
      hashables vs = false → evaluate ev (.items ks vs) = .error .type) := by
  refine ⟨fun ks r h => ?_, fun vs r h => ?_, fun ks vs r h => ?_, fun ks vs hl w1 w2 p1 p2 k1 k2 hh => ?_⟩
  · rw [evaluate] at h
    split at h
    · split at h
      · cases h; exact ⟨_, rfl⟩
      · cases h
    · cases h
  · rw [evaluate] at h
    cases hs : sequence (evaluateAll ev vs) with
    | error e => rw [hs] at h; cases h
    | ok ys => rw [hs] at h; cases h; exact ⟨ys, rfl⟩
  · rw [evaluate] at h
    split at h
    · split at h
      · cases h; exact ⟨_, rfl⟩
      · cases h
    · cases h
    · cases h
  · rw [evaluate, (kepts_iff ev ks w1 p1).mpr k1, (kepts_iff ev vs w2 p2).mpr k2]
    have e : hashables (pairs ks vs) = false := by
      cases hp : hashables (pairs ks vs) with
      | false => rfl
      | true =>
        have : hashables vs = true := by
          rw [hashables_iff] at hp ⊢
          intro v hv
          obtain ⟨i, hi, rfl⟩ := List.getElem_of_mem hv
          have hi' : i < ks.length := hl ▸ hi
          have := hp (.seq .tuple [ks[i], vs[i]]) (List.mem_map.mpr ⟨(ks[i], vs[i]),
            List.mem_iff_getElem.mpr ⟨i, by rw [List.length_zip]; omega, by rw [List.getElem_zip]⟩, rfl⟩)
          rw [hashable, hashables, hashables, Bool.and_eq_true, Bool.and_eq_true] at this
          exact this.2.1
        rw [hh] at this
        cases this
    show (if hashables (pairs ks vs) = true then _ else _) = _
    rw [e]
    rfl

/-! ## Examples -/

def none' : Nat → Except Err Val := fun n => .error (.raised n)

/-- `{1: [2, (3,)], (4, 5): deque([{6}])}` -/
def good : Val :=
  .map .dict [.num 1, .seq .tuple [.num 4, .num 5]]
    [.seq .list [.num 2, .seq .tuple [.num 3]], .seq (.deque none) [.set [.num 6]]]

example : good.wf ∧ good.plain ∧ good.kept ∧ evaluate none' good = .ok good :=
  have w : good.wf := ⟨rfl, by decide, rfl, ⟨trivial, ⟨trivial, trivial, trivial⟩, trivial⟩,
    ⟨⟨trivial, ⟨trivial, trivial⟩, trivial⟩, ⟨trivial, trivial⟩, trivial⟩⟩
  have p : good.plain := ⟨⟨trivial, ⟨trivial, trivial, trivial⟩, trivial⟩, ⟨⟨trivial, ⟨trivial, trivial⟩, trivial⟩, ⟨trivial, trivial⟩, trivial⟩⟩
  have k : good.kept := ⟨⟨trivial, ⟨trivial, trivial, trivial, trivial⟩, trivial⟩,
    ⟨⟨trivial, trivial, ⟨trivial, trivial, trivial⟩, trivial⟩, ⟨trivial, trivial, trivial⟩, trivial⟩⟩
  ⟨w, p, k, (C84_values none' good w p).mpr k⟩

/-- `Counter({7: 2, 8: 1})` -/
theorem exCounts : Counts [.num 7, .num 8] [.num 2, .num 1] :=
  ⟨rfl, by decide, rfl, rfl, ⟨trivial, trivial, trivial⟩, ⟨trivial, trivial, trivial⟩, ⟨trivial, trivial, trivial⟩,
    ⟨trivial, trivial, trivial⟩, ⟨trivial, trivial, trivial⟩, ⟨trivial, trivial, trivial⟩⟩

example : evaluate none' (.map .counter [.num 7, .num 8] [.num 2, .num 1]) =
    .ok (.map .counter [.seq .tuple [.num 7, .num 2], .seq .tuple [.num 8, .num 1]] [.num 1, .num 1]) :=
  (C84_counter_fails none' exCounts (fun h => nomatch h)).1

/-- A term for `f(Counter({7: 2, 8: 1}))` has another argument. -/
example : build none' [.map .counter [.num 7, .num 8] [.num 2, .num 1]] =
    .ok [.map .counter [.seq .tuple [.num 7, .num 2], .seq .tuple [.num 8, .num 1]] [.num 1, .num 1]] := rfl

example := C84_grows_fails none' exCounts 5

/-- `ChainMap({1: 2, 3: 4}, {1: 5, 6: 7})` -/
example : evaluate none' (.chain [.map .dict [.num 1, .num 3] [.num 2, .num 4], .map .dict [.num 1, .num 6] [.num 5, .num 7]]) =
    .ok (.chain [.seq .tuple [.seq .tuple [.num 1, .num 2], .seq .tuple [.num 6, .num 7], .seq .tuple [.num 3, .num 4]]]) := rfl

/-- Terms in the values: `[t0, {1: t1}]`. -/
example : evaluate (fun n => .ok (.num (10 + n))) (.seq .list [.term 0, .map .ordered [.num 1] [.term 1]]) =
    .ok (.seq .list [.num 10, .map .ordered [.num 1] [.num 11]]) := rfl

/-- `{t0: 1, t1: 2}` with `t0` and `t1` both `10`. -/
example : evaluate (fun _ => .ok (.num 10)) (.map .dict [.term 0, .term 1] [.num 1, .num 2]) = .ok (.map .dict [.num 10] [.num 2]) := rfl

example : evaluate none' (.items [.num 1] [.seq .list []]) = .error .type :=
  (C84_views_fails none').2.2.2 _ _ rfl ⟨trivial, trivial⟩ ⟨trivial, trivial⟩ ⟨trivial, trivial⟩ ⟨trivial, trivial⟩
    ⟨trivial, trivial⟩ ⟨⟨trivial, trivial⟩, trivial⟩ rfl

example : evaluate none' (.seq (.deque (some 2)) [.num 1]) = .ok (.seq (.deque none) [.num 1]) := rfl

end Verif.Terms.Containers
