/-!
# ObjectInterpretation

Model of `ObjectInterpretation` and `implements` (`ops/syntax.py` 893-1004).
-/

namespace Verif.Objects

/-- A dict from operations to functions (both given by their identity). -/
abbrev Impls := List (Nat × Nat)

/-- `d[op] = f`. -/
def Impls.set (op f : Nat) : Impls → Impls
  | [] => [(op, f)]
  | (k, f') :: d => if k = op then (k, f) :: d else (k, f') :: Impls.set op f d

/-- `{**a, **b}`. -/
def Impls.merge (a b : Impls) : Impls := b.foldl (fun d e => d.set e.1 e.2) a

/-- A class: its method resolution order, restricted to the subclasses of `ObjectInterpretation` (the
loop skips the others), the methods marked by `@implements` in its own body in textual order, and
the class attribute `implementations`. -/
structure Cls where
  id : Nat
  mro : List Nat
  body : List (Nat × Nat)
  impls : Impls
  deriving Repr, DecidableEq

/-- The classes that exist, and `ObjectInterpretation._temporary_implementations`. -/
structure World where
  classes : List Cls
  temp : Impls
  deriving Repr, DecidableEq

/-- `ObjectInterpretation` itself. -/
def World.init : World := ⟨[⟨0, [0], [], []⟩], []⟩

def World.find (w : World) (c : Nat) : Option Cls := w.classes.find? (·.id = c)

/-- `cls.implementations` of a class. -/
def World.impls (w : World) (c : Nat) : Impls := ((w.find c).map (·.impls)).getD []

/-- `_ImplementedOperation.__set_name__` for the methods of a class body, in order
(`ops/syntax.py` 989-992). It runs before `__init_subclass__`. -/
def setNames (body : List (Nat × Nat)) (temp : Impls) : Impls :=
  body.foldl (fun d e => d.set e.1 e.2) temp

/-- The loop of `__init_subclass__` (`ops/syntax.py` 954-956). The first class of the order is the new
one itself, whose `implementations` are those computed so far. -/
def initLoop (w : World) (c : Nat) (acc : Impls) : List Nat → Impls
  | [] => acc
  | sup :: rest => initLoop w c (Impls.merge (if sup = c then acc else w.impls sup) acc) rest

/-- Creation of a class: `__set_name__`, then `__init_subclass__` (`ops/syntax.py` 949-958). -/
def create (w : World) (c : Nat) (mro : List Nat) (body : List (Nat × Nat)) : World :=
  let temp := setNames body w.temp
  let impls := initLoop w c temp mro
  ⟨⟨c, mro, body, impls⟩ :: w.classes, []⟩

/-- Creation of a class that raises after the methods `body` have been registered: a later attribute's
`__set_name__` raises, or `super().__init_subclass__(**kwargs)` does. No class is made. -/
def createFails (w : World) (body : List (Nat × Nat)) : World :=
  ⟨w.classes, setNames body w.temp⟩

/-- `obj[op]` for an instance `obj` of class `c` (`ops/syntax.py` 966-967): the function bound to the
instance, or KeyError. -/
def getItem (w : World) (c obj op : Nat) : Option (Nat × Nat) :=
  ((w.impls c).lookup op).map (fun f => (f, obj))

/-! ## Specification -/

/-- The implementation of an operation in a class body: later methods replace earlier ones. -/
def own (k : Cls) (op : Nat) : Option Nat := (k.body.reverse.lookup op)

/-- The method resolution order gives the implementation: that of the first class that has one. -/
def resolve (w : World) (op : Nat) : List Nat → Option Nat
  | [] => none
  | c :: cs =>
    match (w.find c).bind (own · op) with
    | some f => some f
    | none => resolve w op cs

/-- What Python guarantees about the order of a new class `c`: it starts with `c`, has no repetition,
contains only existing classes otherwise, and keeps the order of each of its superclasses. -/
structure Legal (w : World) (c : Nat) (mro : List Nat) : Prop where
  fresh : w.find c = none
  shape : ∃ tail, mro = c :: tail ∧ tail.Nodup ∧
    ∀ d ∈ tail, ∃ k, w.find d = some k ∧ k.mro.Sublist tail

/-- States that can be reached by creating classes; `Clean` if no creation failed. -/
inductive Reachable : World → Prop where
  | init : Reachable World.init
  | create {w : World} (c : Nat) (mro : List Nat) (body : List (Nat × Nat)) : Reachable w →
      Legal w c mro → Reachable (create w c mro body)
  | fails {w : World} (body : List (Nat × Nat)) : Reachable w → Reachable (createFails w body)

inductive Clean : World → Prop where
  | init : Clean World.init
  | create {w : World} (c : Nat) (mro : List Nat) (body : List (Nat × Nat)) : Clean w →
      Legal w c mro → Clean (create w c mro body)

/-! ## Dicts -/

theorem lookup_set' (op f x : Nat) (d : Impls) :
    (d.set op f).lookup x = if x = op then some f else d.lookup x := by
  induction d with
  | nil =>
    by_cases h : x = op <;> simp [Impls.set, h, List.lookup]
  | cons e d ih =>
    obtain ⟨k, m'⟩ := e
    by_cases hk : k = op
    · subst hk
      by_cases h : x = k
      · simp [Impls.set, h]
      · simp [Impls.set, h, List.lookup, beq_eq_false_iff_ne.2 h]
    · simp only [Impls.set, if_neg hk, List.lookup]
      by_cases h : x = k
      · subst h; simp [hk]
      · simp only [beq_eq_false_iff_ne.2 h, ih]

theorem lookup_foldl (b a : List (Nat × Nat)) (x : Nat) :
    (b.foldl (fun (d : Impls) e => d.set e.1 e.2) a).lookup x =
      (b.reverse.lookup x).or (a.lookup x) := by
  induction b generalizing a with
  | nil => simp
  | cons e b ih =>
    obtain ⟨k, f⟩ := e
    rw [List.foldl_cons, ih, lookup_set', List.reverse_cons, List.lookup_append]
    by_cases h : x = k
    · subst h; simp [List.lookup]
    · simp [h, List.lookup, beq_eq_false_iff_ne.2 h]

/-- Keys of a dict are different. -/
def Impls.Ok (d : Impls) : Prop := (d.map Prod.fst).Nodup

theorem set_ok {d : Impls} (h : d.Ok) (op f : Nat) : (d.set op f).Ok := by
  have hkeys : ∀ (d : Impls), ((d.set op f).map Prod.fst) =
      if op ∈ d.map Prod.fst then d.map Prod.fst else d.map Prod.fst ++ [op] := by
    intro d
    induction d with
    | nil => simp [Impls.set]
    | cons e d ih =>
      obtain ⟨k, g⟩ := e
      by_cases hk : k = op
      · simp [Impls.set, hk]
      · have hk' : ¬ op = k := fun e => hk e.symm
        simp only [Impls.set, if_neg hk, List.map_cons, ih, List.mem_cons, hk', false_or]
        split <;> simp
  unfold Impls.Ok at *
  rw [hkeys]
  split
  · exact h
  · rename_i hn
    rw [List.nodup_append]
    refine ⟨h, by simp, ?_⟩
    intro a ha b hb
    simp only [List.mem_singleton] at hb
    subst hb
    exact fun e => hn (e ▸ ha)

theorem foldl_ok (b : List (Nat × Nat)) {a : Impls} (h : a.Ok) :
    Impls.Ok (b.foldl (fun (d : Impls) e => d.set e.1 e.2) a) := by
  induction b generalizing a with
  | nil => exact h
  | cons e b ih => exact ih (set_ok h _ _)

theorem lookup_reverse {d : Impls} (h : d.Ok) (x : Nat) : d.reverse.lookup x = d.lookup x := by
  induction d with
  | nil => rfl
  | cons e d ih =>
    obtain ⟨k, f⟩ := e
    simp only [Impls.Ok, List.map_cons, List.nodup_cons] at h
    rw [List.reverse_cons, List.lookup_append, ih h.2]
    by_cases hx : x = k
    · subst hx
      have : d.lookup x = none := by
        rw [List.lookup_eq_none_iff]
        intro p hp
        have : p.1 ≠ x := fun e => h.1 (e ▸ List.mem_map_of_mem hp)
        simpa using fun e => this e.symm
      simp [this, List.lookup]
    · simp [List.lookup, beq_eq_false_iff_ne.2 hx]

theorem lookup_merge (a : Impls) {b : Impls} (h : b.Ok) (x : Nat) :
    (Impls.merge a b).lookup x = (b.lookup x).or (a.lookup x) := by
  rw [Impls.merge, lookup_foldl, lookup_reverse h]

theorem merge_ok {a : Impls} (h : a.Ok) (b : Impls) : (Impls.merge a b).Ok := foldl_ok b h

/-- First result of a list of lookups. -/
def firstOf (g : Nat → Option Nat) : List Nat → Option Nat
  | [] => none
  | c :: cs => (g c).or (firstOf g cs)

theorem firstOf_none {g : Nat → Option Nat} {cs : List Nat} :
    firstOf g cs = none ↔ ∀ c ∈ cs, g c = none := by
  induction cs with
  | nil => simp [firstOf]
  | cons c cs ih => simp [firstOf, Option.or_eq_none_iff, ih]

theorem resolve_eq (w : World) (op : Nat) (cs : List Nat) :
    resolve w op cs = firstOf (fun c => (w.find c).bind (own · op)) cs := by
  induction cs with
  | nil => rfl
  | cons c cs ih =>
    rw [resolve, firstOf, ih]
    cases (w.find c).bind (own · op) <;> rfl

theorem initLoop_lookup (w : World) (c : Nat) (hw : ∀ d, (w.impls d).Ok) (tail : List Nat)
    (hc : c ∉ tail) (acc : Impls) (ha : acc.Ok) (x : Nat) :
    (initLoop w c acc tail).lookup x =
      (acc.lookup x).or (firstOf (fun d => (w.impls d).lookup x) tail) ∧
    (initLoop w c acc tail).Ok := by
  induction tail generalizing acc with
  | nil => simp [initLoop, firstOf, ha]
  | cons d tail ih =>
    simp only [List.mem_cons, not_or] at hc
    have hd : d ≠ c := fun e => hc.1 e.symm
    simp only [initLoop, if_neg hd]
    obtain ⟨h1, h2⟩ := ih hc.2 (Impls.merge (w.impls d) acc) (merge_ok (hw d) acc)
    refine ⟨?_, h2⟩
    rw [h1, lookup_merge _ ha, firstOf, Option.or_assoc]

theorem find_create (w : World) (c d : Nat) (mro : List Nat) (body : List (Nat × Nat)) :
    (create w c mro body).find d =
      if d = c then some ⟨c, mro, body, initLoop w c (setNames body w.temp) mro⟩ else w.find d := by
  simp only [World.find, create, List.find?_cons]
  by_cases h : d = c
  · simp [h]
  · have : ¬ c = d := fun e => h e.symm
    simp [h, this]

theorem reach_ok {w : World} (h : Reachable w) : w.temp.Ok ∧ ∀ d, (w.impls d).Ok := by
  induction h with
  | init =>
    refine ⟨by simp [World.init, Impls.Ok], fun d => ?_⟩
    by_cases h : 0 = d <;> simp [World.impls, World.find, World.init, Impls.Ok, h]
  | @create w c mro body _ hl ih =>
    refine ⟨by simp [create, Impls.Ok], fun d => ?_⟩
    unfold World.impls
    rw [find_create]
    by_cases h : d = c
    · obtain ⟨tail, rfl, _, ht⟩ := hl.shape
      have hc : c ∉ tail := fun hc => by
        obtain ⟨k, hk, _⟩ := ht c hc
        rw [hl.fresh] at hk; cases hk
      have hs : (setNames body w.temp).Ok := foldl_ok body ih.1
      simp only [h, if_true, Option.map_some, Option.getD_some, initLoop]
      exact (initLoop_lookup w c ih.2 tail hc _ (merge_ok hs _) 0).2
    · simp only [h, if_false]; exact ih.2 d
  | fails body _ ih => exact ⟨foldl_ok body ih.1, ih.2⟩

/-- The implementations of a new class: those left over from failed creations and its own, then those
of its superclasses in the order of the resolution order. -/
theorem create_impls {w : World} (h : Reachable w) (c : Nat) (tail : List Nat)
    (body : List (Nat × Nat)) (hc : c ∉ tail) (op : Nat) :
    ((create w c (c :: tail) body).impls c).lookup op =
      ((body.reverse.lookup op).or (w.temp.lookup op)).or
        (firstOf (fun d => (w.impls d).lookup op) tail) := by
  obtain ⟨h1, h2⟩ := reach_ok h
  have hs : (setNames body w.temp).Ok := foldl_ok body h1
  unfold World.impls
  rw [find_create]
  simp only [if_true, Option.map_some, Option.getD_some, initLoop]
  rw [(initLoop_lookup w c h2 tail hc _ (merge_ok hs _) op).1, lookup_merge _ hs, setNames,
    lookup_foldl]
  cases body.reverse.lookup op <;> cases w.temp.lookup op <;> simp [World.impls]

theorem clean_reach {w : World} (h : Clean w) : Reachable w ∧ w.temp = [] := by
  induction h with
  | init => exact ⟨.init, rfl⟩
  | create c mro body _ hl ih => exact ⟨.create c mro body ih.1 hl, rfl⟩

/-! ## Well-formedness of the recorded orders -/

/-- Facts about the classes of a reachable world. -/
structure Wf (w : World) : Prop where
  idx : ∀ c k, w.find c = some k → ∃ tail, k.mro = c :: tail ∧ k.mro.Nodup ∧
    ∀ d ∈ tail, ∃ k', w.find d = some k' ∧ k'.mro.Sublist tail

theorem reach_wf {w : World} (h : Reachable w) : Wf w := by
  induction h with
  | init =>
    refine ⟨fun c k hk => ?_⟩
    have : c = 0 ∧ k = ⟨0, [0], [], []⟩ := by
      simp only [World.find, World.init, List.find?_cons, List.find?_nil] at hk
      split at hk
      · rename_i h; simp at h; simp_all
      · cases hk
    obtain ⟨rfl, rfl⟩ := this
    exact ⟨[], rfl, by simp, by simp⟩
  | @create w c mro body _ hl ih =>
    obtain ⟨tail, rfl, hnd, ht⟩ := hl.shape
    have hc : c ∉ tail := fun hc => by
      obtain ⟨k, hk, _⟩ := ht c hc
      rw [hl.fresh] at hk; cases hk
    refine ⟨fun d k hk => ?_⟩
    rw [find_create] at hk
    by_cases hd : d = c
    · rw [if_pos hd] at hk
      obtain rfl := Option.some.inj hk
      refine ⟨tail, by rw [hd], by simp [hc, hnd], fun e he => ?_⟩
      obtain ⟨k', hk', hsub⟩ := ht e he
      refine ⟨k', ?_, hsub⟩
      rw [find_create, if_neg (fun e' : e = c => hc (e' ▸ he))]; exact hk'
    · rw [if_neg hd] at hk
      obtain ⟨tl, h1, h2, h3⟩ := ih.idx d k hk
      refine ⟨tl, h1, h2, fun e he => ?_⟩
      obtain ⟨k', hk', hsub⟩ := h3 e he
      refine ⟨k', ?_, hsub⟩
      rw [find_create, if_neg ?_]
      · exact hk'
      · rintro rfl
        rw [hl.fresh] at hk'; cases hk'
  | fails body _ ih => exact ⟨ih.idx⟩

/-- `own` of a class by its name. -/
def ownOf (w : World) (op c : Nat) : Option Nat := (w.find c).bind (own · op)

theorem clean_lookup {w : World} (h : Clean w) (op : Nat) : ∀ c k tail, w.find c = some k →
    k.mro = c :: tail →
    (w.impls c).lookup op = (ownOf w op c).or (firstOf (fun d => (w.impls d).lookup op) tail) := by
  induction h with
  | init =>
    intro c k tail hk hm
    have : c = 0 ∧ k = ⟨0, [0], [], []⟩ := by
      simp only [World.find, World.init, List.find?_cons, List.find?_nil] at hk
      split at hk
      · rename_i h; simp at h; simp_all
      · cases hk
    obtain ⟨rfl, rfl⟩ := this
    simp at hm
    subst hm
    simp [World.impls, World.find, World.init, ownOf, own, firstOf]
  | @create w c mro body hcl hl ih =>
    obtain ⟨hr, ht0⟩ := clean_reach hcl
    obtain ⟨tail, rfl, hnd, ht⟩ := hl.shape
    have hc : c ∉ tail := fun hc => by
      obtain ⟨k, hk, _⟩ := ht c hc
      rw [hl.fresh] at hk; cases hk
    have himp : ∀ d, d ≠ c → (create w c (c :: tail) body).impls d = w.impls d := by
      intro d hd; simp only [World.impls, find_create, if_neg hd]
    have hcongr : ∀ l : List Nat, c ∉ l →
        firstOf (fun d => ((create w c (c :: tail) body).impls d).lookup op) l =
          firstOf (fun d => (w.impls d).lookup op) l := by
      intro l hl'
      induction l with
      | nil => rfl
      | cons d l ihl =>
        simp only [List.mem_cons, not_or] at hl'
        rw [firstOf, firstOf, ihl hl'.2, himp d (fun e => hl'.1 e.symm)]
    intro d k tl hk hm
    rw [find_create] at hk
    by_cases hd : d = c
    · rw [if_pos hd] at hk
      obtain rfl := Option.some.inj hk
      simp only [List.cons.injEq] at hm
      obtain ⟨_, rfl⟩ := hm
      subst hd
      rw [create_impls hr d tail body hc, ht0, hcongr tail hc]
      simp [ownOf, find_create, own]
    · rw [if_neg hd] at hk
      have hctl : c ∉ tl := by
        intro hc'
        obtain ⟨tl', h1, _, h3⟩ := (reach_wf hr).idx d k hk
        rw [hm] at h1
        obtain ⟨_, rfl⟩ := List.cons.inj h1
        obtain ⟨k', hk', _⟩ := h3 c hc'
        rw [hl.fresh] at hk'; cases hk'
      rw [himp d hd, ih d k tl hk hm, hcongr tl hctl]
      simp [ownOf, find_create, hd]

/-! ## C25 -/

theorem firstOf_split {g : Nat → Option Nat} {l : List Nat} {f : Nat} (h : firstOf g l = some f) :
    ∃ pre d post, l = pre ++ d :: post ∧ g d = some f ∧ ∀ e ∈ pre, g e = none := by
  induction l with
  | nil => simp [firstOf] at h
  | cons c l ih =>
    rw [firstOf] at h
    cases hc : g c with
    | some f' =>
      rw [hc] at h
      exact ⟨[], c, l, rfl, by rw [hc]; simpa using h, by simp⟩
    | none =>
      rw [hc, Option.none_or] at h
      obtain ⟨pre, d, post, rfl, h1, h2⟩ := ih h
      refine ⟨c :: pre, d, post, rfl, h1, ?_⟩
      intro e he
      rcases List.mem_cons.1 he with rfl | he
      · exact hc
      · exact h2 e he

theorem firstOf_of_split {g : Nat → Option Nat} {pre post : List Nat} {d f : Nat}
    (h1 : g d = some f) (h2 : ∀ e ∈ pre, g e = none) : firstOf g (pre ++ d :: post) = some f := by
  induction pre with
  | nil => simp [firstOf, h1]
  | cons c pre ih =>
    rw [List.cons_append, firstOf, h2 c List.mem_cons_self, Option.none_or]
    exact ih (fun e he => h2 e (List.mem_cons_of_mem _ he))

theorem nodup_order {l : List Nat} {a b : Nat} (h : l.Nodup) (h1 : [a, b].Sublist l)
    (h2 : [b, a].Sublist l) : False := by
  induction l with
  | nil => cases h1
  | cons c l ih =>
    rw [List.nodup_cons] at h
    cases h1 with
    | cons _ h1 =>
      cases h2 with
      | cons _ h2 => exact ih h.2 h1 h2
      | cons_cons _ h2 => exact h.1 (h1.subset (by simp))
    | cons_cons _ h1 =>
      cases h2 with
      | cons _ h2 => exact h.1 (h2.subset (by simp))
      | cons_cons _ h2 => exact h.1 (h1.subset (by simp))

/-- C25: without failed class creations, an operation is handled by the instances of a class iff some
class in its resolution order implements it. -/
theorem C25_handled_partial (w : World) (h : Clean w) (c obj op : Nat) (k : Cls)
    (hk : w.find c = some k) :
    (getItem w c obj op).isSome ↔ ∃ d ∈ k.mro, ∃ kd, w.find d = some kd ∧ (own kd op).isSome := by
  have hwf := reach_wf (clean_reach h).1
  -- by induction on the length of the order
  have main : ∀ n c k, w.find c = some k → k.mro.length = n →
      (((w.impls c).lookup op).isSome ↔ ∃ d ∈ k.mro, (ownOf w op d).isSome) := by
    intro n
    induction n using Nat.strongRecOn with
    | _ n ih =>
      intro c k hk hn
      obtain ⟨tail, hm, hnd, ht⟩ := hwf.idx c k hk
      rw [clean_lookup h op c k tail hk hm, hm]
      simp only [Option.isSome_or, Bool.or_eq_true, List.mem_cons, exists_eq_or_imp]
      refine or_congr_right ?_
      have hf : (firstOf (fun d => (w.impls d).lookup op) tail).isSome ↔
          ∃ d ∈ tail, ((w.impls d).lookup op).isSome := by
        cases hcase : firstOf (fun d => (w.impls d).lookup op) tail with
        | none =>
          have := firstOf_none.1 hcase
          simp only [Option.isSome_none, Bool.false_eq_true, false_iff, not_exists, not_and]
          intro d hd
          simp [this d hd]
        | some f =>
          obtain ⟨pre, d, post, rfl, h1, _⟩ := firstOf_split hcase
          simp only [Option.isSome_some, true_iff]
          exact ⟨d, by simp, by rw [h1]; rfl⟩
      rw [hf]
      constructor
      · rintro ⟨d, hd, hs⟩
        obtain ⟨kd, hkd, hsub⟩ := ht d hd
        have hlen : kd.mro.length < n := by
          have := hsub.length_le
          rw [← hn, hm, List.length_cons]; omega
        obtain ⟨e, he, hoe⟩ := (ih _ hlen d kd hkd rfl).1 hs
        exact ⟨e, hsub.subset he, hoe⟩
      · rintro ⟨d, hd, hs⟩
        obtain ⟨kd, hkd, hsub⟩ := ht d hd
        have hlen : kd.mro.length < n := by
          have := hsub.length_le
          rw [← hn, hm, List.length_cons]; omega
        obtain ⟨tl, hmd, _⟩ := hwf.idx d kd hkd
        exact ⟨d, hd, (ih _ hlen d kd hkd rfl).2 ⟨d, by rw [hmd]; simp, hs⟩⟩
  have := main _ c k hk rfl
  simp only [getItem, Option.isSome_map]
  rw [this]
  refine exists_congr fun d => and_congr_right fun _ => ?_
  unfold ownOf
  cases w.find d <;> simp

/-- No class `d` of an order, without an implementation of its own, inherits the implementation of
`b` without also inheriting that of `a`, where `a` comes after `d` and before `b`. -/
def NoShadow (w : World) (op : Nat) (mro : List Nat) : Prop :=
  ∀ d a b, [d, a, b].Sublist mro → ownOf w op d = none → (ownOf w op a).isSome →
    (ownOf w op b).isSome → ∀ kd, w.find d = some kd → b ∈ kd.mro → a ∈ kd.mro

/-- C25: without failed class creations, the instances of a class use the implementation of the first
class in the resolution order that implements the operation, bound to the instance — provided that in
no resolution order a class inherits an implementation that is overridden by a class between them
which it does not inherit from. -/
theorem C25_mro_partial (w : World) (h : Clean w) (op : Nat)
    (hns : ∀ d kd, w.find d = some kd → NoShadow w op kd.mro)
    (c obj : Nat) (k : Cls) (hk : w.find c = some k) :
    getItem w c obj op = (resolve w op k.mro).map (fun f => (f, obj)) := by
  have hwf := reach_wf (clean_reach h).1
  have main : ∀ n c k, w.find c = some k → k.mro.length = n →
      (w.impls c).lookup op = firstOf (ownOf w op) k.mro := by
    intro n
    induction n using Nat.strongRecOn with
    | _ n ih =>
      intro c k hk hn
      obtain ⟨tail, hm, hnd, ht⟩ := hwf.idx c k hk
      have hlt : ∀ d ∈ tail, ∃ kd, w.find d = some kd ∧ kd.mro.Sublist tail ∧
          (w.impls d).lookup op = firstOf (ownOf w op) kd.mro := by
        intro d hd
        obtain ⟨kd, hkd, hsub⟩ := ht d hd
        have hlen : kd.mro.length < n := by
          have := hsub.length_le
          rw [← hn, hm, List.length_cons]; omega
        exact ⟨kd, hkd, hsub, ih _ hlen d kd hkd rfl⟩
      rw [clean_lookup h op c k tail hk hm, hm, firstOf]
      cases hown : ownOf w op c with
      | some f => rfl
      | none =>
        simp only [Option.none_or]
        cases hfi : firstOf (ownOf w op) tail with
        | none =>
          rw [firstOf_none] at hfi ⊢
          intro d hd
          obtain ⟨kd, hkd, hsub, he⟩ := hlt d hd
          rw [he, firstOf_none]
          exact fun e he => hfi e (hsub.subset he)
        | some f =>
          -- `a`: the first class of the order that implements the operation
          obtain ⟨pre, a, post, hta, hfa, hpre⟩ := firstOf_split hfi
          have ha : a ∈ tail := by rw [hta]; simp
          obtain ⟨ka, hka, hsuba, hea⟩ := hlt a ha
          obtain ⟨tla, hma, _⟩ := hwf.idx a ka hka
          have hla : (w.impls a).lookup op = some f := by
            rw [hea, hma, firstOf, hfa]; rfl
          -- all classes before `a` that handle the operation use that of `a`
          have hbefore : ∀ d ∈ pre, (w.impls d).lookup op = none ∨
              (w.impls d).lookup op = some f := by
            intro d hd
            have hdt : d ∈ tail := by rw [hta]; simp [hd]
            obtain ⟨kd, hkd, hsub, he⟩ := hlt d hdt
            rw [he]
            cases hfd : firstOf (ownOf w op) kd.mro with
            | none => exact .inl rfl
            | some g =>
              right
              obtain ⟨pre', b, post', htb, hfb, hpre'⟩ := firstOf_split hfd
              have hb : b ∈ tail := hsub.subset (by rw [htb]; simp)
              have hb2 : b ∈ a :: post := by
                rw [hta, List.mem_append] at hb
                rcases hb with hb | hb
                · rw [hpre b hb] at hfb; cases hfb
                · exact hb
              rcases List.mem_cons.1 hb2 with rfl | hb2
              · rw [← hfb, hfa]
              · -- `b` comes after `a`
                have hsl : [d, a, b].Sublist k.mro := by
                  rw [hm, hta]
                  refine List.Sublist.cons _ ?_
                  exact List.Sublist.append (List.singleton_sublist.2 hd)
                    ((List.singleton_sublist.2 hb2).cons_cons a)
                have hamem := hns c k hk d a b hsl (hpre d hd) (by rw [hfa]; rfl) (by rw [hfb]; rfl) kd hkd
                  (by rw [htb]; simp)
                -- in the order of `d`, `a` comes before `b` as well
                rw [htb, List.mem_append, List.mem_cons] at hamem
                rcases hamem with ha' | rfl | ha'
                · rw [hpre' a ha'] at hfa; cases hfa
                · rw [← hfb, hfa]
                · exfalso
                  have hba : [b, a].Sublist tail := by
                    refine List.Sublist.trans ?_ hsub
                    rw [htb]
                    exact ((List.singleton_sublist.2 ha').cons_cons b).trans
                      (List.sublist_append_right _ _)
                  have hab : [a, b].Sublist tail := by
                    rw [hta]
                    exact ((List.singleton_sublist.2 hb2).cons_cons a).trans
                      (List.sublist_append_right _ _)
                  have hndt : tail.Nodup := by
                    rw [hm] at hnd; exact (List.nodup_cons.1 hnd).2
                  exact nodup_order hndt hab hba
          clear hfi hlt
          rw [hta]
          clear hta ha
          induction pre with
          | nil => simp [firstOf, hla]
          | cons d pre ihp =>
            rw [List.cons_append, firstOf]
            rcases hbefore d List.mem_cons_self with h0 | h0
            · rw [h0, Option.none_or]
              exact ihp (fun e he => hpre e (List.mem_cons_of_mem _ he))
                (fun e he => hbefore e (List.mem_cons_of_mem _ he))
            · rw [h0]; rfl
  rw [getItem, main _ c k hk rfl, resolve_eq]
  rfl

/-- C25: with single inheritance the condition of `C25_mro_partial` holds. -/
theorem C25_single_inheritance (w : World) (h : Clean w) (op : Nat)
    (hsingle : ∀ d kd, w.find d = some kd → kd.mro = [d] ∨
      ∃ b kb, w.find b = some kb ∧ kd.mro = d :: kb.mro)
    (c obj : Nat) (k : Cls) (hk : w.find c = some k) :
    getItem w c obj op = (resolve w op k.mro).map (fun f => (f, obj)) := by
  refine C25_mro_partial w h op ?_ c obj k hk
  have hwf := reach_wf (clean_reach h).1
  -- the order of a superclass is a suffix
  have main : ∀ n d kd, w.find d = some kd → kd.mro.length = n → ∀ e ∈ kd.mro, ∃ ke,
      w.find e = some ke ∧ ke.mro <:+ kd.mro := by
    intro n
    induction n using Nat.strongRecOn with
    | _ n ih =>
      intro d kd hkd hn e he
      rcases hsingle d kd hkd with hm | ⟨b, kb, hkb, hm⟩
      · rw [hm, List.mem_singleton] at he
        exact ⟨kd, by rw [he]; exact hkd, List.suffix_refl _⟩
      · rw [hm, List.mem_cons] at he
        rcases he with rfl | he
        · exact ⟨kd, hkd, List.suffix_refl _⟩
        · obtain ⟨ke, hke, hs⟩ := ih kb.mro.length (by rw [← hn, hm]; simp) b kb hkb rfl e he
          exact ⟨ke, hke, by rw [hm]; exact hs.trans (List.suffix_cons _ _)⟩
  intro d kd hkd x a b hsub _ _ _ kx hkx _
  obtain ⟨kx', hkx', pre, hpre⟩ := main _ d kd hkd rfl x (hsub.subset (by simp))
  obtain rfl : kx' = kx := by rw [hkx] at hkx'; exact (Option.some.inj hkx').symm
  obtain ⟨tl, hmx, _⟩ := hwf.idx x kx' hkx
  obtain ⟨_, _, hnd, _⟩ := hwf.idx d kd hkd
  have hax : [x, a].Sublist kd.mro := List.Sublist.trans (by simp) hsub
  have hmem : a ∈ pre ++ kx'.mro := by rw [hpre]; exact hax.subset (by simp)
  rcases List.mem_append.1 hmem with ha | ha
  · exfalso
    refine nodup_order hnd hax ?_
    rw [← hpre, hmx]
    exact List.Sublist.append (List.singleton_sublist.2 ha)
      (List.singleton_sublist.2 List.mem_cons_self)
  · exact ha

/-- C25: a failed class creation affects at most the next class that is created. -/
theorem C25_temp_cleared (w : World) (c : Nat) (mro : List Nat) (body : List (Nat × Nat)) :
    (create w c mro body).temp = [] := rfl

/-! ### Examples and counterexamples

Classes: 1 = A, 2 = B(A), 3 = C(A), 4 = D(B, C); the operation is 7. -/

/-- A and C implement the operation; B and D do not. -/
def diamond : World :=
  create (create (create (create .init 1 [1, 0] [(7, 10)]) 2 [2, 1, 0] []) 3 [3, 1, 0] [(7, 30)])
    4 [4, 2, 3, 1, 0] []

theorem diamond_clean : Clean diamond := by
  refine .create 4 _ _ (.create 3 _ _ (.create 2 _ _ (.create 1 _ _ .init ?_) ?_) ?_) ?_
  · exact ⟨by decide, [0], rfl, by decide, by simp [World.find, World.init]⟩
  · refine ⟨by decide, [1, 0], rfl, by decide, ?_⟩
    simp [World.find, create, World.init]
  · refine ⟨by decide, [1, 0], rfl, by decide, ?_⟩
    simp [World.find, create, World.init]
  · refine ⟨by decide, [2, 3, 1, 0], rfl, by decide, ?_⟩
    simp [World.find, create, World.init]

/-- C25 fails for diamonds: D's resolution order is D, B, C, A, so C's method should be used (as for
ordinary methods); the code uses A's. -/
theorem C25_diamond_fails :
    ∃ (w : World) (c obj op : Nat) (k : Cls), Clean w ∧ w.find c = some k ∧
      getItem w c obj op ≠ (resolve w op k.mro).map (fun f => (f, obj)) :=
  ⟨diamond, 4, 99, 7, _, diamond_clean, rfl, by decide⟩

example : getItem diamond 4 99 7 = some (10, 99) ∧ resolve diamond 7 [4, 2, 3, 1, 0] = some 30 := by
  decide

/-- If B overrides the operation too, the condition of `C25_mro_partial` holds. -/
def diamond' : World :=
  create (create (create (create .init 1 [1, 0] [(7, 10)]) 2 [2, 1, 0] [(7, 20)]) 3 [3, 1, 0]
    [(7, 30)]) 4 [4, 2, 3, 1, 0] []

example : getItem diamond' 4 99 7 = some (20, 99) := by decide

/-- A way to check the condition. -/
def shadowFree (w : World) (op : Nat) : Bool :=
  w.classes.all fun k => k.mro.all fun d => k.mro.all fun a => k.mro.all fun b =>
    !([d, a, b].isSublist k.mro && ownOf w op d == none && (ownOf w op a).isSome &&
      (ownOf w op b).isSome && ((w.find d).map (fun kd => kd.mro.contains b)).getD false &&
      !((w.find d).map (fun kd => kd.mro.contains a)).getD false)

theorem shadowFree_iff {w : World} {op : Nat} (h : shadowFree w op = true) :
    ∀ d kd, w.find d = some kd → NoShadow w op kd.mro := by
  intro c k hk d a b hsub h1 h2 h3 kd hkd hb
  have hm : k ∈ w.classes := List.mem_of_find?_eq_some hk
  simp only [shadowFree, List.all_eq_true] at h
  have := h k hm d (hsub.subset (by simp)) a (hsub.subset (by simp)) b (hsub.subset (by simp))
  rw [List.isSublist_iff_sublist.2 hsub, h1, h2, h3, hkd] at this
  simp [hb] at this
  exact this

example : Clean diamond' ∧ ∀ d kd, diamond'.find d = some kd → NoShadow diamond' 7 kd.mro := by
  refine ⟨?_, shadowFree_iff (by decide)⟩
  refine .create 4 _ _ (.create 3 _ _ (.create 2 _ _ (.create 1 _ _ .init ?_) ?_) ?_) ?_
  · exact ⟨by decide, [0], rfl, by decide, by simp [World.find, World.init]⟩
  · refine ⟨by decide, [1, 0], rfl, by decide, ?_⟩
    simp [World.find, create, World.init]
  · refine ⟨by decide, [1, 0], rfl, by decide, ?_⟩
    simp [World.find, create, World.init]
  · refine ⟨by decide, [2, 3, 1, 0], rfl, by decide, ?_⟩
    simp [World.find, create, World.init]

/-- A world that meets the hypotheses of `C25_single_inheritance`: A, B(A) with two operations. -/
example : ∃ w, Clean w ∧ (∀ d kd, w.find d = some kd → kd.mro = [d] ∨
      ∃ b kb, w.find b = some kb ∧ kd.mro = d :: kb.mro) ∧
    getItem w 2 99 7 = some (10, 99) ∧ getItem w 2 99 8 = some (21, 99) ∧
    getItem w 2 99 9 = none := by
  refine ⟨create (create .init 1 [1, 0] [(7, 10), (8, 11)]) 2 [2, 1, 0] [(8, 20), (8, 21)], ?_, ?_,
    by decide⟩
  · refine .create 2 _ _ (.create 1 _ _ .init ?_) ?_
    · exact ⟨by decide, [0], rfl, by decide, by simp [World.find, World.init]⟩
    · refine ⟨by decide, [1, 0], rfl, by decide, ?_⟩
      simp [World.find, create, World.init]
  · intro d kd hk
    simp only [World.find, create, World.init, List.find?_cons, List.find?_nil] at hk
    split at hk
    · rename_i h; simp at h; subst h
      obtain rfl := Option.some.inj hk
      exact .inr ⟨1, _, rfl, rfl⟩
    split at hk
    · rename_i h; simp at h; subst h
      obtain rfl := Option.some.inj hk
      exact .inr ⟨0, _, rfl, rfl⟩
    split at hk
    · rename_i h; simp at h; subst h
      obtain rfl := Option.some.inj hk
      exact .inl rfl
    · cases hk

/-- C25 fails after a class creation that raised: the next class gets the methods of the class that
does not exist, also instead of the ones it inherits. -/
theorem C25_stale_fails :
    ∃ (w : World) (c obj op : Nat) (k : Cls), Reachable w ∧ w.find c = some k ∧
      (∀ d ∈ k.mro, ∀ kd, w.find d = some kd → own kd op = none) ∧
      (getItem w c obj op).isSome := by
  refine ⟨create (createFails .init [(7, 10)]) 1 [1, 0] [(8, 11)], 1, 99, 7,
    ⟨1, [1, 0], [(8, 11)], [(7, 10), (8, 11)]⟩, .create 1 _ _ (.fails _ .init) ?_, by decide, ?_,
    by decide⟩
  · exact ⟨by decide, [0], rfl, by decide, by simp [World.find, createFails, World.init]⟩
  · intro d hd kd hk
    simp only [List.mem_cons, List.not_mem_nil, or_false] at hd
    rcases hd with rfl | rfl
    · obtain rfl := Option.some.inj hk; rfl
    · obtain rfl := Option.some.inj hk; rfl

end Verif.Objects
