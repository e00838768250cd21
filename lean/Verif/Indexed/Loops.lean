import Verif.Indexed.Jax

/-!
# C107: programs on tensors with named dimensions

Programs that index tensors with names, apply functions of the library to the results and to the names, and bind and unbind
names, for torch (`handlers/torch.py` 83-352, C37 and C70) and for jax (`handlers/jax/_handlers.py` 81-157, `_terms.py`
434-507, C87). What is stated is that such a program computes what the loops over the values of the names compute. The
functions are those of C70, with one result, whose entries are given by the entries of the arguments (`Local`).
-/

namespace Verif.Indexed.Loops

open Verif.Indexed.Named hiding partialEval bind unbind
open Verif.Indexed.Pointwise (Arg Fn HasDim Ranked Consistent Closed InRange argShape argAt)

variable {α : Type}

/-! ## Model -/

/-- A program: a tensor, possibly indexed with names; a name `n()`; an operation of the library; `bind_dims(p, *names)`;
`unbind_dims(p, *names)`. -/
inductive Prog (α : Type) where
  | tensor (v : Val α)
  | name (n : Name)
  | app (f : Fn α) (ps : List (Prog α))
  | bind (p : Prog α) (names : List Name)
  | unbind (p : Prog α) (names : List Name)

/-- What a library does. -/
structure Lib (α : Type) where
  apply : Fn α → List (Arg α) → Except Err (Val α)
  bind : Val α → List Name → Except Err (Val α)
  unbind : Val α → List Name → Except Err (Val α)

/-- `handlers/torch.py`. -/
def torch (ofNat : Nat → α) : Lib α := ⟨Pointwise.apply ofNat, Named.bind, Named.unbind⟩

/-- A function with one result as a function with several results. -/
def single (f : Fn α) : Jax.Fn α := ⟨fun shs => (f.shape shs).map fun sh => [sh], fun _ => f.val⟩

/-- `handlers/jax`. -/
def jax (ofNat : Nat → α) : Lib α where
  apply f as :=
    match Jax.apply ofNat (single f) as with
    | .ok [w] => .ok w
    | .ok _ => .error .runtime
    | .error e => .error e
  bind := Jax.bind
  unbind := Jax.unbind

mutual
/-- The value of a program: the arguments are evaluated before the operations are called. A name that is bound or unbound
is not modelled. -/
def run (L : Lib α) : Prog α → Except Err (Arg α)
  | .tensor v => .ok (.tensor v)
  | .name n => .ok (.name n)
  | .app f ps =>
    match runs L ps with
    | .error e => .error e
    | .ok as => (L.apply f as).map .tensor
  | .bind p names =>
    match run L p with
    | .ok (.tensor v) => (L.bind v names).map .tensor
    | .ok _ => .error .notHandled
    | .error e => .error e
  | .unbind p names =>
    match run L p with
    | .ok (.tensor v) => (L.unbind v names).map .tensor
    | .ok _ => .error .notHandled
    | .error e => .error e
/-- The values of programs, in order. -/
def runs (L : Lib α) : List (Prog α) → Except Err (List (Arg α))
  | [] => .ok []
  | p :: ps =>
    match run L p with
    | .error e => .error e
    | .ok a =>
      match runs L ps with
      | .error e => .error e
      | .ok as => .ok (a :: as)
end

/-! ## What is stated -/

mutual
/-- The shape of a program. -/
def shape : Prog α → List Nat
  | .tensor v => v.shape
  | .name _ => []
  | .app f ps => (f.shape (shapes ps)).getD []
  | .bind p names => names.map (fun n => (size p n).getD 0) ++ shape p
  | .unbind p names => (shape p).drop names.length
def shapes : List (Prog α) → List (List Nat)
  | [] => []
  | p :: ps => shape p :: shapes ps
/-- The size of a name in a program. -/
def size : Prog α → Name → Option Nat
  | .tensor v, n => ((v.arr.shape.zip v.dims).find? fun q => q.2 == some n).map Prod.fst
  | .name _, _ => none
  | .app _ ps, n => sizeL ps n
  | .bind p names, n => if n ∈ names then none else size p n
  | .unbind p names, n => if n ∈ names then (shape p)[names.idxOf n]? else size p n
def sizeL : List (Prog α) → Name → Option Nat
  | [], _ => none
  | p :: ps, n =>
    match size p n with
    | some d => some d
    | none => sizeL ps n
end

/-- The values of the names where some of them have the given values. -/
def setAll (env : Name → Nat) : List Name → List Nat → Name → Nat
  | n :: ns, j :: js, m => if m = n then j else setAll env ns js m
  | _, _, m => env m

mutual
/-- A program for given values of the names: an operation is the function; an entry of `bind_dims(p, *names)` is the entry
of `p` where the names have the values given by the first numbers of the index; and an entry of `unbind_dims(p, *names)` is
that of `p` at the values of the names. -/
def loop (ofNat : Nat → α) : Prog α → (Name → Nat) → Arr α
  | .tensor v, env => ⟨v.shape, den v env⟩
  | .name n, env => ⟨[], fun _ => ofNat (env n)⟩
  | .app f ps, env => ⟨shape (.app f ps), f.val (loops ofNat ps env)⟩
  | .bind p names, env =>
    ⟨shape (.bind p names), fun ix => (loop ofNat p (setAll env names (ix.take names.length))).get (ix.drop names.length)⟩
  | .unbind p names, env => ⟨shape (.unbind p names), fun ix => (loop ofNat p env).get (names.map env ++ ix)⟩
def loops (ofNat : Nat → α) : List (Prog α) → (Name → Nat) → List (Arr α)
  | [], _ => []
  | p :: ps, env => loop ofNat p env :: loops ofNat ps env
end

/-- Arrays of the same shape with the same entries. -/
def Agree (x y : Arr α) : Prop := x.shape = y.shape ∧ ∀ ix, InRange x.shape ix → x.get ix = y.get ix

def Agrees : List (Arr α) → List (Arr α) → Prop
  | [], [] => True
  | x :: xs, y :: ys => Agree x y ∧ Agrees xs ys
  | _, _ => False

/-- The entries of the result of the function are given by the entries of its arguments. -/
def Local (f : Fn α) : Prop :=
  ∀ xs ys out ix, Agrees xs ys → f.shape (xs.map Arr.shape) = some out → InRange out ix → f.val xs ix = f.val ys ix

/-- The program is a tensor and not a name. -/
def IsTensor : Prog α → Prop
  | .name _ => False
  | _ => True

mutual
/-- Tensors satisfy `I`; names used as numbers and names with sizes are those of dimensions of the other arguments, and the
sizes agree; the functions are given arguments of shapes they accept; names that are bound have a size; and names that are
unbound have no size before, or that of the dimension which gets the name. -/
def Ok (I : Val α → Prop) : Prog α → Prop
  | .tensor v => v.Wf ∧ I v
  | .name _ => True
  | .app f ps => Oks I ps ∧ Local f ∧ (f.shape (shapes ps)).isSome ∧
      (∀ n d e, ∀ p ∈ ps, ∀ q ∈ ps, size p n = some d → size q n = some e → d = e) ∧
      ∀ n, .name n ∈ ps → ∃ p ∈ ps, ∃ d, size p n = some d
  | .bind p names => Ok I p ∧ IsTensor p ∧ names.Nodup ∧ names ≠ [] ∧ ∀ n ∈ names, ∃ d, size p n = some d
  | .unbind p names => Ok I p ∧ IsTensor p ∧ names.Nodup ∧ names.length ≤ (shape p).length ∧
      ∀ n ∈ names, ∀ d, size p n = some d → (shape p)[names.idxOf n]? = some d
def Oks (I : Val α → Prop) : List (Prog α) → Prop
  | [] => True
  | p :: ps => Ok I p ∧ Oks I ps
end

/-- Each name is the name of one dimension only. -/
def Once (v : Val α) : Prop := ∀ n, v.dims.count (some n) ≤ 1

/-- The values of the names are in range. -/
def InSizes (p : Prog α) (env : Name → Nat) : Prop := ∀ n d, size p n = some d → env n < d

/-- The tensor has the shape and the names of the program, and the entries that the loops over the names compute. -/
structure Computes (ofNat : Nat → α) (p : Prog α) (w : Val α) : Prop where
  wf : w.Wf
  shape : w.shape = shape p
  named : ∀ n d, Occurs w n d ↔ size p n = some d
  entries : ∀ env ix, InSizes p env → InRange (Loops.shape p) ix → den w env ix = (loop ofNat p env).get ix

/-! ## What the libraries do -/

/-- A library whose operations are pointwise, and which moves dimensions; for tensors that satisfy `I`. -/
structure Good (ofNat : Nat → α) (L : Lib α) (I : Val α → Prop) : Prop where
  apply : ∀ f as out, (∀ v, Arg.tensor v ∈ as → v.Wf ∧ I v) → Consistent as → Closed as → Local f →
    f.shape (as.map argShape) = some out →
    ∃ w, L.apply f as = .ok w ∧ w.Wf ∧ I w ∧ w.shape = out ∧ (∀ n d, Occurs w n d ↔ HasDim as n d) ∧
      ∀ env ix, (∀ n d, HasDim as n d → env n < d) → InRange out ix → den w env ix = f.val (as.map (argAt ofNat env)) ix
  bind : ∀ v names, v.Wf → I v → names.Nodup → names ≠ [] → (∀ n ∈ names, ∃ d, Occurs v n d) →
    ∃ w sz, L.bind v names = .ok w ∧ w.Wf ∧ I w ∧ sz.length = names.length ∧
      (∀ (k : Nat) n d, names[k]? = some n → sz[k]? = some d → Occurs v n d) ∧ w.shape = sz ++ v.shape ∧
      (∀ n d, Occurs w n d ↔ Occurs v n d ∧ n ∉ names) ∧
      ∀ env js ix, js.length = names.length → ix.length = v.shape.length →
        den w env (js ++ ix) = den v (upd env names js) ix
  unbind : ∀ v names, v.Wf → I v → names.Nodup → names.length ≤ v.shape.length →
    (∀ n ∈ names, ∀ d e, Occurs v n d → (e, n) ∈ v.shape.zip names → d = e) →
    ∃ w, L.unbind v names = .ok w ∧ w.Wf ∧ I w ∧ w.shape = v.shape.drop names.length ∧
      (∀ n d, Occurs w n d ↔ Occurs v n d ∨ (d, n) ∈ v.shape.zip names) ∧
      ∀ env ix, ix.length = v.shape.length - names.length → den w env ix = den v env (names.map env ++ ix)

/-- A tensor without named dimensions. -/
theorem eq_plain {v : Val α} (hv : v.Wf) (h : ∀ n d, ¬ Occurs v n d) : v = plain v.arr := by
  have hd : v.dims = List.replicate v.arr.shape.length none := by
    rw [← hv.rank]
    exact List.eq_replicate_iff.2 ⟨rfl, fun b hb => by
      cases b with
      | none => rfl
      | some n =>
        obtain ⟨d, hd⟩ := Pointwise.mem_zip_of_mem v.arr.shape v.dims n hv.rank hb
        exact absurd hd (h n d)⟩
  cases v
  simp only at hd
  simp [plain, hd]

/-- Arguments without named dimensions are plain tensors, and agree with their entries. -/
theorem plain_args (ofNat : Nat → α) (env : Name → Nat) : ∀ as : List (Arg α), (∀ v, Arg.tensor v ∈ as → v.Wf) →
    Closed as → (∀ n d, ¬ HasDim as n d) →
    ∃ xs : List (Arr α), as = xs.map (fun x => .tensor (plain x)) ∧ xs.map Arr.shape = as.map argShape ∧
      Agrees xs (as.map (argAt ofNat env)) := by
  intro as hw hcl hno
  have hall : ∀ a ∈ as, ∃ x, a = .tensor (plain x) := by
    intro a ha
    cases a with
    | tensor v => exact ⟨v.arr, by rw [← eq_plain (hw v ha) fun n d hd => hno n d ⟨v, ha, hd⟩]⟩
    | name n => obtain ⟨d, hd⟩ := hcl.1 n ha; exact absurd hd (hno n d)
    | open_ => exact absurd ha hcl.2
  clear hw hcl hno
  induction as with
  | nil => exact ⟨[], rfl, rfl, trivial⟩
  | cons a as ih =>
    obtain ⟨x, rfl⟩ := hall a List.mem_cons_self
    obtain ⟨xs, h1, h2, h3⟩ := ih fun a ha => hall a (List.mem_cons_of_mem _ ha)
    have hs := (plain_wf x).2.1
    refine ⟨x :: xs, by rw [h1]; rfl, by simp only [List.map_cons, h2, argShape, hs], ⟨hs.symm, ?_⟩, h3⟩
    intro ix hix
    simp only [argAt]
    rw [plain_den _ _ _ (Pointwise.InRange.length hix)]

theorem plain_once (x : Arr α) : Once (plain x) := by
  intro n
  simp [plain, List.count_replicate]

theorem getitem_once {v w : Val α} (hv : v.Wf) {key : List (Option Name)} (h : getitem v key = .ok w)
    (hn : ∀ n, v.dims.count (some n) + key.count (some n) ≤ 1) : Once w := by
  intro n
  by_cases h1 : v.dims.count (some n) + key.count (some n) = 1
  · exact Nat.le_of_eq (getitem_count hv h n h1)
  · obtain ⟨hw, -, hocc, -⟩ := (C37_getitem hv key).2 w h
    have h0 : v.dims.count (some n) + key.count (some n) = 0 := by have := hn n; omega
    have : some n ∉ w.dims := by
      intro hm
      obtain ⟨d, hd⟩ := Pointwise.mem_zip_of_mem w.arr.shape w.dims n hw.rank hm
      rcases (hocc n d).1 hd with ho | ho
      · have := List.count_pos_iff.2 (List.of_mem_zip ho).2; omega
      · have := List.count_pos_iff.2 (List.of_mem_zip ho).2; omega
    rw [List.count_eq_zero.2 this]
    omega

theorem occurs_of_mem {v : Val α} (hv : v.Wf) {n : Name} (h : some n ∈ v.dims) : ∃ d, Occurs v n d :=
  Pointwise.mem_zip_of_mem v.arr.shape v.dims n hv.rank h

theorem bind_once {v w : Val α} (hv : v.Wf) (hone : Once v) (names : List Name) (h : Named.bind v names = .ok w) : Once w := by
  obtain ⟨s, h1, h2, h3⟩ := hv.sizesOf
  unfold Named.bind at h
  rw [h1] at h
  simp only at h
  split at h
  · cases h
  split at h
  · cases h; exact hone
  split at h
  · cases h
  split at h
  · cases h
  split at h
  · cases h
  · rename_i t ht
    refine getitem_once (plain_wf t).1 h fun n => ?_
    have hp : (plain t).dims.count (some n) = 0 := by simp [plain, List.count_replicate]
    rw [hp, filter_range v.dims none (keep names), List.count_append, List.count_replicate]
    have := List.Sublist.count_le (some n) (List.filter_sublist (p := keep names) (l := v.dims))
    have := hone n
    simp
    omega

theorem named_once {s : List (Name × Nat)} (h : (s.map Prod.fst).Nodup) (k : Nat) (n : Name) :
    (s.map (fun p : Name × Nat => some p.1) ++ List.replicate k none).count (some n) ≤ 1 := by
  have e : s.map (fun p : Name × Nat => some p.1) = (s.map Prod.fst).map some := by simp
  have hn : ((s.map Prod.fst).map some).Nodup := by
    rw [List.nodup_iff_count] at h ⊢
    intro a
    cases a with
    | none =>
      rw [List.count_eq_zero.2 (by simp)]; omega
    | some n =>
      have : ∀ l : List Name, (l.map some).count (some n) = l.count n := by
        intro l
        induction l with
        | nil => rfl
        | cons m l ih => simp [List.count_cons, ih]
      rw [this]; exact h n
  rw [e, List.count_append, List.count_replicate]
  have := List.nodup_iff_count.1 hn (some n)
  simpa using this

theorem count_some (n : Name) : ∀ l : List Name, (l.map some).count (some n) = l.count n
  | [] => rfl
  | m :: l => by simp [List.count_cons, count_some n l]

/-- A name becomes the name of one dimension. -/
theorem unbind_once {v w : Val α} (hv : v.Wf) (names : List Name) (hnd : names.Nodup) (h : Named.unbind v names = .ok w) :
    Once w := by
  by_cases hno : ∃ n d, Occurs v n d
  · obtain ⟨n0, d0, h0⟩ := hno
    obtain ⟨s0, h1, h2, h3⟩ := hv.sizesOf
    have hall : v.dims.all Option.isNone = false := by
      rw [← Bool.not_eq_true, List.all_eq_true]
      intro hh
      have := hh _ (List.of_mem_zip h0).2
      cases this
    unfold Named.unbind getitem at h
    split at h
    · cases h
    · rw [h1] at h
      simp only [hall, Bool.false_and, Bool.false_eq_true, if_false] at h
      cases hs : sizesLoop s0 (v.shape.zip (pad v.shape.length (names.map some))) with
      | none => rw [hs] at h; cases h
      | some s =>
        rw [hs] at h
        simp only at h
        obtain ⟨t, g1, g2, g3⟩ := sizesLoop_spec _ s0 h2 (sizesLoop_functional _ s0 s h2 hs)
        rw [g1] at hs
        cases hs
        have : s.isEmpty = false := by
          cases s with
          | nil => have := (g3 n0 d0).2 (Or.inl ((h3 n0 d0).2 h0)); simp at this
          | cons => rfl
        rw [this] at h
        simp only [Bool.false_eq_true, if_false] at h
        cases h
        exact fun n => named_once g2 _ n
  · refine getitem_once hv h fun n => ?_
    have : v.dims.count (some n) = 0 := List.count_eq_zero.2 fun hm => by
      obtain ⟨d, hd⟩ := occurs_of_mem hv hm
      exact hno ⟨n, d, hd⟩
    rw [this, count_some, Nat.zero_add]
    exact List.nodup_iff_count.1 hnd n

theorem zip_once : ∀ (l : List Nat) (names : List Name), names.Nodup → ∀ n d e, (d, n) ∈ l.zip names →
    (e, n) ∈ l.zip names → d = e := by
  intro l
  induction l with
  | nil => intro names _ n d e h; simp at h
  | cons x l ih =>
    intro names hn n d e hd he
    cases names with
    | nil => simp at hd
    | cons m names =>
      simp only [List.zip_cons_cons, List.mem_cons, Prod.mk.injEq] at hd he
      rw [List.nodup_cons] at hn
      rcases hd with ⟨rfl, rfl⟩ | hd
      · rcases he with ⟨rfl, _⟩ | he
        · rfl
        · exact absurd (List.of_mem_zip he).2 hn.1
      · rcases he with ⟨rfl, rfl⟩ | he
        · exact absurd (List.of_mem_zip hd).2 hn.1
        · exact ih names hn.2 n d e hd he

/-- The first dimensions get names that are not used, or used for dimensions of the same size. -/
theorem unbind_ok {v : Val α} (hv : v.Wf) (names : List Name) (hnd : names.Nodup) (hl : names.length ≤ v.shape.length)
    (hs : ∀ n ∈ names, ∀ d e, Occurs v n d → (e, n) ∈ v.shape.zip names → d = e) :
    ∃ w, Named.unbind v names = .ok w ∧ w.Wf ∧ w.shape = v.shape.drop names.length ∧
      (∀ n d, Occurs w n d ↔ Occurs v n d ∨ (d, n) ∈ v.shape.zip names) ∧
      ∀ env ix, ix.length = v.shape.length - names.length → den w env ix = den v env (names.map env ++ ix) := by
  have hz : ∀ n d, (d, some n) ∈ v.shape.zip (names.map some) ↔ (d, n) ∈ v.shape.zip names := by
    intro n d
    rw [List.zip_map_right, List.mem_map]
    constructor
    · rintro ⟨⟨a, b⟩, h1, h2⟩
      simp only [Prod.map_apply, id_eq, Prod.mk.injEq, Option.some.injEq] at h2
      obtain ⟨rfl, rfl⟩ := h2
      exact h1
    · intro h
      exact ⟨(d, n), h, rfl⟩
  obtain ⟨w, hw⟩ := (C37_getitem hv (names.map some)).1.2 ⟨by simpa using hl, fun n d e hd he => by
    rw [hz] at hd he
    rcases hd with hd | hd <;> rcases he with he | he
    · exact hv.sizes n d e hd he
    · exact hs n (List.of_mem_zip he).2 d e hd he
    · exact (hs n (List.of_mem_zip hd).2 e d he hd).symm
    · exact zip_once _ _ hnd n d e hd he⟩
  obtain ⟨h1, h2, h3, h4⟩ := (C37_getitem hv (names.map some)).2 w hw
  refine ⟨w, hw, h1, ?_, fun n d => by rw [h3, hz], ?_⟩
  · rw [h2]
    unfold pad
    have e : v.shape = v.shape.take names.length ++ v.shape.drop names.length := by simp
    conv => lhs; arg 1; rw [e]
    rw [visible_names _ _ names (by simp; omega), List.length_map]
    have : v.shape.length - names.length = (v.shape.drop names.length).length := by simp
    rw [this, visible_all]
  · intro env ix hix
    rw [h4]
    unfold pad
    rw [coords_names, List.length_map]
    unfold den
    rw [← hix]
    congr 1
    have : coords (List.replicate ix.length none) env ix = ix := by
      clear h4 hix
      induction ix with
      | nil => rfl
      | cons i ix ih => simp [List.replicate_succ, coords, ih]
    rw [this]

theorem apply_once (ofNat : Nat → α) (f : Fn α) (as : List (Arg α)) (hc : Consistent as) (w : Val α)
    (h : Pointwise.apply ofNat f as = .ok w) : Once w := by
  obtain ⟨s, h1, h2, h3⟩ := Pointwise.sizes_spec as hc
  simp only [Pointwise.apply, h1] at h
  split at h
  · simp only [Pointwise.partialEval] at h
    split at h
    · cases h
    · cases h; exact fun n => named_once h2 _ n
  · split at h
    · split at h
      · cases h
      · cases h; exact plain_once _
    · cases h

theorem good_torch (ofNat : Nat → α) : Good ofNat (torch ofNat) Once where
  apply := by
    intro f as out hw hc hcl hloc hf
    by_cases hn : ∃ n d, HasDim as n d
    · obtain ⟨w, h1, h2, h3, h4, h5⟩ := Pointwise.C70_pointwise ofNat f as (fun v hv => (hw v hv).1.rank) hc hcl hn out hf
      exact ⟨w, h1, h2, apply_once ofNat f as hc w h1, h3, h4, h5⟩
    · have hno : ∀ n d, ¬ HasDim as n d := fun n d h => hn ⟨n, d, h⟩
      obtain ⟨xs, e, hs, -⟩ := plain_args ofNat (fun _ => 0) as (fun v hv => (hw v hv).1) hcl hno
      have h1 := Pointwise.C70_plain ofNat f xs out (by rw [hs, hf])
      rw [← e] at h1
      obtain ⟨p1, p2, p3⟩ := plain_wf (⟨out, f.val xs⟩ : Arr α)
      refine ⟨_, h1, p1, plain_once _, p2, fun n d => ⟨fun h => absurd h (p3 n d), fun h => absurd h (hno n d)⟩, ?_⟩
      intro env ix _ hix
      rw [plain_den _ _ _ (Pointwise.InRange.length hix)]
      obtain ⟨ys, e', hs', hag⟩ := plain_args ofNat env as (fun v hv => (hw v hv).1) hcl hno
      have hxy : xs = ys := by
        rw [e] at e'
        clear e hs hag hs' h1 p1 p2 p3
        induction xs generalizing ys with
        | nil => cases ys with
          | nil => rfl
          | cons => cases e'
        | cons x xs ih => cases ys with
          | nil => cases e'
          | cons y ys =>
            simp only [List.map_cons, List.cons.injEq, Arg.tensor.injEq] at e'
            have : x = y := congrArg Val.arr e'.1
            rw [this, ih _ e'.2]
      subst hxy
      exact hloc _ _ out ix hag (by rw [hs, hf]) hix
  bind := by
    intro v names hv hone hnd hne hocc
    obtain ⟨w, sz, h1, h2, h3, h4, h5, h6, h7⟩ := C37_bind_partial hv names hnd fun n hn => by
      obtain ⟨d, hd⟩ := hocc n hn
      have := List.count_pos_iff.2 (List.of_mem_zip hd).2
      have := hone n
      omega
    exact ⟨w, sz, h1, h2, bind_once hv hone names h1, h3, h4, h5, h6, fun env js ix hj _ => h7 env js ix hj⟩
  unbind := by
    intro v names hv hone hnd hl hfresh
    obtain ⟨w, h1, h2, h3⟩ := unbind_ok hv names hnd hl hfresh
    exact ⟨w, h1, h2, unbind_once hv names hnd h1, h3⟩

theorem good_jax (ofNat : Nat → α) : Good ofNat (jax ofNat) fun _ => True where
  apply := by
    intro f as out hw hc hcl hloc hf
    by_cases hn : ∃ n d, HasDim as n d
    · obtain ⟨ws, h1, hl, hk⟩ := Jax.C87_pointwise ofNat (single f) as (fun v hv => (hw v hv).1.rank) hc hcl hn [out]
        (by simp [single, hf])
      obtain ⟨w, hw0, h2, h3, h4, h5⟩ := hk 0 out rfl
      have hws : ws = [w] := by
        match ws, hl, hw0 with
        | [x], _, h => simp at h; rw [h]
      subst hws
      exact ⟨w, by simp only [jax, h1], h2, trivial, h3, h4, h5⟩
    · have hno : ∀ n d, ¬ HasDim as n d := fun n d h => hn ⟨n, d, h⟩
      obtain ⟨xs, e, hs, -⟩ := plain_args ofNat (fun _ => 0) as (fun v hv => (hw v hv).1) hcl hno
      obtain ⟨ws, h1, hk⟩ := Jax.C87_plain ofNat (single f) xs [out] (by simp [single, hs, hf])
      rw [← e] at h1
      have hws : ws = [plain ⟨out, f.val xs⟩] := by
        have h0 := hk 0
        have h1 := hk 1
        match ws, h0, h1 with
        | [x], h0, _ => simp [single] at h0; rw [h0]
        | _ :: _ :: _, _, h => simp at h
        | [], h, _ => simp at h
      subst hws
      obtain ⟨p1, p2, p3⟩ := plain_wf (⟨out, f.val xs⟩ : Arr α)
      refine ⟨_, by simp only [jax, h1], p1, trivial, p2,
        fun n d => ⟨fun h => absurd h (p3 n d), fun h => absurd h (hno n d)⟩, ?_⟩
      intro env ix _ hix
      rw [plain_den _ _ _ (Pointwise.InRange.length hix)]
      obtain ⟨ys, e', hs', hag⟩ := plain_args ofNat env as (fun v hv => (hw v hv).1) hcl hno
      have hxy : xs = ys := by
        rw [e] at e'
        clear e hs hag hs' h1 p1 p2 p3 hk
        induction xs generalizing ys with
        | nil => cases ys with
          | nil => rfl
          | cons => cases e'
        | cons x xs ih => cases ys with
          | nil => cases e'
          | cons y ys =>
            simp only [List.map_cons, List.cons.injEq, Arg.tensor.injEq] at e'
            have : x = y := congrArg Val.arr e'.1
            rw [this, ih _ e'.2]
      subst hxy
      exact hloc _ _ out ix hag (by rw [hs, hf]) hix
  bind := by
    intro v names hv _ hnd hne hocc
    obtain ⟨w, sz, h1, h2, h3⟩ := Jax.C87_bind hv names hnd hne hocc
    exact ⟨w, sz, h1, h2, trivial, h3⟩
  unbind := by
    intro v names hv _ hnd hl hfresh
    obtain ⟨w, h1, h2, h3⟩ := unbind_ok hv names hnd hl hfresh
    exact ⟨w, h1, h2, trivial, h3⟩

/-! ## Programs -/

theorem loop_shape (ofNat : Nat → α) (p : Prog α) (env : Name → Nat) : (loop ofNat p env).shape = shape p := by
  cases p <;> simp [loop, shape]

theorem setAll_upd (env : Name → Nat) : ∀ (ns : List Name) (js : List Nat), js.length = ns.length →
    setAll env ns js = upd env ns js := by
  intro ns
  induction ns with
  | nil => intro js _; funext m; simp [setAll, upd]
  | cons n ns ih =>
    intro js h
    cases js with
    | nil => simp at h
    | cons j js =>
      funext m
      simp only [setAll]
      by_cases hm : m = n
      · subst hm; simp [upd]
      · rw [if_neg hm, ih js (by simpa using h)]
        have : (n == m) = false := by simpa using fun h => hm h.symm
        simp [upd, hm, List.idxOf_cons, this]

theorem tensor_size {v : Val α} (hv : v.Wf) (n : Name) (d : Nat) :
    Occurs v n d ↔ size (.tensor v) n = some d := by
  simp only [size, Option.map_eq_some_iff]
  constructor
  · intro h
    cases hf : (v.arr.shape.zip v.dims).find? fun q => q.2 == some n with
    | none =>
      have := List.find?_eq_none.1 hf _ h
      simp at this
    | some q =>
      have h1 := List.mem_of_find?_eq_some hf
      have h2 := List.find?_some hf
      simp only [beq_iff_eq] at h2
      obtain ⟨e, m⟩ := q
      simp only at h2
      subst h2
      exact ⟨_, rfl, hv.sizes n e d h1 h⟩
  · rintro ⟨⟨e, m⟩, hf, rfl⟩
    have h1 := List.mem_of_find?_eq_some hf
    have h2 := List.find?_some hf
    simp only [beq_iff_eq] at h2
    subst h2
    exact h1

theorem sizeL_some : ∀ (ps : List (Prog α)) (n : Name) (d : Nat), sizeL ps n = some d → ∃ p ∈ ps, size p n = some d
  | [], n, d, h => by simp [sizeL] at h
  | p :: ps, n, d, h => by
    simp only [sizeL] at h
    split at h
    · rename_i e he
      cases h
      exact ⟨p, List.mem_cons_self, he⟩
    · obtain ⟨q, hq, e⟩ := sizeL_some ps n d h
      exact ⟨q, List.mem_cons_of_mem _ hq, e⟩

theorem sizeL_mem : ∀ (ps : List (Prog α)) (n : Name) (d : Nat) (p : Prog α), p ∈ ps → size p n = some d →
    ∃ e, sizeL ps n = some e
  | [], n, d, p, h, _ => by simp at h
  | q :: ps, n, d, p, h, hs => by
    simp only [sizeL]
    split
    · exact ⟨_, rfl⟩
    · rename_i hq
      rcases List.mem_cons.1 h with rfl | h
      · rw [hs] at hq; cases hq
      · exact sizeL_mem ps n d p h hs

/-- The value of a program. -/
def Meets (ofNat : Nat → α) (I : Val α → Prop) : Prog α → Arg α → Prop
  | .name n, a => a = .name n
  | p, a => ∃ w, a = .tensor w ∧ I w ∧ Computes ofNat p w

theorem Meets.tensor {ofNat : Nat → α} {I : Val α → Prop} {p : Prog α} (hp : IsTensor p) {a : Arg α} (h : Meets ofNat I p a) :
    ∃ w, a = .tensor w ∧ I w ∧ Computes ofNat p w := by
  cases p with
  | name n => exact absurd hp id
  | _ => exact h

/-- The values of programs. -/
def MeetsL (ofNat : Nat → α) (I : Val α → Prop) : List (Prog α) → List (Arg α) → Prop
  | [], [] => True
  | p :: ps, a :: as => Meets ofNat I p a ∧ MeetsL ofNat I ps as
  | _, _ => False

theorem Meets.cases {ofNat : Nat → α} {I : Val α → Prop} {p : Prog α} {a : Arg α} (h : Meets ofNat I p a) :
    (∃ n, p = .name n ∧ a = .name n) ∨ ∃ w, a = .tensor w ∧ I w ∧ Computes ofNat p w ∧ IsTensor p := by
  cases p with
  | name n => exact Or.inl ⟨n, rfl, h⟩
  | _ =>
    obtain ⟨w, h1, h2, h3⟩ := h
    exact Or.inr ⟨w, h1, h2, h3, trivial⟩

theorem meetsL_mem {ofNat : Nat → α} {I : Val α → Prop} : ∀ {ps : List (Prog α)} {as : List (Arg α)}, MeetsL ofNat I ps as →
    (∀ a ∈ as, ∃ p ∈ ps, Meets ofNat I p a) ∧ ∀ p ∈ ps, ∃ a ∈ as, Meets ofNat I p a
  | [], [], _ => ⟨by simp, by simp⟩
  | p :: ps, a :: as, ⟨h, hs⟩ => by
    obtain ⟨h1, h2⟩ := meetsL_mem hs
    constructor
    · intro b hb
      rcases List.mem_cons.1 hb with rfl | hb
      · exact ⟨p, List.mem_cons_self, h⟩
      · obtain ⟨q, hq, e⟩ := h1 b hb
        exact ⟨q, List.mem_cons_of_mem _ hq, e⟩
    · intro q hq
      rcases List.mem_cons.1 hq with rfl | hq
      · exact ⟨a, List.mem_cons_self, h⟩
      · obtain ⟨b, hb, e⟩ := h2 q hq
        exact ⟨b, List.mem_cons_of_mem _ hb, e⟩

theorem meetsL_shapes {ofNat : Nat → α} {I : Val α → Prop} : ∀ {ps : List (Prog α)} {as : List (Arg α)},
    MeetsL ofNat I ps as → as.map argShape = shapes ps
  | [], [], _ => rfl
  | p :: ps, a :: as, ⟨h, hs⟩ => by
    have : argShape a = shape p := by
      rcases h.cases with ⟨n, rfl, rfl⟩ | ⟨w, rfl, -, hc, -⟩
      · rfl
      · exact hc.shape
    simp only [List.map_cons, shapes, this, meetsL_shapes hs]

theorem meetsL_agrees {ofNat : Nat → α} {I : Val α → Prop} (env : Name → Nat) : ∀ {ps : List (Prog α)} {as : List (Arg α)},
    MeetsL ofNat I ps as → (∀ p ∈ ps, InSizes p env) → Agrees (as.map (argAt ofNat env)) (loops ofNat ps env)
  | [], [], _, _ => trivial
  | p :: ps, a :: as, ⟨h, hs⟩, hr => by
    refine ⟨?_, meetsL_agrees env hs fun q hq => hr q (List.mem_cons_of_mem _ hq)⟩
    rcases h.cases with ⟨n, rfl, rfl⟩ | ⟨w, rfl, -, hc, -⟩
    · exact ⟨rfl, fun ix _ => rfl⟩
    · refine ⟨by rw [loop_shape]; exact hc.shape, fun ix hix => ?_⟩
      exact hc.entries env ix (hr p List.mem_cons_self) (by rw [← hc.shape]; exact hix)

theorem inRange_split : ∀ {ds es ix : List Nat}, InRange (ds ++ es) ix →
    InRange ds (ix.take ds.length) ∧ InRange es (ix.drop ds.length)
  | [], es, ix, h => ⟨trivial, h⟩
  | d :: ds, es, [], h => absurd h id
  | d :: ds, es, i :: ix, h => by
    obtain ⟨h1, h2⟩ := inRange_split (ds := ds) (es := es) (ix := ix) h.2
    exact ⟨⟨h.1, h1⟩, h2⟩

theorem inRange_get : ∀ {ds ix : List Nat}, InRange ds ix → ∀ (k d : Nat), ds[k]? = some d → ix.getD k 0 < d
  | [], [], _, k, d, h => by simp at h
  | d :: ds, i :: ix, h, 0, e, he => by
    simp only [List.getElem?_cons_zero, Option.some.injEq] at he
    subst he; exact h.1
  | d :: ds, i :: ix, h, k + 1, e, he => by
    have := inRange_get h.2 k e (by simpa using he)
    simpa using this

mutual
theorem run_meets (ofNat : Nat → α) (L : Lib α) (I : Val α → Prop) (hL : Good ofNat L I) :
    ∀ p : Prog α, Ok I p → ∃ a, run L p = .ok a ∧ Meets ofNat I p a
  | .tensor v, h =>
    ⟨.tensor v, rfl, v, rfl, h.2, h.1, rfl, tensor_size h.1, fun _ _ _ _ => rfl⟩
  | .name n, _ => ⟨.name n, rfl, rfl⟩
  | .app f ps, h => by
    obtain ⟨hps, hloc, hsh, hcons, hnames⟩ := h
    obtain ⟨as, hr, hm⟩ := runs_meets ofNat L I hL ps hps
    obtain ⟨m1, m2⟩ := meetsL_mem hm
    have hdim : ∀ n d, HasDim as n d ↔ ∃ p ∈ ps, size p n = some d := by
      intro n d
      constructor
      · rintro ⟨v, hv, ho⟩
        obtain ⟨p, hp, hmp⟩ := m1 _ hv
        rcases hmp.cases with ⟨m, rfl, e⟩ | ⟨w, e, -, hc, -⟩
        · cases e
        · cases e
          exact ⟨p, hp, (hc.named n d).1 ho⟩
      · rintro ⟨p, hp, hs⟩
        obtain ⟨a, ha, hmp⟩ := m2 p hp
        rcases hmp.cases with ⟨m, rfl, rfl⟩ | ⟨w, rfl, -, hc, -⟩
        · simp [size] at hs
        · exact ⟨w, ha, (hc.named n d).2 hs⟩
    have hsize : ∀ n d, size (.app f ps) n = some d ↔ ∃ p ∈ ps, size p n = some d := by
      intro n d
      simp only [size]
      constructor
      · exact sizeL_some ps n d
      · rintro ⟨p, hp, hs⟩
        obtain ⟨e, he⟩ := sizeL_mem ps n d p hp hs
        obtain ⟨q, hq, hqs⟩ := sizeL_some ps n e he
        rw [he, hcons n d e p hp q hq hs hqs]
    obtain ⟨out, hout⟩ := Option.isSome_iff_exists.1 hsh
    obtain ⟨w, h1, h2, h3, h4, h5, h6⟩ := hL.apply f as out
      (fun v hv => by
        obtain ⟨p, hp, hmp⟩ := m1 _ hv
        rcases hmp.cases with ⟨m, rfl, e⟩ | ⟨w, e, hi, hc, -⟩
        · cases e
        · cases e; exact ⟨hc.wf, hi⟩)
      (fun n d e hd he => by
        obtain ⟨p, hp, hsp⟩ := (hdim n d).1 hd
        obtain ⟨q, hq, hsq⟩ := (hdim n e).1 he
        exact hcons n d e p hp q hq hsp hsq)
      (by
        constructor
        · intro n hn
          obtain ⟨p, hp, hmp⟩ := m1 _ hn
          rcases hmp.cases with ⟨m, rfl, e⟩ | ⟨w, e, -, hc, -⟩
          · cases e
            obtain ⟨q, hq, d, hd⟩ := hnames n hp
            exact ⟨d, (hdim n d).2 ⟨q, hq, hd⟩⟩
          · cases e
        · intro hopen
          obtain ⟨p, hp, hmp⟩ := m1 _ hopen
          rcases hmp.cases with ⟨m, rfl, e⟩ | ⟨w, e, -, hc, -⟩
          · cases e
          · cases e)
      hloc (by rw [meetsL_shapes hm, hout])
    have hshape : shape (.app f ps) = out := by simp [shape, hout]
    refine ⟨.tensor w, by simp only [run, hr, h1, Except.map], w, rfl, h3, h2, h4.trans hshape.symm, fun n d => ?_, ?_⟩
    · rw [h5, hdim, hsize]
    · intro env ix henv hix
      rw [hshape] at hix
      rw [h6 env ix (fun n d hd => henv n d ((hsize n d).2 ((hdim n d).1 hd))) hix]
      simp only [loop]
      refine hloc _ _ out ix (meetsL_agrees env hm fun p hp n d hd => henv n d ((hsize n d).2 ⟨p, hp, hd⟩)) ?_ hix
      rw [List.map_map]
      have : as.map (Arr.shape ∘ argAt ofNat env) = as.map argShape := by
        apply List.map_congr_left
        intro a _
        cases a <;> rfl
      rw [this, meetsL_shapes hm, hout]
  | .bind p names, h => by
    obtain ⟨hp, ht, hnd, hne, hsz⟩ := h
    obtain ⟨a, hr, hm⟩ := run_meets ofNat L I hL p hp
    obtain ⟨v, rfl, hi, hc⟩ := hm.tensor ht
    obtain ⟨w, sz, h1, h2, h3, h4, h5, h6, h7, h8⟩ := hL.bind v names hc.wf hi hnd hne fun n hn => by
      obtain ⟨d, hd⟩ := hsz n hn
      exact ⟨d, (hc.named n d).2 hd⟩
    have hszs : sz = names.map fun n => (size p n).getD 0 := by
      apply List.ext_getElem
      · simp [h4]
      · intro k k1 k2
        have hk : k < names.length := by omega
        have := (hc.named _ _).1 (h5 k names[k] sz[k] (by simp [hk]) (by simp [k1]))
        simp [this]
    refine ⟨.tensor w, by simp only [run, hr, h1, Except.map], w, rfl, h3, h2, ?_, ?_, ?_⟩
    · rw [h6, hc.shape, hszs]; rfl
    · intro n d
      rw [h7, hc.named]
      simp only [size]
      by_cases hn : n ∈ names <;> simp [hn]
    · intro env ix henv hix
      simp only [shape, ← hszs] at hix
      obtain ⟨i1, i2⟩ := inRange_split hix
      rw [h4] at i1 i2
      have l1 := Pointwise.InRange.length i1
      have l2 := Pointwise.InRange.length i2
      rw [← List.take_append_drop names.length ix,
        h8 env (ix.take names.length) (ix.drop names.length) (by rw [l1, h4]) (by rw [l2, hc.shape])]
      rw [List.take_append_drop]
      simp only [loop]
      rw [setAll_upd _ _ _ (by rw [l1, h4])]
      refine hc.entries _ _ (fun n d hd => ?_) i2
      unfold upd
      by_cases hn : n ∈ names
      · rw [if_pos hn]
        refine inRange_get i1 _ _ ?_
        have hlt := List.idxOf_lt_length_of_mem hn
        rw [hszs]
        simp [hlt, hd]
      · rw [if_neg hn]
        exact henv n d (by simp [size, hn, hd])
  | .unbind p names, h => by
    obtain ⟨hp, ht, hnd, hl, hfr⟩ := h
    obtain ⟨a, hr, hm⟩ := run_meets ofNat L I hL p hp
    obtain ⟨v, rfl, hi, hc⟩ := hm.tensor ht
    have hzip : ∀ n d, (d, n) ∈ v.shape.zip names ↔ n ∈ names ∧ (shape p)[names.idxOf n]? = some d := by
      intro n d
      rw [hc.shape]
      constructor
      · intro hm
        have hn := (List.of_mem_zip hm).2
        refine ⟨hn, ?_⟩
        obtain ⟨k, hk⟩ := List.mem_iff_getElem?.1 hm
        rw [List.getElem?_zip_eq_some] at hk
        have : names.idxOf n = k := by
          obtain ⟨hk2, e⟩ := List.getElem?_eq_some_iff.1 hk.2
          simp only at e
          rw [← e]
          exact hnd.idxOf_getElem k hk2
        rw [this]
        exact hk.1
      · rintro ⟨hn, hd⟩
        rw [List.mem_iff_getElem?]
        refine ⟨names.idxOf n, ?_⟩
        rw [List.getElem?_zip_eq_some]
        have hlt := List.idxOf_lt_length_of_mem hn
        exact ⟨hd, by simp [hlt]⟩
    obtain ⟨w, h1, h2, h3, h4, h5, h6⟩ := hL.unbind v names hc.wf hi hnd (by rw [hc.shape]; exact hl) fun n hn d e hd he => by
      have h1 := hfr n hn d ((hc.named n d).1 hd)
      rw [hzip] at he
      rw [he.2] at h1
      exact (Option.some.inj h1).symm
    have hsize : ∀ n d, size (.unbind p names) n = some d ↔ size p n = some d ∨ (d, n) ∈ v.shape.zip names := by
      intro n d
      rw [hzip]
      simp only [size]
      by_cases hn : n ∈ names
      · simp only [hn, if_true, true_and]
        exact ⟨Or.inr, fun h => h.elim (hfr n hn d) id⟩
      · simp [hn]
    refine ⟨.tensor w, by simp only [run, hr, h1, Except.map], w, rfl, h3, h2, ?_, ?_, ?_⟩
    · rw [h4, hc.shape]; rfl
    · intro n d
      rw [h5, hc.named, hsize]
    · intro env ix henv hix
      simp only [shape] at hix
      have lx := Pointwise.InRange.length hix
      rw [h6 env ix (by rw [lx, List.length_drop, hc.shape])]
      simp only [loop]
      refine hc.entries env _ (fun n d hd => henv n d ((hsize n d).2 (Or.inl hd))) ?_
      have hspl : shape p = (shape p).take names.length ++ (shape p).drop names.length := by simp
      rw [hspl]
      refine Pointwise.inRange_append ?_ hix
      have hvals : ∀ n d, (d, n) ∈ (shape p).zip names → env n < d := fun n d hd => henv n d ((hsize n d).2 (Or.inr (by
        rw [hc.shape]; exact hd)))
      clear hspl lx h6 h5 hzip hsize hix henv h4 hfr hnd hm hr h1 h2 h3
      generalize shape p = sh at hl hvals
      induction names generalizing sh with
      | nil => simp [InRange]
      | cons n ns ih =>
        cases sh with
        | nil => simp at hl
        | cons d sh =>
          exact ⟨hvals n d (by simp), ih sh (by simpa using hl) fun m e hm => hvals m e (by simp [hm])⟩
theorem runs_meets (ofNat : Nat → α) (L : Lib α) (I : Val α → Prop) (hL : Good ofNat L I) :
    ∀ ps : List (Prog α), Oks I ps → ∃ as, runs L ps = .ok as ∧ MeetsL ofNat I ps as
  | [], _ => ⟨[], rfl, trivial⟩
  | p :: ps, h => by
    obtain ⟨a, h1, h2⟩ := run_meets ofNat L I hL p h.1
    obtain ⟨as, h3, h4⟩ := runs_meets ofNat L I hL ps h.2
    exact ⟨a :: as, by simp only [runs, h1, h3], h2, h4⟩
end

/-- **C107.** A program on torch tensors, where each name is the name of one dimension of a given tensor, has a value, with
the shape and the names of the program; its entries are those that the loops over the names compute. -/
theorem C107_torch_partial (ofNat : Nat → α) (p : Prog α) (hp : Ok Once p) (ht : IsTensor p) :
    ∃ w, run (torch ofNat) p = .ok (.tensor w) ∧ Computes ofNat p w := by
  obtain ⟨a, h1, h2⟩ := run_meets ofNat _ _ (good_torch ofNat) p hp
  obtain ⟨w, rfl, -, h3⟩ := h2.tensor ht
  exact ⟨w, h1, h3⟩

/-- **C107.** A program on jax arrays has a value, with the shape and the names of the program; its entries are those that
the loops over the names compute. -/
theorem C107_jax (ofNat : Nat → α) (p : Prog α) (hp : Ok (fun _ => True) p) (ht : IsTensor p) :
    ∃ w, run (jax ofNat) p = .ok (.tensor w) ∧ Computes ofNat p w := by
  obtain ⟨a, h1, h2⟩ := run_meets ofNat _ _ (good_jax ofNat) p hp
  obtain ⟨w, rfl, -, h3⟩ := h2.tensor ht
  exact ⟨w, h1, h3⟩

/-- **C107.** Programs with the same names of the same sizes, the same shape and the same loops have the same value, on torch
and on jax. -/
theorem C107_equal (ofNat : Nat → α) (p q : Prog α) (hp : Ok Once p) (hq : Ok (fun _ => True) q) (tp : IsTensor p)
    (tq : IsTensor q) (hs : shape p = shape q) (hn : ∀ n, size p n = size q n)
    (hl : ∀ env ix, InSizes p env → InRange (shape p) ix → (loop ofNat p env).get ix = (loop ofNat q env).get ix) :
    ∃ v w, run (torch ofNat) p = .ok (.tensor v) ∧ run (jax ofNat) q = .ok (.tensor w) ∧ v.shape = w.shape ∧
      (∀ n d, Occurs v n d ↔ Occurs w n d) ∧
      ∀ env ix, (∀ n d, Occurs v n d → env n < d) → InRange v.shape ix → den v env ix = den w env ix := by
  obtain ⟨v, h1, c1⟩ := C107_torch_partial ofNat p hp tp
  obtain ⟨w, h2, c2⟩ := C107_jax ofNat q hq tq
  refine ⟨v, w, h1, h2, by rw [c1.shape, c2.shape, hs], fun n d => by rw [c1.named, c2.named, hn], ?_⟩
  intro env ix henv hix
  have he : InSizes p env := fun n d hd => henv n d ((c1.named n d).2 hd)
  rw [c1.shape] at hix
  rw [c1.entries env ix he hix, c2.entries env ix (fun n d hd => he n d (by rw [hn]; exact hd)) (by rw [← hs]; exact hix),
    hl env ix he hix]

/-- **C107.** If all names are bound, then the value is a tensor without named dimensions, with the entries of the loops. -/
theorem C107_closed (ofNat : Nat → α) (p : Prog α) (w : Val α) (h : Computes ofNat p w) (hn : ∀ n, size p n = none)
    (env : Name → Nat) : w = plain w.arr ∧ w.arr.shape = shape p ∧
      ∀ ix, InRange (shape p) ix → w.arr.get ix = (loop ofNat p env).get ix := by
  have hw := eq_plain h.wf fun n d hd => by
    have := (h.named n d).1 hd
    rw [hn n] at this
    cases this
  have hs : w.arr.shape = shape p := by
    rw [← h.shape]
    conv => rhs; rw [hw, (plain_wf w.arr).2.1]
  refine ⟨hw, hs, fun ix hix => ?_⟩
  rw [← h.entries env ix (fun n d hd => by rw [hn n] at hd; cases hd) hix]
  conv => rhs; rw [hw, plain_den _ _ _ (by rw [hs]; exact Pointwise.InRange.length hix)]

/-! ## Examples: the product of matrices -/

/-- `a * b` for tensors of the same shape. -/
def mul : Fn Nat where
  shape
    | [a, b] => if a = b then some a else none
    | _ => none
  val
    | [a, b], ix => a.get ix * b.get ix
    | _, _ => 0

/-- `a.sum(0)`. -/
def sum0 : Fn Nat where
  shape
    | [_ :: sh] => some sh
    | _ => none
  val
    | [a], ix => ((List.range (a.shape.headD 0)).map fun k => a.get (k :: ix)).sum
    | _, _ => 0

theorem mul_local : Local mul := by
  intro xs ys out ix h hs hix
  match xs, ys, h with
  | [a, b], [c, d], ⟨h1, h2, _⟩ =>
    simp only [mul, List.map_cons, List.map_nil] at hs ⊢
    split at hs
    · rename_i e
      cases hs
      rw [h1.2 ix hix, h2.2 ix (by rw [← e]; exact hix)]
    · cases hs
  | [], [], _ => cases hs
  | [_], [_], _ => cases hs
  | _ :: _ :: _ :: _, _ :: _ :: _ :: _, _ => cases hs

theorem sum0_local : Local sum0 := by
  intro xs ys out ix h hs hix
  match xs, ys, h with
  | [a], [b], ⟨h1, _⟩ =>
    simp only [sum0, List.map_cons, List.map_nil] at hs ⊢
    cases hsh : a.shape with
    | nil => rw [hsh] at hs; cases hs
    | cons d sh =>
      rw [hsh] at hs
      cases hs
      rw [← h1.1, hsh]
      congr 1
      apply List.map_congr_left
      intro k hk
      exact h1.2 _ (by rw [hsh]; exact ⟨by simpa using hk, hix⟩)
  | [], [], _ => cases hs
  | _ :: _ :: _, _ :: _ :: _, _ => simp [sum0] at hs

/-- `bind_dims(bind_dims(A[i(), k()] * B[k(), j()], k).sum(0), i, j)`. -/
def matmul (A B : Arr Nat) : Prog Nat :=
  .bind (.app sum0 [.bind (.app mul [.tensor ⟨A, [some "i", some "k"]⟩, .tensor ⟨B, [some "k", some "j"]⟩]) ["k"]]) ["i", "j"]

theorem matmul_ok (A B : Arr Nat) (n m l : Nat) (hA : A.shape = [n, m]) (hB : B.shape = [m, l]) : Ok Once (matmul A B) := by
  have wA : (⟨A, [some "i", some "k"]⟩ : Val Nat).Wf ∧ Once (⟨A, [some "i", some "k"]⟩ : Val Nat) := by
    refine ⟨⟨by simp [hA], fun x d e hd he => ?_⟩, fun x => ?_⟩
    · simp [Occurs, hA] at hd he
      grind
    · simp only [List.count_cons, List.count_nil, beq_iff_eq, Option.some.injEq]
      split <;> split <;> first | omega | (subst_vars; simp_all)
  have wB : (⟨B, [some "k", some "j"]⟩ : Val Nat).Wf ∧ Once (⟨B, [some "k", some "j"]⟩ : Val Nat) := by
    refine ⟨⟨by simp [hB], fun x d e hd he => ?_⟩, fun x => ?_⟩
    · simp [Occurs, hB] at hd he
      grind
    · simp only [List.count_cons, List.count_nil, beq_iff_eq, Option.some.injEq]
      split <;> split <;> first | omega | (subst_vars; simp_all)
  refine ⟨⟨⟨⟨⟨⟨wA, wB, trivial⟩, mul_local, ?_, ?_, ?_⟩, trivial, by decide, by decide, ?_⟩, trivial⟩, sum0_local, ?_, ?_, ?_⟩,
    trivial, by decide, by decide, ?_⟩
  · simp [shapes, shape, Val.shape, visible, hA, hB, mul]
  · intro x d e p hp q hq h1 h2
    simp only [List.mem_cons, List.not_mem_nil, or_false] at hp hq
    rcases hp with rfl | rfl <;> rcases hq with rfl | rfl <;>
      simp [size, hA, hB, List.find?_cons] at h1 h2 <;> grind
  · simp
  · simp [size, sizeL, hA]
  · simp [shapes, shape, sum0]
  · intro x d e p hp q hq h1 h2
    simp only [List.mem_cons, List.not_mem_nil, or_false] at hp hq
    subst hp hq
    rw [h1] at h2
    exact Option.some.inj h2
  · simp
  · simp [size, sizeL, hA, hB]

mutual
theorem Ok.weaken {I J : Val α → Prop} (hIJ : ∀ v, I v → J v) : ∀ {p : Prog α}, Ok I p → Ok J p
  | .tensor v, h => ⟨h.1, hIJ v h.2⟩
  | .name _, _ => trivial
  | .app _ _, h => ⟨Oks.weaken hIJ h.1, h.2⟩
  | .bind _ _, h => ⟨Ok.weaken hIJ h.1, h.2⟩
  | .unbind _ _, h => ⟨Ok.weaken hIJ h.1, h.2⟩
theorem Oks.weaken {I J : Val α → Prop} (hIJ : ∀ v, I v → J v) : ∀ {ps : List (Prog α)}, Oks I ps → Oks J ps
  | [], _ => trivial
  | _ :: _, h => ⟨Ok.weaken hIJ h.1, Oks.weaken hIJ h.2⟩
end

/-- **C107.** The product of matrices, written with names, is the product of matrices, for all sizes. -/
theorem C107_matmul (A B : Arr Nat) (n m l : Nat) (hA : A.shape = [n, m]) (hB : B.shape = [m, l]) :
    ∀ L ∈ [torch id, jax id], ∃ x : Arr Nat, run L (matmul A B) = .ok (.tensor (plain x)) ∧ x.shape = [n, l] ∧
      ∀ r c, r < n → c < l → x.get [r, c] = ((List.range m).map fun k => A.get [r, k] * B.get [k, c]).sum := by
  intro L hL
  have hok := matmul_ok A B n m l hA hB
  have : ∃ w, run L (matmul A B) = .ok (.tensor w) ∧ Computes id (matmul A B) w := by
    simp only [List.mem_cons, List.not_mem_nil, or_false] at hL
    rcases hL with rfl | rfl
    · exact C107_torch_partial id _ hok trivial
    · exact C107_jax id _ (Ok.weaken (fun _ _ => trivial) hok) trivial
  obtain ⟨w, h1, h2⟩ := this
  have hsh : shape (matmul A B) = [n, l] := by
    simp [matmul, shape, shapes, size, sizeL, mul, sum0, hA, hB, Val.shape, visible]
  obtain ⟨h3, h4, h5⟩ := C107_closed id _ w h2 (fun x => by
    simp only [matmul, size, sizeL, hA, hB]
    by_cases e1 : x = "i" <;> by_cases e2 : x = "j" <;> by_cases e3 : x = "k" <;> simp_all [List.find?_cons]; grind) fun _ => 0
  refine ⟨w.arr, by rw [h1]; exact congrArg (fun v => Except.ok (Arg.tensor v)) h3, by rw [h4, hsh], fun r c hr hc => ?_⟩
  rw [h5 [r, c] (by rw [hsh]; exact ⟨hr, hc, trivial⟩)]
  simp [matmul, loop, loops, mul, sum0, den, coords, setAll, shape, shapes, size, sizeL, hA]

/-- `bind_dims(x[a(), a()], a)` for a matrix `x`. -/
def diagonal : Prog Nat := .bind (.tensor ⟨⟨[2, 2], fun ix => 10 * ix.getD 0 0 + ix.getD 1 0⟩, [some "a", some "a"]⟩) ["a"]

/-- **C107.** `bind_dims(x[a(), a()], a)`: the loop computes the diagonal, as does jax, and torch raises. -/
theorem C107_repeated_fails : shape diagonal = [2] ∧ (∀ n, size diagonal n = none) ∧
    (∀ env i, (loop id diagonal env).get [i] = 10 * i + i) ∧
    (∃ w, run (jax id) diagonal = .ok (.tensor w) ∧ Computes id diagonal w) ∧
    run (torch id) diagonal = .error .runtime := by
  refine ⟨rfl, fun n => ?_, fun env i => rfl, C107_jax id diagonal ⟨⟨⟨rfl, ?_⟩, trivial⟩, trivial, ?_⟩ trivial, rfl⟩
  · by_cases h : n = "a"
    · simp [diagonal, size, h]
    · have h' : ("a" == n) = false := by simpa using fun e => h e.symm
      simp [diagonal, size, h, h']
  · intro n d e hd he
    simp [Occurs] at hd he
    rw [hd.1, he.1]
  · exact ⟨by decide, by decide, fun n hn => ⟨2, by rw [List.mem_singleton.1 hn]; rfl⟩⟩

end Verif.Indexed.Loops
