import Verif.Terms.Model

/-!
# evaluate is a left-to-right homomorphism (C14)
-/

namespace Verif.Terms

open Verif.Scoped (Err)

variable {S : Type}

/-! ## Specification: postfix code

An expression is a straight-line program for a stack machine: leaves are pushed in the order in
which they are written, a container collects its parts, a term calls its operation on its parts.
Each leaf and each term of the expression is one instruction. -/

inductive Instr : Type where
  | push (a : Atom)
  | pushOp (o : Op)
  /-- push a set as it is -/
  | pushSet (xs : List Expr)
  /-- raise TypeError -/
  | bad
  /-- collect the last `n` values into a container -/
  | collect (t : Tag) (n : Nat)
  /-- call the operation on the last `n` values -/
  | call (o : Op) (sl : List Slot) (n : Nat)

mutual

def code : Expr → List Instr
  | .atom a => [.push a]
  | .op o => [.pushOp o]
  | .node (.term o sl) xs => codes xs ++ [.call o sl xs.length]
  | .node .set xs => [.pushSet xs]
  | .node (.seq (.other _ false)) _ => [.bad]
  | .node t xs => codes xs ++ [.collect t xs.length]

def codes : List Expr → List Instr
  | [] => []
  | x :: xs => code x ++ codes xs

end

/-- The machine. The stack has the last value first. -/
def exec (c : Ctx S) : List Instr → List Expr → S → Except Err (List Expr) × S
  | [], st, s => (.ok st, s)
  | .push a :: is, st, s => exec c is (.atom a :: st) s
  | .pushOp o :: is, st, s => exec c is (.op (c.opVal o) :: st) s
  | .pushSet xs :: is, st, s => exec c is (.node .set xs :: st) s
  | .bad :: _, _, s => (.error .type, s)
  | .collect t n :: is, st, s =>
    match build t (st.take n).reverse with
    | .error e => (.error e, s)
    | .ok v => exec c is (v :: st.drop n) s
  | .call o sl n :: is, st, s =>
    match c.callOp o sl (st.take n).reverse s with
    | (.error e, s') => (.error e, s')
    | (.ok v, s') => exec c is (v :: st.drop n) s'

/-! ## Proof -/

/-- The other nodes: evaluated generically. -/
def Tag.plain : Tag → Bool
  | .term _ _ => false
  | .set => false
  | .seq (.other _ false) => false
  | _ => true

theorem evaluate_plain (c : Ctx S) (t : Tag) (xs : List Expr) (s : S) (h : Tag.plain t = true) :
    evaluate c (.node t xs) s =
      match evaluates c xs s with
      | (.error e, s') => (.error e, s')
      | (.ok ys, s') => (build t ys, s') := by
  cases t with
  | seq k =>
    cases k with
    | other n b =>
      cases b
      · simp [Tag.plain] at h
      · simp only [evaluate]; rfl
    | _ => simp only [evaluate]; rfl
  | _ => first | (simp [Tag.plain] at h; done) | (simp only [evaluate]; rfl)

theorem code_plain (t : Tag) (xs : List Expr) (h : Tag.plain t = true) :
    code (.node t xs) = codes xs ++ [.collect t xs.length] := by
  cases t with
  | seq k =>
    cases k with
    | other n b =>
      cases b
      · simp [Tag.plain] at h
      · simp only [code]
    | _ => simp only [code]
  | _ => first | (simp [Tag.plain] at h; done) | (simp only [code])

theorem not_plain {t : Tag} (h : Tag.plain t = false) :
    (∃ o sl, t = .term o sl) ∨ t = .set ∨ ∃ n, t = .seq (.other n false) := by
  cases t with
  | seq k => cases k with
    | other n b => cases b <;> simp_all [Tag.plain]
    | _ => simp [Tag.plain] at h
  | _ => simp_all [Tag.plain]

theorem evaluates_length {c : Ctx S} {xs ys : List Expr} {s s' : S}
    (h : evaluates c xs s = (.ok ys, s')) : ys.length = xs.length := by
  induction xs generalizing ys s s' with
  | nil => simp only [evaluates, Prod.mk.injEq, Except.ok.injEq] at h; rw [← h.1]
  | cons x xs ih =>
    rw [evaluates] at h
    cases hx : evaluate c x s with
    | mk r s1 =>
      rw [hx] at h
      cases r with
      | error e => simp at h
      | ok y =>
        simp only at h
        cases hxs : evaluates c xs s1 with
        | mk r s2 =>
          rw [hxs] at h
          cases r with
          | error e => simp at h
          | ok ys' =>
            simp only [Prod.mk.injEq, Except.ok.injEq] at h
            rw [← h.1, List.length_cons, List.length_cons, ih hxs]

theorem exec_code (c : Ctx S) (e : Expr) : ∀ (is : List Instr) (st : List Expr) (s : S),
    exec c (code e ++ is) st s =
      match evaluate c e s with
      | (.error err, s') => (.error err, s')
      | (.ok v, s') => exec c is (v :: st) s' := by
  induction e using Expr.ind with
  | atom a => intro is st s; simp [code, exec, evaluate]
  | op o => intro is st s; simp [code, exec, evaluate]
  | node t xs ih =>
    have hs : ∀ (is : List Instr) (st : List Expr) (s : S),
        exec c (codes xs ++ is) st s =
          match evaluates c xs s with
          | (.error err, s') => (.error err, s')
          | (.ok vs, s') => exec c is (vs.reverse ++ st) s' := by
      clear t
      induction xs with
      | nil => intro is st s; simp [codes, evaluates]
      | cons x xs ih' =>
        intro is st s
        rw [codes, List.append_assoc, ih x List.mem_cons_self, evaluates]
        cases hx : evaluate c x s with
        | mk r s1 =>
          cases r with
          | error e => rfl
          | ok y =>
            simp only
            rw [ih' (fun x hx => ih x (List.mem_cons_of_mem _ hx))]
            cases hxs : evaluates c xs s1 with
            | mk r s2 => cases r <;> simp
    intro is st s
    by_cases hp : Tag.plain t = true
    · rw [code_plain t xs hp, List.append_assoc, hs, evaluate_plain c t xs s hp]
      cases hxs : evaluates c xs s with
      | mk r s1 =>
        cases r with
        | error e => rfl
        | ok ys =>
          simp only [List.cons_append, List.nil_append, exec]
          have hl : (ys.reverse ++ st).take xs.length = ys.reverse := by
            rw [← evaluates_length hxs, ← List.length_reverse]; simp
          have hd : (ys.reverse ++ st).drop xs.length = st := by
            rw [← evaluates_length hxs, ← List.length_reverse]; simp
          rw [hl, hd, List.reverse_reverse]
          cases build t ys <;> rfl
    · rcases not_plain (by simpa using hp) with ⟨o, sl, rfl⟩ | rfl | ⟨n, rfl⟩
      · rw [code, List.append_assoc, hs, evaluate]
        cases hxs : evaluates c xs s with
        | mk r s1 =>
          cases r with
          | error e => rfl
          | ok ys =>
            simp only [List.cons_append, List.nil_append, exec]
            have hl : (ys.reverse ++ st).take xs.length = ys.reverse := by
              rw [← evaluates_length hxs, ← List.length_reverse]; simp
            have hd : (ys.reverse ++ st).drop xs.length = st := by
              rw [← evaluates_length hxs, ← List.length_reverse]; simp
            rw [hl, hd, List.reverse_reverse]
      · simp [code, exec, evaluate]
      · simp [code, exec, evaluate]

/-- C14: evaluation is the execution of the postfix code of the expression: every leaf is evaluated
once, from left to right, each term's operation is called once, on its evaluated arguments, after
them and before anything to its right; the first exception ends the evaluation. -/
theorem C14_evaluate_postfix (c : Ctx S) (e : Expr) (s : S) :
    exec c (code e) [] s =
      match evaluate c e s with
      | (.error err, s') => (.error err, s')
      | (.ok v, s') => (.ok [v], s') := by
  have := exec_code c e [] [] s
  simpa [exec] using this

/-- C14: leaves that are no operations are unchanged; operations are unchanged unless the
interpretation maps them to operations. -/
theorem C14_leaves (c : Ctx S) (s : S) (a : Atom) (o : Op) :
    evaluate c (.atom a) s = (.ok (.atom a), s) ∧
    evaluate c (.op o) s = (.ok (.op (c.opVal o)), s) := by
  simp [evaluate]

/-- Pointwise: each part evaluates to the corresponding part, from left to right. -/
inductive Parts (c : Ctx S) : List Expr → S → List Expr → S → Prop where
  | nil {s} : Parts c [] s [] s
  | cons {x xs y ys s s1 s2} : evaluate c x s = (.ok y, s1) → Parts c xs s1 ys s2 →
      Parts c (x :: xs) s (y :: ys) s2

theorem parts_iff {c : Ctx S} {xs ys : List Expr} {s s' : S} :
    Parts c xs s ys s' ↔ evaluates c xs s = (.ok ys, s') := by
  constructor
  · intro h
    induction h with
    | nil => rfl
    | cons h1 _ ih => rw [evaluates, h1]; simp only; rw [ih]
  · intro h
    induction xs generalizing s ys with
    | nil =>
      simp only [evaluates, Prod.mk.injEq, Except.ok.injEq] at h
      obtain ⟨rfl, rfl⟩ := h
      exact .nil
    | cons x xs ih =>
      rw [evaluates] at h
      cases hx : evaluate c x s with
      | mk r s1 =>
        rw [hx] at h
        cases r with
        | error e => simp at h
        | ok y =>
          simp only at h
          cases hxs : evaluates c xs s1 with
          | mk r s2 =>
            rw [hxs] at h
            cases r with
            | error e => simp at h
            | ok ys' =>
              simp only [Prod.mk.injEq, Except.ok.injEq] at h
              obtain ⟨rfl, rfl⟩ := h
              exact .cons hx (ih hxs)

/-- C14: a list, tuple or other sequence, named tuple or dataclass evaluates to a container of the
same type with the same fields, part by part. -/
theorem C14_container_shape (c : Ctx S) (t : Tag) (xs : List Expr) (e : Expr) (s s' : S)
    (ht : (∃ k, t = .seq k) ∨ (∃ n fs, t = .named n fs) ∨ ∃ n fs, t = .data n fs)
    (h : evaluate c (.node t xs) s = (.ok e, s')) :
    ∃ ys, e = .node t ys ∧ Parts c xs s ys s' := by
  by_cases hp : Tag.plain t = true
  · rw [evaluate_plain c t xs s hp] at h
    cases hxs : evaluates c xs s with
    | mk r s1 =>
      rw [hxs] at h
      cases r with
      | error e => simp at h
      | ok ys =>
        simp only [Prod.mk.injEq] at h
        obtain ⟨h1, rfl⟩ := h
        refine ⟨ys, ?_, parts_iff.2 hxs⟩
        rcases ht with ⟨k, rfl⟩ | ⟨n, fs, rfl⟩ | ⟨n, fs, rfl⟩
        · simp only [build, Except.ok.injEq] at h1; exact h1.symm
        · simp only [build, Except.ok.injEq] at h1; exact h1.symm
        · simp only [build] at h1
          split at h1
          · cases h1
          · simp only [Except.ok.injEq] at h1; exact h1.symm
  · rcases not_plain (by simpa using hp) with ⟨o, sl, rfl⟩ | rfl | ⟨n, rfl⟩
    · simp at ht
    · simp at ht
    · simp [evaluate] at h

/-! ### Mappings -/

/-- Keys of a flat list of keys and values. -/
def keys : List Expr → List Expr
  | k :: _ :: rest => k :: keys rest
  | _ => []

/-- A flat list of complete pairs. -/
inductive Pairs : List Expr → Prop where
  | nil : Pairs []
  | cons {k v rest} : Pairs rest → Pairs (k :: v :: rest)

theorem Pairs.append {xs ys : List Expr} (h : Pairs xs) (h' : Pairs ys) : Pairs (xs ++ ys) := by
  induction h with
  | nil => exact h'
  | cons _ ih => exact .cons ih

theorem keys_append {xs ys : List Expr} (h : Pairs xs) : keys (xs ++ ys) = keys xs ++ keys ys := by
  induction h with
  | nil => rfl
  | cons _ ih => simp [keys, ih]

theorem dictInsert_new {k v : Expr} {d : List Expr} (h : Pairs d) (hk : k ∉ keys d) :
    dictInsert k v d = d ++ [k, v] := by
  induction h with
  | nil => rfl
  | @cons k' v' rest _ ih =>
    simp only [keys, List.mem_cons, not_or] at hk
    rw [dictInsert, if_neg (fun e => hk.1 e.symm), ih hk.2]
    rfl

theorem dictLoop_nodup {acc ys : List Expr} (ha : Pairs acc) (hy : Pairs ys)
    (hn : (keys acc ++ keys ys).Nodup) : dictLoop acc ys = acc ++ ys := by
  induction hy generalizing acc with
  | nil => simp [dictLoop]
  | @cons k v rest h ih =>
    simp only [keys] at hn
    have hk : k ∉ keys acc := by
      intro hk
      rw [List.nodup_append] at hn
      exact hn.2.2 k hk k List.mem_cons_self rfl
    rw [dictLoop, dictInsert_new ha hk, ih (ha.append (.cons .nil))]
    · simp
    · rw [keys_append ha]
      simpa [keys] using hn

theorem pairs_of_length : ∀ {n : Nat} {xs ys : List Expr}, ys.length = n → xs.length = ys.length →
    Pairs xs → Pairs ys
  | _, _, [], _, _, _ => .nil
  | _, _, [_], _, h, .cons _ => by simp at h
  | _, _, _ :: _ :: ys, rfl, h, .cons h' =>
    .cons (pairs_of_length (n := ys.length) rfl (by simpa using h) h')
  | _, _, [_], _, h, .nil => by simp at h
  | _, _, _ :: _ :: _, _, h, .nil => by simp at h

/-- C14: a mapping whose keys evaluate to different keys evaluates to a mapping of the same type,
pair by pair in the same order. -/
theorem C14_mapping_shape_partial (c : Ctx S) (k : MapKind) (xs ys : List Expr) (s s' : S)
    (hx : Pairs xs) (hp : Parts c xs s ys s') (hk : (keys ys).Nodup) :
    evaluate c (.node (.map k) xs) s = (.ok (.node (.map k) ys), s') := by
  have h := parts_iff.1 hp
  rw [evaluate_plain c _ xs s rfl, h]
  simp only [build]
  have hy : Pairs ys := pairs_of_length rfl (evaluates_length h).symm hx
  rw [dictLoop_nodup .nil hy (by simpa [keys] using hk)]
  rfl

/-- The value that a flat list of keys and values ends up with for a key: that of the last pair with
this key. -/
def lastVal (k : Expr) : List Expr → Option Expr
  | k' :: v :: rest => (lastVal k rest).or (if k' = k then some v else none)
  | _ => none

/-- Keys in order of their first occurrence. -/
def firstKeys : List Expr → List Expr
  | [] => []
  | k :: ks => k :: (firstKeys ks).filter (· ≠ k)

theorem dictInsert_pairs {k v : Expr} {d : List Expr} (h : Pairs d) : Pairs (dictInsert k v d) := by
  induction h with
  | nil => exact .cons .nil
  | cons h ih =>
    rw [dictInsert]
    split
    · exact .cons h
    · exact .cons ih

theorem dictInsert_keys {k v : Expr} {d : List Expr} (h : Pairs d) :
    keys (dictInsert k v d) = if k ∈ keys d then keys d else keys d ++ [k] := by
  induction h with
  | nil => simp [dictInsert, keys]
  | @cons k' v' rest h ih =>
    rw [dictInsert]
    by_cases e : k' = k
    · simp [e, keys]
    · rw [if_neg e]
      simp only [keys, ih, List.mem_cons]
      by_cases m : k ∈ keys rest
      · simp [m]
      · simp [m, Ne.symm e]

theorem lastVal_none {k : Expr} {d : List Expr} (h : Pairs d) (hk : k ∉ keys d) :
    lastVal k d = none := by
  induction h with
  | nil => rfl
  | @cons k' v' rest h ih =>
    simp only [keys, List.mem_cons, not_or] at hk
    rw [lastVal, ih hk.2, if_neg (fun e => hk.1 e.symm)]
    rfl

theorem dictInsert_lastVal {k v k' : Expr} {d : List Expr} (h : Pairs d) (hn : (keys d).Nodup) :
    lastVal k' (dictInsert k v d) = if k = k' then some v else lastVal k' d := by
  induction h with
  | nil => simp [dictInsert, lastVal]
  | @cons k1 v1 rest h ih =>
    simp only [keys, List.nodup_cons] at hn
    rw [dictInsert]
    by_cases e : k1 = k
    · subst e
      rw [if_pos rfl]
      simp only [lastVal]
      by_cases e' : k1 = k'
      · subst e'
        rw [lastVal_none h hn.1]
        simp
      · simp [e']
    · rw [if_neg e]
      simp only [lastVal, ih hn.2]
      by_cases e' : k = k'
      · simp [e']
      · simp [e']

theorem dictInsert_nodup {k v : Expr} {d : List Expr} (h : Pairs d) (hn : (keys d).Nodup) :
    (keys (dictInsert k v d)).Nodup := by
  rw [dictInsert_keys h]
  split
  · exact hn
  · rename_i m
    rw [List.nodup_append]
    exact ⟨hn, by simp, fun a ha b hb e => m (by simp at hb; subst hb; exact e ▸ ha)⟩

theorem dictLoop_spec {acc ys : List Expr} (ha : Pairs acc) (hn : (keys acc).Nodup)
    (hy : Pairs ys) :
    Pairs (dictLoop acc ys) ∧ (keys (dictLoop acc ys)).Nodup ∧
    keys (dictLoop acc ys) = keys acc ++ (firstKeys (keys ys)).filter (· ∉ keys acc) ∧
    ∀ k, lastVal k (dictLoop acc ys) = (lastVal k ys).or (lastVal k acc) := by
  induction hy generalizing acc with
  | nil => exact ⟨ha, hn, by simp [dictLoop, keys, firstKeys], fun k => by simp [dictLoop, lastVal]⟩
  | @cons k v rest h ih =>
    obtain ⟨h1, h2, h3, h4⟩ := ih (dictInsert_pairs (k := k) (v := v) ha) (dictInsert_nodup ha hn)
    refine ⟨h1, h2, ?_, ?_⟩
    · simp only [dictLoop]
      rw [h3, dictInsert_keys ha]
      simp only [keys, firstKeys]
      split
      · rename_i m
        rw [List.filter_cons_of_neg (by simpa using m), List.filter_filter]
        congr 1
        apply List.filter_congr
        intro a _
        by_cases e : a = k
        · subst e; simp [m]
        · simp [e]
      · rename_i m
        rw [List.filter_cons_of_pos (by simpa using m), List.filter_filter, List.append_assoc]
        congr 1
        simp only [List.singleton_append, List.cons.injEq, true_and]
        apply List.filter_congr
        intro a _
        by_cases e : a = k
        · subst e; simp
        · simp [e]
    · intro k'
      simp only [dictLoop, lastVal]
      rw [h4, dictInsert_lastVal ha hn]
      by_cases e : k = k'
      · cases lastVal k' rest <;> simp [e]
      · cases lastVal k' rest <;> simp [e]

/-- C14: in general a mapping evaluates to a mapping of the same type, without duplicate keys. Its
keys are the evaluated keys in order of first occurrence, and the value of a key is the value of the
last pair whose key evaluates to it. -/
theorem C14_mapping_merge (c : Ctx S) (k : MapKind) (xs ys : List Expr) (s s' : S)
    (hx : Pairs xs) (hp : Parts c xs s ys s') :
    ∃ zs, evaluate c (.node (.map k) xs) s = (.ok (.node (.map k) zs), s') ∧ Pairs zs ∧
      (keys zs).Nodup ∧ keys zs = firstKeys (keys ys) ∧ ∀ k, lastVal k zs = lastVal k ys := by
  have h := parts_iff.1 hp
  have hy : Pairs ys := pairs_of_length rfl (evaluates_length h).symm hx
  obtain ⟨h1, h2, h3, h4⟩ := dictLoop_spec .nil (by simp [keys]) hy
  refine ⟨dictLoop [] ys, ?_, h1, h2, ?_, ?_⟩
  · rw [evaluate_plain c _ xs s rfl, h]
    simp only [build]
  · rw [h3]; simp [keys]
  · intro k; rw [h4]; simp [lastVal]

/-- C14, example: `{x: 1, y: 2, z: 3}` with `x` and `z` mapped to one operation. -/
example : evaluate (S := Unit) ⟨fun _ _ _ s => (.error .type, s), fun o => ⟨o.id % 2, 0⟩⟩
    (.node (.map .dict) [.op ⟨0, 0⟩, .atom (.val 1), .op ⟨1, 0⟩, .atom (.val 2), .op ⟨2, 0⟩,
      .atom (.val 3)]) () =
    (.ok (.node (.map .dict) [.op ⟨0, 0⟩, .atom (.val 3), .op ⟨1, 0⟩, .atom (.val 2)]), ()) := by
  decide

/-- C14: keys that are neither terms nor operations nor contain any are preserved exactly (here:
atoms). -/
theorem C14_atom_keys_preserved (c : Ctx S) (xs ys : List Expr) (s s' : S)
    (hp : Parts c xs s ys s') (hk : ∀ k ∈ keys xs, ∃ a, k = .atom a) : keys ys = keys xs := by
  have : ∀ (n : Nat) (xs ys : List Expr) (s : S), xs.length ≤ n → Parts c xs s ys s' →
      (∀ k ∈ keys xs, ∃ a, k = .atom a) → keys ys = keys xs := by
    intro n
    induction n with
    | zero =>
      intro xs ys s hl hp hk
      cases hp with
      | nil => rfl
      | cons => simp at hl
    | succ n ih =>
      intro xs ys s hl hp hk
      cases hp with
      | nil => rfl
      | cons h1 hp =>
        cases hp with
        | nil => rfl
        | cons h2 hp =>
          simp only [keys, List.mem_cons, forall_eq_or_imp] at hk ⊢
          obtain ⟨⟨a, rfl⟩, hk2⟩ := hk
          simp only [evaluate, Prod.mk.injEq, Except.ok.injEq] at h1
          rw [← h1.1, ih _ _ _ (by simp at hl; omega) hp hk2]
  exact this xs.length xs ys s (Nat.le_refl _) hp hk

/-- C14 fails for mappings whose keys evaluate to the same key: `{x: 1, y: 2}` with `x` and `y` both
mapped to one operation loses a pair. -/
theorem C14_mapping_merged_keys_fails :
    ∃ (c : Ctx Unit) (xs : List Expr) (e : Expr), (keys xs).Nodup ∧ Pairs xs ∧
      evaluate c (.node (.map .dict) xs) () = (.ok (.node (.map .dict) [e, .atom (.val 2)]), ()) ∧
      xs.length = 4 := by
  refine ⟨⟨fun _ _ _ s => (.error .type, s), fun _ => ⟨5, 0⟩⟩,
    [.op ⟨0, 0⟩, .atom (.val 1), .op ⟨1, 0⟩, .atom (.val 2)], .op ⟨5, 0⟩, ?_, ?_, ?_, rfl⟩
  · decide
  · exact .cons (.cons .nil)
  · decide

/-- C14 fails for sequences that cannot be built from an iterator: `evaluate(range(3))` raises
TypeError, although the sequence has no terms in it. -/
theorem C14_range_fails (c : Ctx S) (n : Nat) (xs : List Expr) (s : S) :
    evaluate c (.node (.seq (.other n false)) xs) s = (.error .type, s) := by
  simp [evaluate]

/-- C14 fails for dataclasses with a field that has `init=False`: evaluation raises, whatever the
values of the fields. -/
theorem C14_dataclass_init_false_fails (c : Ctx S) (cls : Nat) (fs : List (String × Bool))
    (xs : List Expr) (s : S) (h : ∃ f ∈ fs, f.2 = false) :
    ∃ err s', evaluate c (.node (.data cls fs) xs) s = (.error err, s') := by
  rw [evaluate_plain c _ xs s rfl]
  cases evaluates c xs s with
  | mk r s1 =>
    cases r with
    | error e => exact ⟨e, s1, rfl⟩
    | ok ys =>
      have : fs.any (fun f => !f.2) = true := by
        obtain ⟨f, hf, h2⟩ := h
        rw [List.any_eq_true]
        exact ⟨f, hf, by simp [h2]⟩
      exact ⟨.value, s1, by simp [build, this]⟩

/-- C14 fails for sets: a set is returned as it is, the terms and operations in it are not
evaluated. -/
theorem C14_sets_not_evaluated_fails (c : Ctx S) (xs : List Expr) (s : S) :
    evaluate c (.node .set xs) s = (.ok (.node .set xs), s) := by
  simp [evaluate]

/-- A context for examples: records the operations called, and returns a fixed value. -/
def logCtx : Ctx (List Nat) where
  callOp o _ ys s := (.ok (.atom (.val ys.length)), s ++ [o.id])
  opVal o := o

/-- C14, example: `f([g(1), h()], {"k": g(2)})` calls g, h, g, f in this order. -/
example : evaluate logCtx (.node (.term ⟨1, 0⟩ [.pos, .pos])
    [.node (.seq .list) [.node (.term ⟨2, 0⟩ [.pos]) [.atom (.val 1)], .node (.term ⟨3, 0⟩ []) []],
     .node (.map .dict) [.atom (.str []), .node (.term ⟨2, 0⟩ [.pos]) [.atom (.val 2)]]]) [] =
    (.ok (.atom (.val 2)), [2, 3, 2, 1]) := by
  decide

/-- C14, example for the container theorems: a dict with a term as value, inside a named tuple. -/
example : evaluate logCtx (.node (.named 0 ["a"])
    [.node (.map .dict) [.atom (.str [1]), .node (.term ⟨2, 0⟩ [.pos]) [.atom (.val 1)]]]) [] =
    (.ok (.node (.named 0 ["a"]) [.node (.map .dict) [.atom (.str [1]), .atom (.val 1)]]), [2]) := by
  decide

end Verif.Terms
