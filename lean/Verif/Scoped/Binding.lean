import Verif.Scoped.Props

/-!
# Which parameter an argument is bound to

The theorems about bound variables are relative to `Sig.bind`. Here it is characterised by the rules
of `inspect.Signature.bind`.
-/

namespace Verif.Scoped

open Verif.Terms (Op Slot Expr)

/-- Parameter `i` takes the positional argument that has `n` positional arguments before it: it is
the positional parameter with `n` positional parameters before it, or, if there is none, the first
variadic one. -/
def TakesPos (s : Sig) (n i : Nat) : Prop :=
  ((∃ p, s.params[i]? = some p ∧ p.kind = .pos) ∧
      ((s.params.take i).filter (fun p => p.kind = .pos)).length = n) ∨
    ((s.params.filter (fun p => p.kind = .pos)).length ≤ n ∧
      ∃ p, s.params[i]? = some p ∧ p.kind = .varPos)

/-- Parameter `i` takes the keyword argument `name`: it is the keyword-only parameter of this name,
or, if there is none, the variadic keyword parameter. -/
def TakesKw (s : Sig) (name : String) (i : Nat) : Prop :=
  (∃ p, s.params[i]? = some p ∧ p.kind = .kwOnly name) ∨
    ((∀ p ∈ s.params, p.kind ≠ .kwOnly name) ∧ ∃ p, s.params[i]? = some p ∧ p.kind = .varKw)

theorem kindIdx_some {s : Sig} {k : Kind} {i : Nat} (h : s.kindIdx k = some i) :
    ∃ p, s.params[i]? = some p ∧ p.kind = k := by
  unfold Sig.kindIdx Sig.kinds at h
  rw [List.findIdx?_eq_some_iff_getElem] at h
  obtain ⟨hi, h1, _⟩ := h
  simp only [List.length_map] at hi
  refine ⟨s.params[i], by simp [hi], ?_⟩
  simpa using h1

theorem kindIdx_none {s : Sig} {k : Kind} (h : s.kindIdx k = none) :
    ∀ p ∈ s.params, p.kind ≠ k := by
  unfold Sig.kindIdx Sig.kinds at h
  rw [List.findIdx?_eq_none_iff] at h
  intro p hp e
  have := h p.kind (List.mem_map.2 ⟨p, hp, rfl⟩)
  simp [e] at this

theorem filter_range_get (l : List Kind) (P : Kind → Bool) (n i : Nat)
    (h : ((List.range l.length).filter (fun i => (l[i]?).any P))[n]? = some i) :
    (∃ k, l[i]? = some k ∧ P k) ∧ ((l.take i).filter P).length = n := by
  induction l using List.reverseRecOn generalizing n i with
  | nil => simp at h
  | append_singleton l k ih =>
    have e : (List.range (l ++ [k]).length).filter (fun i => ((l ++ [k])[i]?).any P) =
        (List.range l.length).filter (fun i => (l[i]?).any P) ++
          (if P k then [l.length] else []) := by
      rw [List.length_append, List.length_singleton, List.range_succ, List.filter_append]
      congr 1
      · apply List.filter_congr
        intro j hj
        rw [List.getElem?_append_left (by simpa using hj)]
      · by_cases hk : P k <;> simp [hk]
    have hlen : ((List.range l.length).filter (fun i => (l[i]?).any P)).length =
        (l.filter P).length := by
      clear ih h e
      induction l using List.reverseRecOn with
      | nil => rfl
      | append_singleton l k ih =>
        rw [List.length_append, List.length_singleton, List.range_succ, List.filter_append,
          List.filter_append, List.length_append, List.length_append, ← ih]
        congr 1
        · congr 1
          apply List.filter_congr
          intro j hj
          rw [List.getElem?_append_left (by simpa using hj)]
        · by_cases hk : P k <;> simp [hk]
    rw [e] at h
    rw [List.getElem?_append] at h
    split at h
    · obtain ⟨⟨k', h1, h2⟩, h3⟩ := ih n i h
      have hi : i < l.length := (List.getElem?_eq_some_iff.1 h1).1
      refine ⟨⟨k', by rw [List.getElem?_append_left hi]; exact h1, h2⟩, ?_⟩
      rw [List.take_append_of_le_length (by omega)]
      exact h3
    · rename_i hge
      by_cases hk : P k
      · simp only [hk, if_true] at h
        have hn : n - ((List.range l.length).filter (fun i => (l[i]?).any P)).length = 0 := by
          by_contra hne
          rw [List.getElem?_eq_none (by simp; omega)] at h
          cases h
        rw [hn] at h
        simp only [List.getElem?_cons_zero, Option.some.injEq] at h
        subst h
        refine ⟨⟨k, by simp, hk⟩, ?_⟩
        simp only [List.take_left']
        omega
      · simp [hk] at h

theorem filter_map_kind (ps : List Param) :
    ((ps.map (·.kind)).filter (fun k => decide (k = .pos))).length =
      (ps.filter (fun p => decide (p.kind = .pos))).length := by
  rw [List.filter_map, List.length_map]
  rfl

theorem posIdx_eq (s : Sig) : s.posIdx =
    (List.range s.kinds.length).filter (fun i => (s.kinds[i]?).any (fun k => decide (k = .pos))) := by
  unfold Sig.posIdx
  apply List.filter_congr
  intro i _
  cases s.kinds[i]? <;> simp

theorem posIdx_length (s : Sig) :
    s.posIdx.length = (s.params.filter (fun p => p.kind = .pos)).length := by
  rw [← filter_map_kind, posIdx_eq]
  unfold Sig.kinds
  generalize s.params.map (·.kind) = l
  induction l using List.reverseRecOn with
  | nil => rfl
  | append_singleton l k ih =>
    rw [List.length_append, List.length_singleton, List.range_succ, List.filter_append,
      List.filter_append, List.length_append, List.length_append, ← ih]
    congr 1
    · congr 1
      apply List.filter_congr
      intro j hj
      rw [List.getElem?_append_left (by simpa using hj)]
    · by_cases hk : k = .pos <;> simp [hk]

theorem assign_spec {s : Sig} {sl : List Slot} {is : List Nat} {n : Nat}
    (h : s.assign n sl = some is) :
    ∀ (m i : Nat) (a : Slot), is[m]? = some i → sl[m]? = some a →
      match a with
      | .pos => TakesPos s (n + ((sl.take m).filter (fun b => b = .pos)).length) i
      | .kw name => TakesKw s name i := by
  induction sl generalizing n is with
  | nil => intro m i a _ h2; simp at h2
  | cons b sl ih =>
    simp only [Sig.assign, Option.bind_eq_bind, Option.bind_eq_some_iff] at h
    obtain ⟨j, h1, is', h2, h3⟩ := h
    simp only [Option.pure_def, Option.some.injEq] at h3
    subst h3
    intro m i a hi ha
    cases m with
    | zero =>
      simp only [List.getElem?_cons_zero, Option.some.injEq] at hi ha
      subst hi; subst ha
      cases b with
      | pos =>
        simp only [List.take_zero, List.filter_nil, List.length_nil, Nat.add_zero]
        simp only [Sig.paramFor, Option.or_eq_some_iff] at h1
        rcases h1 with h1 | ⟨h1, h1'⟩
        · left
          rw [posIdx_eq] at h1
          obtain ⟨⟨k, h4, h5⟩, h6⟩ := filter_range_get _ _ _ _ h1
          simp only [Sig.kinds, List.getElem?_map, Option.map_eq_some_iff] at h4
          obtain ⟨p, h4, rfl⟩ := h4
          refine ⟨⟨p, h4, by simpa using h5⟩, ?_⟩
          rw [← h6, Sig.kinds, ← List.map_take, filter_map_kind]
        · right
          refine ⟨?_, kindIdx_some h1'⟩
          rw [← posIdx_length]
          exact List.getElem?_eq_none_iff.1 h1
      | kw name =>
        simp only [Sig.paramFor, Option.or_eq_some_iff] at h1
        rcases h1 with h1 | ⟨h1, h1'⟩
        · exact .inl (kindIdx_some h1)
        · exact .inr ⟨kindIdx_none h1, kindIdx_some h1'⟩
    | succ m =>
      simp only [List.getElem?_cons_succ] at hi ha
      have := ih h2 m i a hi ha
      cases a with
      | kw name => exact this
      | pos =>
        simp only at this ⊢
        cases b with
        | pos =>
          simp only [if_true] at this
          have e : n + 1 + (List.filter (fun b => decide (b = Slot.pos)) (List.take m sl)).length =
              n + (List.filter (fun b => decide (b = Slot.pos))
                (List.take (m + 1) (Slot.pos :: sl))).length := by
            simp; omega
          rw [← e]; exact this
        | kw name => simpa using this

/-- C22: every argument is bound to the parameter that `inspect.Signature.bind` selects, and
every positional or keyword-only parameter receives exactly one argument. -/
theorem C22_binding (s : Sig) (sl : List Slot) (is : List Nat) (h : s.bind sl = .ok is) :
    is.length = sl.length ∧
    (∀ (m i : Nat), is[m]? = some i → sl[m]? = some .pos →
      TakesPos s ((sl.take m).filter (fun b => b = .pos)).length i) ∧
    (∀ (m i : Nat) (name : String), is[m]? = some i → sl[m]? = some (.kw name) →
      TakesKw s name i) ∧
    (∀ (i : Nat) (p : Param), s.params[i]? = some p → (p.kind = .pos ∨ ∃ k, p.kind = .kwOnly k) →
      is.count i = 1) := by
  have hl := bind_length h
  unfold Sig.bind at h
  cases ha : s.assign 0 sl with
  | none => rw [ha] at h; cases h
  | some is' =>
    rw [ha] at h
    simp only at h
    split at h
    · rename_i hall
      simp only [Except.ok.injEq] at h
      subst h
      have sp := assign_spec ha
      refine ⟨hl, ?_, ?_, ?_⟩
      · intro m i h1 h2
        simpa using sp m i .pos h1 h2
      · intro m i name h1 h2
        exact sp m i (.kw name) h1 h2
      · intro i p hp hk
        rw [List.all_eq_true] at hall
        have hm : (p.kind, i) ∈ s.kinds.zipIdx := by
          rw [List.mem_zipIdx_iff_getElem?]
          simp [Sig.kinds, hp]
        have := hall _ hm
        rcases hk with hk | ⟨k, hk⟩ <;> simpa [hk] using this
    · cases h

/-- C22, example: `deffn(body, x, k=z)`: the body is the first parameter, the others go to `*args`
and `**kwargs`. -/
example : deffnSig.bind [.pos, .pos, .kw "k"] = .ok [0, 1, 2] := by decide

/-- C22, example: the named keyword-only parameter is preferred to `**kwargs`. -/
example : (Sig.mk [⟨.varKw, false, ⟨[], [], ∅⟩⟩, ⟨.kwOnly "k", false, ⟨[], [], ∅⟩⟩]
    ⟨[], [], ∅⟩).bind [.kw "k", .kw "l"] = .ok [1, 0] := by decide

end Verif.Scoped
