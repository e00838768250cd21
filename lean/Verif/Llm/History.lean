import Verif.Llm.Conversation

/-!
# C43: the history is an ordered map
-/

namespace Verif.Llm

/-- The ids in order. -/
def History.ids (h : History) : List Nat := h.map (·.id)

theorem any_id_iff (h : History) (i : Nat) : h.any (·.id == i) = true ↔ i ∈ h.map (·.id) := by
  simp

theorem set_new {h : History} {m : Msg} (hm : m.id ∉ h.map (·.id)) : h.set m = h ++ [m] := by
  unfold History.set
  rw [if_neg]
  rw [any_id_iff]; exact hm

theorem set_old {h : History} {m : Msg} (hm : m.id ∈ h.map (·.id)) :
    h.set m = h.map (fun x => if x.id == m.id then m else x) := by
  unfold History.set
  rw [if_pos]
  rw [any_id_iff]; exact hm

theorem ids_set_old {h : History} {m : Msg} (hm : m.id ∈ h.map (·.id)) :
    (h.set m).map (·.id) = h.map (·.id) := by
  rw [set_old hm, List.map_map]
  apply List.map_congr_left
  intro x _
  simp only [Function.comp]
  split
  · rename_i hx; exact (by simpa using hx : x.id = m.id).symm
  · rfl

theorem filter_ne_of_notMem {h : History} {i : Nat} (hi : i ∉ h.map (·.id)) :
    h.filter (·.id != i) = h := by
  apply List.filter_eq_self.2
  intro x hx
  simp only [bne_iff_ne, ne_eq]
  intro e
  exact hi (List.mem_map.2 ⟨x, hx, e⟩)

theorem filter_eq_of_notMem {h : History} {i : Nat} (hi : i ∉ h.map (·.id)) :
    h.filter (·.id == i) = [] := by
  apply List.filter_eq_nil_iff.2
  intro x hx
  simp only [beq_iff_eq]
  intro e
  exact hi (List.mem_map.2 ⟨x, hx, e⟩)

theorem append_new {h : History} {m : Msg} (hm : m.id ∉ h.map (·.id)) : append h m = h ++ [m] := by
  simp only [append, if_true]; exact set_new hm

theorem append_first_new {h : History} {m : Msg} (hm : m.id ∉ h.map (·.id)) :
    append h m false = m :: h := by
  simp only [append, Bool.false_eq_true, if_false]
  rw [set_new hm]
  simp only [History.moveFirst, List.filter_append]
  rw [filter_ne_of_notMem hm, filter_eq_of_notMem hm]
  simp

/-- A message with a new id goes last, or first for the system prompt; the other messages are kept as they are. -/
theorem C43_new (h : History) (m : Msg) (hm : m.id ∉ h.ids) :
    append h m = h ++ [m] ∧ append h m false = m :: h :=
  ⟨append_new hm, append_first_new hm⟩

theorem filter_map_id (h : History) (m : Msg) :
    (h.map (fun x => if x.id == m.id then m else x)).filter (·.id != m.id) = h.filter (·.id != m.id) := by
  induction h with
  | nil => rfl
  | cons x h ih =>
    rw [List.map_cons]
    by_cases hx : x.id = m.id
    · rw [if_pos (by simpa using hx), List.filter_cons_of_neg (by simp), List.filter_cons_of_neg (by simpa using hx)]
      exact ih
    · rw [if_neg (by simpa using hx), List.filter_cons_of_pos (by simpa using hx),
        List.filter_cons_of_pos (by simpa using hx), ih]

theorem moveFirst_others (h : History) (i : Nat) :
    (h.moveFirst i).filter (·.id != i) = h.filter (·.id != i) := by
  unfold History.moveFirst
  rw [List.filter_append, List.filter_filter, List.filter_filter]
  rw [List.filter_eq_nil_iff.2]
  · simp
  · intro x _; simp

/-- The other messages keep their order, whatever the id of the message. -/
theorem C43_others (h : History) (m : Msg) (last : Bool) :
    (append h m last).filter (·.id != m.id) = h.filter (·.id != m.id) := by
  have hset : (h.set m).filter (·.id != m.id) = h.filter (·.id != m.id) := by
    by_cases hm : m.id ∈ h.map (·.id)
    · rw [set_old hm]; exact filter_map_id h m
    · rw [set_new hm, List.filter_append]; simp
  cases last
  · simp only [append, Bool.false_eq_true, if_false]
    rw [moveFirst_others]; exact hset
  · simp only [append, if_true]; exact hset

theorem nodup_moveFirst {h : History} (i : Nat) (hn : (h.map (·.id)).Nodup) :
    ((h.moveFirst i).map (·.id)).Nodup := by
  have hp : (h.moveFirst i).Perm h := by
    unfold History.moveFirst
    have := List.filter_append_perm (fun x : Msg => x.id == i) h
    have e : h.filter (·.id != i) = h.filter (fun x => !(x.id == i)) := rfl
    rw [e]; exact this
  exact (hp.map _).nodup_iff.2 hn

theorem nodup_set {h : History} (m : Msg) (hn : (h.map (·.id)).Nodup) : ((h.set m).map (·.id)).Nodup := by
  by_cases hm : m.id ∈ h.map (·.id)
  · rw [ids_set_old hm]; exact hn
  · rw [set_new hm, List.map_append, List.map_cons, List.map_nil]
    rw [List.nodup_append]
    refine ⟨hn, by simp, ?_⟩
    intro a ha b hb
    simp only [List.mem_singleton] at hb
    subst hb
    intro e; subst e; exact hm ha

/-- There stays one entry per id. -/
theorem C43_nodup (h : History) (m : Msg) (last : Bool) (hn : h.ids.Nodup) : (append h m last).ids.Nodup := by
  cases last
  · simp only [append, Bool.false_eq_true, if_false]; exact nodup_moveFirst _ (nodup_set m hn)
  · simp only [append, if_true]; exact nodup_set m hn

theorem mem_set (h : History) (m : Msg) : m ∈ h.set m := by
  by_cases hm : m.id ∈ h.map (·.id)
  · rw [set_old hm]
    obtain ⟨x, hx, e⟩ := List.mem_map.1 hm
    exact List.mem_map.2 ⟨x, hx, by simp [e]⟩
  · rw [set_new hm]; simp

theorem set_unique (h : History) (m x : Msg) (hx : x ∈ h.set m) (e : x.id = m.id) : x = m := by
  by_cases hm : m.id ∈ h.map (·.id)
  · rw [set_old hm] at hx
    obtain ⟨y, _, hy⟩ := List.mem_map.1 hx
    by_cases hc : y.id = m.id
    · rw [if_pos (by simpa using hc)] at hy; exact hy.symm
    · rw [if_neg (by simpa using hc)] at hy; subst hy; exact absurd e hc
  · rw [set_new hm] at hx
    rcases List.mem_append.1 hx with hx | hx
    · exact absurd (List.mem_map.2 ⟨x, hx, e⟩) hm
    · simpa using hx

theorem mem_moveFirst (h : History) (i : Nat) (x : Msg) : x ∈ h.moveFirst i ↔ x ∈ h := by
  unfold History.moveFirst
  simp only [List.mem_append, List.mem_filter, beq_iff_eq, bne_iff_ne, ne_eq]
  by_cases hx : x.id = i <;> simp [hx]

/-- The entry for the id is the message, as the last assignment. -/
theorem C43_lookup (h : History) (m : Msg) (last : Bool) :
    ∀ x, x ∈ append h m last → x.id = m.id → x = m := by
  intro x hx e
  cases last
  · simp only [append, Bool.false_eq_true, if_false] at hx
    exact set_unique h m x ((mem_moveFirst _ _ _).1 hx) e
  · simp only [append, if_true] at hx; exact set_unique h m x hx e

/-- The message is in the history; in front when it is the system prompt; in its old place when its id was known. -/
theorem C43_place (h : History) (m : Msg) :
    m ∈ append h m ∧ (append h m false).head? = some m ∧
      (m.id ∈ h.ids → (append h m).ids = h.ids) := by
  refine ⟨?_, ?_, ?_⟩
  · simp only [append, if_true]; exact mem_set h m
  · simp only [append, Bool.false_eq_true, if_false]
    unfold History.moveFirst
    have hmem : m ∈ (h.set m).filter (·.id == m.id) := List.mem_filter.2 ⟨mem_set h m, by simp⟩
    cases hf : (h.set m).filter (·.id == m.id) with
    | nil => rw [hf] at hmem; simp at hmem
    | cons x r =>
      have hx : x ∈ (h.set m).filter (·.id == m.id) := by rw [hf]; simp
      have h2 := List.mem_filter.1 hx
      have : x = m := set_unique h m x h2.1 (by simpa using h2.2)
      subst this
      rfl
  · intro hm
    simp only [append, if_true]; exact ids_set_old hm

/-- Appending the same message again changes nothing. -/
theorem C43_again (h : History) (m : Msg) : append (append h m) m = append h m := by
  simp only [append, if_true]
  have hin : m.id ∈ (h.set m).map (·.id) := List.mem_map.2 ⟨m, mem_set h m, rfl⟩
  rw [set_old hin]
  conv => rhs; rw [← List.map_id (h.set m)]
  apply List.map_congr_left
  intro x hx
  simp only [id_eq]
  split
  · rename_i e; exact (set_unique h m x hx (by simpa using e)).symm
  · rfl

section Examples

private def mk (i : Nat) (b : Nat) : Msg := ⟨i, .user, [], none, b, none⟩

example : append [mk 1 0, mk 2 0] (mk 3 0) = [mk 1 0, mk 2 0, mk 3 0] := by decide
example : append [mk 1 0, mk 2 0] (mk 3 0) false = [mk 3 0, mk 1 0, mk 2 0] := by decide
example : append [mk 1 0, mk 2 0] (mk 1 7) = [mk 1 7, mk 2 0] := by decide
example : append [mk 1 0, mk 2 0] (mk 2 7) false = [mk 2 7, mk 1 0] := by decide

end Examples

end Verif.Llm
