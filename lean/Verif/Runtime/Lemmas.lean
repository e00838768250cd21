import Verif.Runtime.Spec

/-! # Lemmas about the runtime model -/

namespace Verif.Runtime

variable {W : Type}

/-! ## Dicts -/

theorem get_set (i : Intp W) (o o' : Op) (c : Clo W) :
    (i.set o c).get o' = if o = o' then some c else i.get o' := by
  induction i with
  | nil => simp [Intp.set, Intp.get]
  | cons e i ih =>
    obtain ⟨k, d⟩ := e
    by_cases h : k = o
    · subst h
      simp only [Intp.set, if_true, Intp.get]
      by_cases h' : k = o' <;> simp [h']
    · simp only [Intp.set, if_neg h, Intp.get, ih]
      by_cases h' : k = o'
      · subst h'; simp [Ne.symm h]
      · simp [h']

theorem keys_set (i : Intp W) (o : Op) (c : Clo W) :
    (i.set o c).map Prod.fst =
      if o ∈ i.map Prod.fst then i.map Prod.fst else i.map Prod.fst ++ [o] := by
  induction i with
  | nil => simp [Intp.set]
  | cons e i ih =>
    obtain ⟨k, d⟩ := e
    by_cases h : k = o
    · simp [Intp.set, h]
    · simp only [Intp.set, if_neg h, List.map_cons, ih, List.mem_cons]
      have : ¬ o = k := fun e => h e.symm
      by_cases h2 : o ∈ i.map Prod.fst <;> simp [h2, this]

theorem nodup_set (i : Intp W) (o : Op) (c : Clo W) (h : (i.map Prod.fst).Nodup) :
    ((i.set o c).map Prod.fst).Nodup := by
  rw [keys_set]
  split
  · exact h
  · rename_i hm
    rw [List.nodup_append]
    refine ⟨h, by simp, ?_⟩
    intro a ha b hb e
    simp at hb; subst hb; subst e; exact hm ha

theorem get_none_iff (i : Intp W) (o : Op) : i.get o = none ↔ o ∉ i.map Prod.fst := by
  induction i with
  | nil => simp [Intp.get]
  | cons e i ih =>
    obtain ⟨k, d⟩ := e
    by_cases h : k = o
    · simp [Intp.get, h]
    · have : ¬ o = k := fun e => h e.symm
      simp [Intp.get, h, ih, this]

/-- The value that `coproduct` stores for a key of the right side. -/
def combine (old : Option (Clo W)) (o : Op) (new : Clo W) : Clo W :=
  if o = .fwd ∨ o = .getArgs then new
  else match old with
    | some i1 => .prompt (restoreArgs (saveArgs i1)) (saveArgs new)
    | none => saveArgs new

theorem coproductStep_eq (i res : Intp W) (e : Op × Clo W) :
    coproductStep i res e = res.set e.1 (combine (i.get e.1) e.1 e.2) := by
  unfold coproductStep combine
  by_cases h : e.1 = .fwd ∨ e.1 = .getArgs
  · simp [h]
  · simp only [h, if_false]
    cases i.get e.1 <;> rfl

theorem get_foldl (i j res : Intp W) (o : Op) (hj : (j.map Prod.fst).Nodup) :
    (j.foldl (coproductStep i) res).get o =
      match j.get o with
      | none => res.get o
      | some c => some (combine (i.get o) o c) := by
  induction j generalizing res with
  | nil => simp [Intp.get]
  | cons e j ih =>
    obtain ⟨k, d⟩ := e
    simp only [List.map_cons, List.nodup_cons] at hj
    rw [List.foldl_cons, ih _ hj.2, coproductStep_eq]
    by_cases h : k = o
    · subst h
      have : Intp.get j k = none := (get_none_iff j k).2 hj.1
      simp [Intp.get, this, get_set]
    · simp only [Intp.get, if_neg h, get_set]

theorem get_coproduct (i j : Intp W) (o : Op) (hj : (j.map Prod.fst).Nodup) :
    (coproduct i j).get o =
      match j.get o with
      | none => i.get o
      | some c => some (combine (i.get o) o c) := get_foldl i j i o hj

theorem keys_foldl (i j res : Intp W) :
    (j.foldl (coproductStep i) res).map Prod.fst =
      j.foldl (fun ks e => if e.1 ∈ ks then ks else ks ++ [e.1]) (res.map Prod.fst) := by
  induction j generalizing res with
  | nil => rfl
  | cons e j ih => rw [List.foldl_cons, ih, List.foldl_cons, coproductStep_eq, keys_set]

theorem nodup_foldl (i j res : Intp W) (h : (res.map Prod.fst).Nodup) :
    ((j.foldl (coproductStep i) res).map Prod.fst).Nodup := by
  induction j generalizing res with
  | nil => exact h
  | cons e j ih =>
    rw [List.foldl_cons, coproductStep_eq]
    exact ih _ (nodup_set _ _ _ h)

theorem nodup_compile (i : IExpr W) : (i.compile.map Prod.fst).Nodup := by
  induction i using IExpr.rec (motive_1 := fun _ => True) (motive_3 := fun _ => True) with
  | nil => simp [IExpr.compile]
  | bind i o f ih _ => exact nodup_set _ _ _ ih
  | coprod a b iha ihb => exact nodup_foldl _ _ _ iha
  | _ => trivial

theorem get_coproduct_fwd (i : Intp W) (d : Clo W) (o : Op) :
    (coproduct i [(.fwd, d)]).get o = if o = .fwd then some d else i.get o := by
  rw [get_coproduct _ _ _ (by simp)]
  by_cases h : o = .fwd
  · subst h; simp [Intp.get, combine]
  · have : ¬ Op.fwd = o := fun e => h e.symm
    simp [Intp.get, h, this]

theorem get_coproduct_getArgs (i : Intp W) (d : Clo W) (o : Op) :
    (coproduct i [(.getArgs, d)]).get o = if o = .getArgs then some d else i.get o := by
  rw [get_coproduct _ _ _ (by simp)]
  by_cases h : o = .getArgs
  · subst h; simp [Intp.get, combine]
  · have : ¬ Op.getArgs = o := fun e => h e.symm
    simp [Intp.get, h, this]

theorem compile_special (i : IExpr W) :
    i.compile.get .fwd = none ∧ i.compile.get .getArgs = none := by
  induction i using IExpr.rec (motive_1 := fun _ => True) (motive_3 := fun _ => True) with
  | nil => simp [IExpr.compile, Intp.get]
  | bind i o f ih _ => simp [IExpr.compile, get_set, ih]
  | coprod a b iha ihb =>
    simp [IExpr.compile, get_coproduct _ _ _ (nodup_compile b), iha, ihb]
  | _ => trivial

/-! ## Fuel and restoration -/

theorem withInterp_some {f : St W → Option (Out × St W)} {j : Intp W} {s : St W} {r : Out}
    {s' : St W} (h : withInterp f j s = some (r, s')) :
    ∃ s1, f ⟨j, s.world⟩ = some (r, s1) ∧ s' = ⟨s.intp, s1.world⟩ := by
  unfold withInterp at h
  split at h
  · cases h
  · rename_i r1 s1 he
    cases h
    exact ⟨s1, he, rfl⟩

theorem withInterp_mono {f g : St W → Option (Out × St W)} {j : Intp W} {s : St W}
    {x : Out × St W} (hfg : ∀ s x, f s = some x → g s = some x)
    (h : withInterp f j s = some x) : withInterp g j s = some x := by
  unfold withInterp at h ⊢
  split at h
  · cases h
  · rename_i r s' he
    rw [hfg _ _ he]; exact h

theorem run_succ (Δ : Defaults W) : ∀ (n : Nat) (t : Task W) (s : St W) (x : Out × St W),
    run Δ n t s = some x → run Δ (n + 1) t s = some x := by
  intro n
  induction n with
  | zero => intro t s x h; simp [run] at h
  | succ n ih =>
    intro t s x h
    have wi : ∀ (t1 : Task W) (j : Intp W) (s1 : St W) (z : Out × St W),
        withInterp (run Δ n t1) j s1 = some z → withInterp (run Δ (n+1) t1) j s1 = some z :=
      fun t1 j s1 z hz => withInterp_mono (fun s x => ih t1 s x) hz
    cases t with
    | prog p =>
      cases p with
      | ret v => simpa [run] using h
      | raise e => simpa [run] using h
      | eff f k => rw [run] at h ⊢; exact ih _ _ _ h
      | call o args k =>
        rw [run] at h ⊢
        split at h
        · cases h
        · rename_i r s' he
          rw [ih _ _ _ he]; exact ih _ _ _ h
      | fwd args k =>
        rw [run] at h ⊢
        split at h
        · cases h
        · rename_i r s' he
          rw [ih _ _ _ he]; exact ih _ _ _ h
      | handle i p k =>
        rw [run] at h ⊢
        split at h
        · cases h
        · rename_i r s' he
          rw [wi _ _ _ _ he]; exact ih _ _ _ h
      | interp i p k =>
        rw [run] at h ⊢
        split at h
        · cases h
        · rename_i r s' he
          rw [wi _ _ _ _ he]; exact ih _ _ _ h
    | clo c args =>
      cases c with
      | fn f =>
        rw [run] at h ⊢
        split at h
        · rename_i hc; rw [if_pos hc]; exact h
        · rename_i hc; rw [if_neg hc]; exact ih _ _ _ h
      | dflt o => rw [run] at h ⊢; exact ih _ _ _ h
      | const a => rw [run] at h ⊢; exact h
      | save c => rw [run] at h ⊢; exact wi _ _ _ _ h
      | restore c =>
        rw [run] at h ⊢
        split at h
        · rename_i hc; rw [if_pos hc]
          cases hr : run Δ n (.op .getArgs []) s with
          | none => rw [hr] at h; cases h
          | some y =>
            rw [hr] at h
            rw [ih _ _ _ hr]
            obtain ⟨r, s'⟩ := y
            cases r with
            | error e => exact h
            | ok v =>
              cases v with
              | tup a => exact ih _ _ _ h
              | int _ => exact h
              | op _ => exact h
              | term _ _ => exact h
        · rename_i hc; rw [if_neg hc]; exact ih _ _ _ h
      | prompt cont body => rw [run] at h ⊢; exact wi _ _ _ _ h
      | withFwd d c => rw [run] at h ⊢; exact wi _ _ _ _ h
    | op o args =>
      rw [run] at h ⊢
      split at h
      · exact wi _ _ _ _ h
      · split at h
        · rename_i hc; rw [if_pos hc]; exact ih _ _ _ h
        · rename_i hc; rw [if_neg hc]; exact ih _ _ _ h
    | dfltRule o args =>
      rw [run] at h ⊢
      cases hr : run Δ n (.dfltRaw o args) s with
      | none => rw [hr] at h; cases h
      | some y => rw [hr] at h; rw [ih _ _ _ hr]; exact h
    | dfltRaw o args =>
      cases o with
      | fwd => simpa [run] using h
      | getArgs => rw [run] at h ⊢; exact h
      | usr u =>
        cases u with
        | apply c =>
          cases c with
          | base =>
            rw [run] at h ⊢
            split at h
            · exact ih _ _ _ h
            · exact h
          | sub m p => rw [run] at h ⊢; exact ih _ _ _ h
        | user c m => rw [run] at h ⊢; exact ih _ _ _ h

theorem run_mono {Δ : Defaults W} {n m : Nat} {t : Task W} {s : St W} {x : Out × St W}
    (hnm : n ≤ m) (h : run Δ n t s = some x) : run Δ m t s = some x := by
  induction hnm with
  | refl => exact h
  | step _ ih => exact run_succ _ _ _ _ _ ih

/-- The outcome does not depend on the fuel. -/
theorem Runs.unique {Δ : Defaults W} {t : Task W} {s : St W} {r₁ r₂ : Out} {s₁ s₂ : St W}
    (h₁ : Runs Δ t s r₁ s₁) (h₂ : Runs Δ t s r₂ s₂) : r₁ = r₂ ∧ s₁ = s₂ := by
  obtain ⟨n, hn⟩ := h₁
  obtain ⟨m, hm⟩ := h₂
  have h1 := run_mono (Nat.le_max_left n m) hn
  have h2 := run_mono (Nat.le_max_right n m) hm
  rw [h1] at h2
  cases h2
  exact ⟨rfl, rfl⟩

/-- Every task leaves the interpretation as it found it. -/
theorem run_restores (Δ : Defaults W) : ∀ (n : Nat) (t : Task W) (s : St W) (r : Out) (s' : St W),
    run Δ n t s = some (r, s') → s'.intp = s.intp := by
  intro n
  induction n with
  | zero => intro t s r s' h; simp [run] at h
  | succ n ih =>
    intro t s r s' h
    have wi : ∀ {f : St W → Option (Out × St W)} {j : Intp W} {s1 : St W} {r1 s2},
        withInterp f j s1 = some (r1, s2) → s2.intp = s1.intp := by
      intro f j s1 r1 s2 hz
      obtain ⟨s3, _, e⟩ := withInterp_some hz
      rw [e]
    cases t with
    | prog p =>
      cases p with
      | ret v => simp [run] at h; rw [h.2]
      | raise e => simp [run] at h; rw [h.2]
      | eff f k => rw [run] at h; have := ih _ _ _ _ h; exact this
      | call o args k =>
        rw [run] at h
        split at h
        · cases h
        · rename_i r1 s1 he; rw [ih _ _ _ _ h, ih _ _ _ _ he]
      | fwd args k =>
        rw [run] at h
        split at h
        · cases h
        · rename_i r1 s1 he; rw [ih _ _ _ _ h, ih _ _ _ _ he]
      | handle i p k =>
        rw [run] at h
        split at h
        · cases h
        · rename_i r1 s1 he; rw [ih _ _ _ _ h, wi he]
      | interp i p k =>
        rw [run] at h
        split at h
        · cases h
        · rename_i r1 s1 he; rw [ih _ _ _ _ h, wi he]
    | clo c args =>
      cases c with
      | fn f =>
        rw [run] at h
        split at h
        · cases h; rfl
        · exact ih _ _ _ _ h
      | dflt o => rw [run] at h; exact ih _ _ _ _ h
      | const a => rw [run] at h; split at h <;> (cases h; rfl)
      | save c => rw [run] at h; exact wi h
      | restore c =>
        rw [run] at h
        split at h
        · split at h
          · cases h
          · rename_i he; rw [ih _ _ _ _ h, ih _ _ _ _ he]
          · rename_i he; cases h; exact ih _ _ _ _ he
          · rename_i he; cases h; exact ih _ _ _ _ he
        · exact ih _ _ _ _ h
      | prompt cont body => rw [run] at h; exact wi h
      | withFwd d c => rw [run] at h; exact wi h
    | op o args =>
      rw [run] at h
      split at h
      · exact wi h
      · split at h
        · exact ih _ _ _ _ h
        · exact ih _ _ _ _ h
    | dfltRule o args =>
      rw [run] at h
      split at h
      · cases h
      · rename_i he; cases h; exact ih _ _ _ _ he
      · rename_i he; cases h; exact ih _ _ _ _ he
    | dfltRaw o args =>
      cases o with
      | fwd => simp [run] at h; rw [h.2]
      | getArgs => rw [run] at h; split at h <;> (cases h; rfl)
      | usr u =>
        cases u with
        | apply c =>
          cases c with
          | base =>
            rw [run] at h
            split at h
            · exact ih _ _ _ _ h
            · cases h; rfl
          | sub m p => rw [run] at h; exact ih _ _ _ _ h
        | user c m => rw [run] at h; exact ih _ _ _ _ h

end Verif.Runtime
