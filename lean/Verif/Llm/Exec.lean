/-!
# C50: executing code under the eval providers

Model of `UnsafeEvalProvider.exec` and `RestrictedEvalProvider.exec` (`handlers/llm/evaluation.py` 448-458, 523-565).

* Names are numbers; the first ones are those the providers use themselves. Dicts are partial maps with an identity. A
  function remembers the dict it was defined in (`fn d n`).
* Code is a tree of actions on dicts, that it may compute in any way from what it has read: its own globals and those of
  functions it calls. `del` of a name that is not there raises.
* Values are compared with `is` in the program; two functions from one definition are not told apart here.
-/

namespace Verif.Exec

/-- A name: `builtins`, …, or any other. -/
abbrev VName := Nat

/-- `"__builtins__"`. -/
def nBuiltins : VName := 0

/-- `"__metaclass__"` and `"__name__"`, which `env` may override. -/
def defaults : List VName := [1, 2]

/-- `_getiter_`, `_iter_unpack_sequence_`, `getattr`, `setattr`, `_write_`, `_print_`, which override `env`. -/
def guards : List VName := [3, 4, 5, 6, 7, 8]

/-- The identity of a dict. -/
abbrev DictId := Nat

/-- A value: an object, or a function with its globals. -/
inductive Val where
  | obj (n : Nat)
  | fn (d : DictId) (n : Nat)
deriving DecidableEq

/-- A dict. -/
abbrev Dict := VName → Option Val

/-- `d[k] = v` or `del d[k]`. -/
def Dict.put (d : Dict) (k : VName) (v : Option Val) : Dict := fun k' => if k' = k then v else d k'

/-- Code. `exit`: `SystemExit`. -/
inductive Code where
  | done
  | raise
  | exit
  | self (k : DictId → Code)
  | get (d : DictId) (n : VName) (k : Option Val → Code)
  | set (d : DictId) (n : VName) (v : Val) (k : Code)
  | del (d : DictId) (n : VName) (k : Code)
  | out (t : List Nat) (k : Code)
  | err (t : List Nat) (k : Code)

/-- The state: all dicts, standard output and standard error. `log` is not part of the program: all assignments and
deletions of running code, oldest first. -/
structure St where
  heap : DictId → Dict
  next : DictId
  out : List Nat
  err : List Nat
  log : List (DictId × VName × Option Val)

/-- Changing one dict. -/
def St.update (s : St) (d : DictId) (m : Dict) : St := { s with heap := fun d' => if d' = d then m else s.heap d' }

inductive Outcome where
  | ok
  | error
  | exit
deriving DecidableEq

/-- `builtins.exec(code, own, own)`. -/
def run (own : DictId) : Code → St → St × Outcome
  | .done, s => (s, .ok)
  | .raise, s => (s, .error)
  | .exit, s => (s, .exit)
  | .self k, s => run own (k own) s
  | .get d n k, s => run own (k (s.heap d n)) s
  | .set d n v k, s =>
    run own k { s.update d ((s.heap d).put n (some v)) with log := s.log ++ [(d, n, some v)] }
  | .del d n k, s =>
    match s.heap d n with
    | none => (s, .error)
    | some _ => run own k { s.update d ((s.heap d).put n none) with log := s.log ++ [(d, n, none)] }
  | .out t k, s => run own k { s with out := s.out ++ t }
  | .err t k, s => run own k { s with err := s.err ++ t }

/-- `UnsafeEvalProvider.exec(bytecode, env)` (448-458). -/
def unsafeExec (builtins : Val) (env : DictId) (c : Code) (s : St) : St × Outcome :=
  run env c (if (s.heap env nBuiltins).isSome then s else s.update env ((s.heap env).put nBuiltins (some builtins)))

/-- The globals for restricted code (529-551): `base` are `safe_globals` with the defaults, `guard` the guards. -/
def rglobals (base guard : Dict) (env : Dict) : Dict := fun k =>
  if k ∈ guards then guard k
  else if k = nBuiltins then base k
  else
    match env k with
    | some v => some v
    | none => base k

/-- `env.update(…)` with what has changed (558-565). -/
def copyBack (before after env : Dict) : Dict := fun k =>
  if k = nBuiltins then env k
  else
    match after k with
    | none => env k
    | some v => if before k = some v then env k else some v

/-- `RestrictedEvalProvider.exec(bytecode, env)` (523-565). -/
def restrictedExec (base guard : Dict) (env : DictId) (c : Code) (s : St) : St × Outcome :=
  let g := s.next
  let before := rglobals base guard (s.heap env)
  match run g c { s.update g before with next := s.next + 1 } with
  | (s, .ok) => (s.update env (copyBack before (s.heap g) (s.heap env)), .ok)
  | (s, o) => (s, o)

/-! ## What is stated -/

/-- The last assignment (`some v`) or deletion (`none`) of a name of a dict in a log, if any. -/
def lastWrite : List (DictId × VName × Option Val) → DictId → VName → Option (Option Val)
  | [], _, _ => none
  | (d', k', v) :: l, d, k =>
    match lastWrite l d k with
    | some w => some w
    | none => if d' = d ∧ k' = k then some v else none

/-- What the code run from `s` to `s'` wrote. -/
def written (s s' : St) : List (DictId × VName × Option Val) := s'.log.drop s.log.length

/-- The base has only the defaults and the builtins, the guards only the guards. -/
structure Reserved (base guard : Dict) : Prop where
  base : ∀ k, k ≠ nBuiltins → k ∉ defaults → base k = none
  guard : ∀ k, k ∉ guards → guard k = none

/-! ## Proofs -/

theorem lastWrite_append (l m : List (DictId × VName × Option Val)) (d : DictId) (k : VName) :
    lastWrite (l ++ m) d k = match lastWrite m d k with | some w => some w | none => lastWrite l d k := by
  induction l with
  | nil => simp only [List.nil_append]; cases h : lastWrite m d k <;> rfl
  | cons x l ih =>
    obtain ⟨d', k', v⟩ := x
    rw [List.cons_append, lastWrite, ih]
    cases h : lastWrite m d k with
    | some w => rfl
    | none => rw [lastWrite]

/-- After a run every dict is as given by the last writes; output is only added. -/
theorem run_spec (own : DictId) (c : Code) (s : St) : ∀ s' o, run own c s = (s', o) →
    ∃ l x y, s'.log = s.log ++ l ∧ s'.out = s.out ++ x ∧ s'.err = s.err ++ y ∧ s'.next = s.next ∧
      ∀ d k, s'.heap d k = match lastWrite l d k with | some w => w | none => s.heap d k := by
  induction c generalizing s with
  | done => intro s' o h; rw [run] at h; cases h; exact ⟨[], [], [], by simp, by simp, by simp, rfl, fun _ _ => rfl⟩
  | raise => intro s' o h; rw [run] at h; cases h; exact ⟨[], [], [], by simp, by simp, by simp, rfl, fun _ _ => rfl⟩
  | exit => intro s' o h; rw [run] at h; cases h; exact ⟨[], [], [], by simp, by simp, by simp, rfl, fun _ _ => rfl⟩
  | self k ih => intro s' o h; rw [run] at h; exact ih own s s' o h
  | get d n k ih => intro s' o h; rw [run] at h; exact ih _ s s' o h
  | set d n v k ih =>
    intro s' o h
    rw [run] at h
    obtain ⟨l, x, y, h1, h2, h3, h4, h5⟩ := ih _ s' o h
    refine ⟨(d, n, some v) :: l, x, y, by rw [h1]; simp, h2, h3, h4, ?_⟩
    intro d' k'
    rw [h5 d' k', lastWrite]
    cases lastWrite l d' k' with
    | some w => rfl
    | none =>
      simp only [St.update]
      by_cases hd : d' = d
      · subst hd
        by_cases hk : k' = n
        · simp [hk, Dict.put]
        · simp [hk, Ne.symm hk, Dict.put]
      · simp [hd, Ne.symm hd]
  | del d n k ih =>
    intro s' o h
    rw [run] at h
    cases hm : s.heap d n with
    | none =>
      simp only [hm] at h; cases h
      exact ⟨[], [], [], by simp, by simp, by simp, rfl, fun _ _ => rfl⟩
    | some v =>
      simp only [hm] at h
      obtain ⟨l, x, y, h1, h2, h3, h4, h5⟩ := ih _ s' o h
      refine ⟨(d, n, none) :: l, x, y, by rw [h1]; simp, h2, h3, h4, ?_⟩
      intro d' k'
      rw [h5 d' k', lastWrite]
      cases lastWrite l d' k' with
      | some w => rfl
      | none =>
        simp only [St.update]
        by_cases hd : d' = d
        · subst hd
          by_cases hk : k' = n
          · simp [hk, Dict.put]
          · simp [hk, Ne.symm hk, Dict.put]
        · simp [hd, Ne.symm hd]
  | out t k ih =>
    intro s' o h
    rw [run] at h
    obtain ⟨l, x, y, h1, h2, h3, h4, h5⟩ := ih _ s' o h
    exact ⟨l, t ++ x, y, h1, by rw [h2]; simp, h3, h4, h5⟩
  | err t k ih =>
    intro s' o h
    rw [run] at h
    obtain ⟨l, x, y, h1, h2, h3, h4, h5⟩ := ih _ s' o h
    exact ⟨l, x, t ++ y, h1, h2, by rw [h3]; simp, h4, h5⟩

/-- A restricted run, unfolded. -/
theorem restricted_spec {base guard : Dict} {env : DictId} {c : Code} {s s' : St} {o : Outcome} (hn : env < s.next)
    (h : restrictedExec base guard env c s = (s', o)) :
    ∃ l x y, s'.log = s.log ++ l ∧ s'.out = s.out ++ x ∧ s'.err = s.err ++ y ∧ s'.next = s.next + 1 ∧
      (∀ d k, d ≠ env → d ≠ s.next → s'.heap d k = match lastWrite l d k with | some w => w | none => s.heap d k) ∧
      ∀ k, s'.heap env k =
        let before := rglobals base guard (s.heap env)
        let e := match lastWrite l env k with | some w => w | none => s.heap env k
        if o = .ok then
          if k = nBuiltins then e
          else
            match lastWrite l s.next k with
            | some (some v) => if before k = some v then e else some v
            | _ => e
        else e := by
  unfold restrictedExec at h
  simp only at h
  cases hr : run s.next c { s.update s.next (rglobals base guard (s.heap env)) with next := s.next + 1 } with
  | mk s₁ o₁ =>
    obtain ⟨l, x, y, h1, h2, h3, h4, h5⟩ := run_spec _ _ _ _ _ hr
    rw [hr] at h
    have hne : env ≠ s.next := Nat.ne_of_lt hn
    have hb : ∀ k, s₁.heap s.next k = match lastWrite l s.next k with
        | some w => w | none => rglobals base guard (s.heap env) k := by
      intro k; rw [h5]; simp [St.update]
    have he : ∀ k, s₁.heap env k = match lastWrite l env k with | some w => w | none => s.heap env k := by
      intro k; rw [h5]; simp [St.update, hne]
    cases o₁ with
    | ok =>
      cases h
      refine ⟨l, x, y, h1, h2, h3, h4, ?_, ?_⟩
      · intro d k hd hd'
        simp only [St.update, if_neg hd, h5, if_neg hd']
      · intro k
        simp only [St.update, if_true, copyBack, hb, he]
        by_cases hk : k = nBuiltins
        · simp [hk]
        · simp only [if_neg hk]
          cases hw : lastWrite l s.next k with
          | none =>
            simp only
            cases hg : rglobals base guard (s.heap env) k with
            | none => rfl
            | some v => simp
          | some w =>
            cases w with
            | none => rfl
            | some v => rfl
    | error =>
      cases h
      refine ⟨l, x, y, h1, h2, h3, h4, ?_, ?_⟩
      · intro d k hd hd'; simp only [h5, St.update, if_neg hd']
      · intro k; simp [he]
    | exit =>
      cases h
      refine ⟨l, x, y, h1, h2, h3, h4, ?_, ?_⟩
      · intro d k hd hd'; simp only [h5, St.update, if_neg hd']
      · intro k; simp [he]

theorem written_eq {s s' : St} {l : List (DictId × VName × Option Val)} (h : s'.log = s.log ++ l) : written s s' = l := by
  unfold written
  rw [h, List.drop_left]

/-- The code sees every name of `env` except those of guards and builtins, and always the restricted builtins: the dict it
starts with. -/
theorem C50_seen (base guard env : Dict) (hr : Reserved base guard) :
    (∀ k v, env k = some v → k ≠ nBuiltins → k ∉ guards → rglobals base guard env k = some v) ∧
    (∀ k, env k = none → k ≠ nBuiltins → k ∉ guards → k ∉ defaults → rglobals base guard env k = none) ∧
    rglobals base guard env nBuiltins = base nBuiltins := by
  refine ⟨?_, ?_, ?_⟩
  · intro k v h h1 h2
    simp [rglobals, h1, h2, h]
  · intro k h h1 h2 h3
    simp [rglobals, h1, h2, h, hr.base k h1 h3]
  · simp [rglobals, nBuiltins, guards]

/-- When restricted code has ended, names that it assigned last (as globals) have that value in `env`. -/
theorem C50_assigned_partial (base guard : Dict) (hr : Reserved base guard) (env : DictId) (c : Code) (s s' : St)
    (hn : env < s.next) (h : restrictedExec base guard env c s = (s', .ok)) (k : VName) (v : Val)
    (hk : k ≠ nBuiltins) (hg : k ∉ guards) (hd : k ∉ defaults) (hw : lastWrite (written s s') s.next k = some (some v))
    (he : lastWrite (written s s') env k = none) : s'.heap env k = some v := by
  obtain ⟨l, x, y, h1, -, -, -, -, h6⟩ := restricted_spec hn h
  rw [written_eq h1] at hw he
  rw [h6 k]
  simp only [if_true, if_neg hk, hw, he]
  split
  · rename_i hb
    have : rglobals base guard (s.heap env) k = s.heap env k := by
      simp only [rglobals, if_neg hg, if_neg hk]
      cases hs : s.heap env k with
      | some v => rfl
      | none => simp [hr.base k hk hd]
    rw [← this]; exact hb
  · rfl

/-- Names that the code did not assign or delete are unchanged, reserved or not. -/
theorem C50_others (base guard : Dict) (env : DictId) (c : Code) (s s' : St) (o : Outcome)
    (hn : env < s.next) (h : restrictedExec base guard env c s = (s', o)) (k : VName)
    (hw : lastWrite (written s s') s.next k = none) (he : lastWrite (written s s') env k = none) :
    s'.heap env k = s.heap env k := by
  obtain ⟨l, x, y, h1, -, -, -, -, h6⟩ := restricted_spec hn h
  rw [written_eq h1] at hw he
  rw [h6 k]
  simp [hw, he]

/-- The builtins of `env` are unchanged: the restricted ones do not leak. -/
theorem C50_builtins (base guard : Dict) (env : DictId) (c : Code) (s s' : St) (o : Outcome)
    (hn : env < s.next) (h : restrictedExec base guard env c s = (s', o))
    (he : lastWrite (written s s') env nBuiltins = none) : s'.heap env nBuiltins = s.heap env nBuiltins := by
  obtain ⟨l, x, y, h1, -, -, -, -, h6⟩ := restricted_spec hn h
  rw [written_eq h1] at he
  rw [h6]
  simp [he]

/-- If the code raises, `env` is unchanged. -/
theorem C50_raised (base guard : Dict) (env : DictId) (c : Code) (s s' : St) (o : Outcome) (ho : o ≠ .ok)
    (hn : env < s.next) (h : restrictedExec base guard env c s = (s', o)) (k : VName)
    (he : lastWrite (written s s') env k = none) : s'.heap env k = s.heap env k := by
  obtain ⟨l, x, y, h1, -, -, -, -, h6⟩ := restricted_spec hn h
  rw [written_eq h1] at he
  rw [h6]
  simp [he, ho]

/-- The unrestricted provider: all binding effects, deletions too, whether the code raises or not. -/
theorem C50_unsafe (b : Val) (env : DictId) (c : Code) (s s' : St) (o : Outcome)
    (h : unsafeExec b env c s = (s', o)) (k : VName) (hk : k ≠ nBuiltins) :
    s'.heap env k = match lastWrite (written s s') env k with | some w => w | none => s.heap env k := by
  unfold unsafeExec at h
  obtain ⟨l, x, y, h1, -, -, -, h5⟩ := run_spec _ _ _ _ _ h
  have hl : s'.log = s.log ++ l := by
    rw [h1]; split <;> rfl
  rw [written_eq hl, h5 env k]
  split
  · rfl
  · split
    · rfl
    · simp [St.update, Dict.put, hk]

/-- `__builtins__` is put into the dict only if it has none. -/
theorem C50_unsafe_builtins (b : Val) (env : DictId) (c : Code) (s s' : St) (o : Outcome)
    (h : unsafeExec b env c s = (s', o)) (hw : lastWrite (written s s') env nBuiltins = none) :
    s'.heap env nBuiltins = match s.heap env nBuiltins with | some v => some v | none => some b := by
  unfold unsafeExec at h
  obtain ⟨l, x, y, h1, -, -, -, h5⟩ := run_spec _ _ _ _ _ h
  have hl : s'.log = s.log ++ l := by
    rw [h1]; split <;> rfl
  rw [written_eq hl] at hw
  rw [h5 env nBuiltins, hw]
  cases he : s.heap env nBuiltins with
  | none => simp [St.update, Dict.put]
  | some v => simp [he]

namespace ExecExample

def exBase : Dict := fun k => if k = 0 then some (.obj 100) else if k = 1 then some (.obj 101) else
  if k = 2 then some (.obj 102) else none
def exGuard : Dict := fun k => if k ∈ guards then some (.obj (200 + k)) else none

/-- A dict 0 with a name 20. -/
def start : St := ⟨fun d => if d = 0 then (fun k => if k = 20 then some (.obj 1) else none) else fun _ => none, 1, [], [], []⟩

/-- `x = 5; y = x` -/
def assign : Code := .self fun d => .set d 21 (.obj 5) (.get d 21 fun v =>
  match v with | some v => .set d 20 v .done | none => .raise)

example : (restrictedExec exBase exGuard 0 assign start).2 = .ok := rfl
example : (restrictedExec exBase exGuard 0 assign start).1.heap 0 20 = some (.obj 5) := rfl
example : (restrictedExec exBase exGuard 0 assign start).1.heap 0 21 = some (.obj 5) := rfl
example : (restrictedExec exBase exGuard 0 assign start).1.heap 0 0 = none := rfl
example : Reserved exBase exGuard := ⟨by intro k h1 h2; simp [defaults] at h2; simp_all [exBase, nBuiltins], by
  intro k h; simp [exGuard, h]⟩

end ExecExample

open ExecExample

theorem example_reserved : Reserved exBase exGuard := ⟨by intro k h1 h2; simp [defaults] at h2; simp_all [exBase, nBuiltins], by
  intro k h; simp [exGuard, h]⟩

/-- A deleted name stays. -/
theorem C50_deleted_fails : ∃ (base guard : Dict) (env : DictId) (c : Code) (s s' : St) (k : VName), Reserved base guard ∧
    k ≠ nBuiltins ∧ k ∉ guards ∧ k ∉ defaults ∧ env < s.next ∧
    restrictedExec base guard env c s = (s', .ok) ∧
    lastWrite (written s s') s.next k = some none ∧ lastWrite (written s s') env k = none ∧ s'.heap env k ≠ none :=
  ⟨exBase, exGuard, 0, .self fun d => .del d 20 .done, start, _, 20, example_reserved, by decide, by decide, by decide,
    by decide, rfl, rfl, rfl, by simp [start, St.update, copyBack, nBuiltins, Dict.put]⟩

/-- A name of the environment that is also one of a guard, such as `getattr`, has another value for the code. -/
theorem C50_guards_fails : ∃ (base guard env : Dict) (k : VName) (v : Val), Reserved base guard ∧ k ≠ nBuiltins ∧
    env k = some v ∧ rglobals base guard env k ≠ some v :=
  ⟨exBase, exGuard, fun _ => some (.obj 0), 5, .obj 0, example_reserved, by decide, rfl, by
    simp [rglobals, guards, exGuard]⟩

end Verif.Exec
