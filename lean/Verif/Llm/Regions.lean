/-!
# C49, C59: errors in a region

Model of `_region_errors` and the end of `_mypy_check_region` (`handlers/llm/evaluation.py` 173-193, 399-410).

* The lines of standard output are given as what `json.loads` makes of them: blank, not JSON, JSON without `severity` or
  `line`, or a diagnostic. Lines of diagnostics are numbers (mypy gives `-1` for none).
* The exit status is that of `subprocess.run`: negative if the process was ended by a signal.
-/

namespace Verif.Llm

/-- `diag["severity"]`. -/
inductive Severity where
  | error
  | note
  | other (n : Nat)
deriving DecidableEq

/-- A diagnostic; `rest` are its other fields. -/
structure Diag where
  severity : Severity
  line : Int
  rest : Nat
deriving DecidableEq

/-- A line of the output. -/
inductive OutLine where
  | blank
  | notJson
  | noField
  | diag (d : Diag)
deriving DecidableEq

inductive RegionErr where
  | decodeError
  | keyError
deriving DecidableEq

/-- The comparison with the bounds (191). -/
def inBounds (lo hi : Option Int) (n : Int) : Bool :=
  (match lo with | none => true | some l => decide (l ≤ n)) && (match hi with | none => true | some h => decide (n ≤ h))

/-- `_region_errors(stdout, lo, hi)` (173-193), as a loop with the list so far. -/
def regionErrors (lo hi : Option Int) : List OutLine → List Diag → Except RegionErr (List Diag)
  | [], acc => .ok acc
  | .blank :: ls, acc => regionErrors lo hi ls acc
  | .notJson :: _, _ => .error .decodeError
  | .noField :: _, _ => .error .keyError
  | .diag d :: ls, acc =>
    if d.severity ≠ .error then regionErrors lo hi ls acc
    else if inBounds lo hi d.line then regionErrors lo hi ls (acc ++ [d])
    else regionErrors lo hi ls acc

/-- How the check ends. -/
inductive Verdict where
  | passes
  | typeError (errors : List Diag)
  | runtimeError
  | raises (e : RegionErr)
deriving DecidableEq

/-- `_mypy_check_region` after the process has ended (399-410). -/
def checkRegion (status : Int) (out : List OutLine) (lo hi : Option Int) : Verdict :=
  if status ≥ 2 then .runtimeError
  else
    match regionErrors lo hi out [] with
    | .error e => .raises e
    | .ok [] => .passes
    | .ok (d :: ds) => .typeError (d :: ds)

/-! ## What is stated -/

/-- In the region: from `lo`, if there is one, to `hi`, if there is one. -/
def Within (lo hi : Option Int) (n : Int) : Prop := (∀ l, lo = some l → l ≤ n) ∧ (∀ h, hi = some h → n ≤ h)

/-- The output of mypy is blank lines and diagnostics. -/
def WellFormed (out : List OutLine) : Prop := ∀ l ∈ out, l = .blank ∨ ∃ d, l = .diag d

/-- `es` are the errors in the region of the output, all of them and in order. -/
inductive Reported (lo hi : Option Int) : List OutLine → List Diag → Prop where
  | nil : Reported lo hi [] []
  | blank {ls es} : Reported lo hi ls es → Reported lo hi (.blank :: ls) es
  | take {d ls es} : d.severity = .error → Within lo hi d.line → Reported lo hi ls es →
      Reported lo hi (.diag d :: ls) (d :: es)
  | skip {d ls es} : ¬ (d.severity = .error ∧ Within lo hi d.line) → Reported lo hi ls es →
      Reported lo hi (.diag d :: ls) es

/-! ## Proofs -/

theorem inBounds_iff (lo hi : Option Int) (n : Int) : inBounds lo hi n = true ↔ Within lo hi n := by
  unfold inBounds Within
  cases lo <;> cases hi <;> simp

theorem regionErrors_reported (lo hi : Option Int) (out : List OutLine) (h : WellFormed out) (acc : List Diag) :
    ∃ es, regionErrors lo hi out acc = .ok (acc ++ es) ∧ Reported lo hi out es := by
  induction out generalizing acc with
  | nil => exact ⟨[], by simp [regionErrors], .nil⟩
  | cons l ls ih =>
    have hls : WellFormed ls := fun x hx => h x (List.mem_cons_of_mem _ hx)
    rcases h l (List.mem_cons_self ..) with rfl | ⟨d, rfl⟩
    · obtain ⟨es, h1, h2⟩ := ih hls acc
      exact ⟨es, h1, .blank h2⟩
    · rw [regionErrors]
      by_cases hs : d.severity = .error
      · rw [if_neg (by simpa using hs)]
        by_cases hb : inBounds lo hi d.line = true
        · rw [if_pos hb]
          obtain ⟨es, h1, h2⟩ := ih hls (acc ++ [d])
          exact ⟨d :: es, by rw [h1]; simp, .take hs ((inBounds_iff ..).1 hb) h2⟩
        · rw [if_neg hb]
          obtain ⟨es, h1, h2⟩ := ih hls acc
          exact ⟨es, h1, .skip (fun h => hb ((inBounds_iff ..).2 h.2)) h2⟩
      · rw [if_pos hs]
        obtain ⟨es, h1, h2⟩ := ih hls acc
        exact ⟨es, h1, .skip (fun h => hs h.1) h2⟩

theorem Reported.unique {lo hi : Option Int} {out : List OutLine} {es fs : List Diag} (h : Reported lo hi out es)
    (h' : Reported lo hi out fs) : es = fs := by
  induction h generalizing fs with
  | nil => cases h'; rfl
  | blank _ ih => cases h' with | blank h' => exact ih h'
  | take h1 h2 _ ih =>
    cases h' with
    | take _ _ h' => rw [ih h']
    | skip hn _ => exact absurd ⟨h1, h2⟩ hn
  | skip hn _ ih =>
    cases h' with
    | take h1 h2 _ => exact absurd ⟨h1, h2⟩ hn
    | skip _ h' => exact ih h'

/-- Exactly the errors of the region are reported, in order. -/
theorem C49_region (lo hi : Option Int) (out : List OutLine) (h : WellFormed out) (es : List Diag) :
    regionErrors lo hi out [] = .ok es ↔ Reported lo hi out es := by
  obtain ⟨fs, h1, h2⟩ := regionErrors_reported lo hi out h []
  rw [h1]
  simp only [List.nil_append, Except.ok.injEq]
  exact ⟨fun e => e ▸ h2, fun hr => h2.unique hr⟩

theorem regionErrors_malformed (lo hi : Option Int) (out : List OutLine) (h : ¬ WellFormed out) (acc : List Diag) :
    ∃ e, regionErrors lo hi out acc = .error e := by
  induction out generalizing acc with
  | nil => exact absurd (fun l hl => by simp at hl) h
  | cons l ls ih =>
    cases l with
    | notJson => exact ⟨_, rfl⟩
    | noField => exact ⟨_, rfl⟩
    | blank =>
      exact ih (fun hw => h (fun x hx => by
        rcases List.mem_cons.1 hx with rfl | hx
        · exact Or.inl rfl
        · exact hw x hx)) acc
    | diag d =>
      have hls : ¬ WellFormed ls := fun hw => h (fun x hx => by
        rcases List.mem_cons.1 hx with rfl | hx
        · exact Or.inr ⟨d, rfl⟩
        · exact hw x hx)
      rw [regionErrors]
      split
      · exact ih hls acc
      · split
        · exact ih hls _
        · exact ih hls acc

/-- Output that is not understood, wherever it is, is not taken for success: an exception is raised. -/
theorem C49_malformed (status : Int) (hs : status < 2) (out : List OutLine) (h : ¬ WellFormed out) (lo hi : Option Int) :
    ∃ e, checkRegion status out lo hi = .raises e := by
  obtain ⟨e, he⟩ := regionErrors_malformed lo hi out h []
  refine ⟨e, ?_⟩
  unfold checkRegion
  rw [if_neg (by omega), he]

example : ¬ WellFormed [.blank, .notJson] ∧ checkRegion 0 [.blank, .notJson] none none = .raises .decodeError ∧
    checkRegion 1 [.noField] none none = .raises .keyError :=
  ⟨fun h => (h .notJson (by simp)).elim (fun e => by cases e) (fun ⟨_, e⟩ => by cases e), rfl, rfl⟩

/-- With open bounds every error is. -/
theorem C49_open (out : List OutLine) (h : WellFormed out) (es : List Diag)
    (he : regionErrors none none out [] = .ok es) (d : Diag) (hd : OutLine.diag d ∈ out) :
    d ∈ es ↔ d.severity = .error := by
  have hr := (C49_region none none out h es).1 he
  have hw : ∀ n, Within none none n := fun n => ⟨by simp, by simp⟩
  clear he h
  induction hr with
  | nil => simp at hd
  | blank _ ih =>
    rcases List.mem_cons.1 hd with h | h
    · cases h
    · exact ih h
  | @take d' ls es h1 h2 hr ih =>
    rcases List.mem_cons.1 hd with h | h
    · cases h; simp [h1]
    · by_cases e : d = d'
      · subst e; simp [h1]
      · rw [List.mem_cons]
        simp only [e, false_or]
        exact ih h
  | skip hn hr ih =>
    rcases List.mem_cons.1 hd with h | h
    · cases h
      constructor
      · intro hm
        have : ∀ {ls es}, Reported none none ls es → ∀ d ∈ es, d.severity = .error := by
          intro ls es hr
          induction hr with
          | nil => simp
          | blank _ ih => exact ih
          | take h1 _ _ ih => intro d hd; rcases List.mem_cons.1 hd with rfl | h; exact h1; exact ih d h
          | skip _ _ ih => exact ih
        exact this hr _ hm
      · intro h; exact absurd ⟨h, hw _⟩ hn
    · exact ih h

/-- The check raises `TypeError` with exactly these errors if there are any, `RuntimeError` for a status of at least 2,
and passes otherwise. -/
theorem C49_check (status : Int) (lo hi : Option Int) (out : List OutLine) (h : status < 2 → WellFormed out) :
    (2 ≤ status → checkRegion status out lo hi = .runtimeError) ∧
    (status < 2 → ∃ es, Reported lo hi out es ∧
      (es = [] → checkRegion status out lo hi = .passes) ∧
      (es ≠ [] → checkRegion status out lo hi = .typeError es)) := by
  unfold checkRegion
  refine ⟨fun hs => if_pos hs, fun hs => ?_⟩
  obtain ⟨es, h1, h2⟩ := regionErrors_reported lo hi out (h hs) []
  rw [if_neg (by omega), h1]
  refine ⟨es, h2, ?_, ?_⟩
  · rintro rfl; rfl
  · intro hne
    cases es with
    | nil => exact absurd rfl hne
    | cons d ds => rfl

/-- An error elsewhere does not make the check fail. -/
theorem C49_elsewhere (status : Int) (lo hi : Option Int) (out : List OutLine) (hs : status < 2) (h : WellFormed out)
    (hw : ∀ d, OutLine.diag d ∈ out → d.severity = .error → ¬ Within lo hi d.line) :
    checkRegion status out lo hi = .passes := by
  obtain ⟨es, hr, h1, -⟩ := (C49_check status lo hi out (fun _ => h)).2 hs
  apply h1
  clear h1 h
  induction hr with
  | nil => rfl
  | blank _ ih => exact ih (fun d hd => hw d (List.mem_cons_of_mem _ hd))
  | take a b _ _ => exact absurd b (hw _ (List.mem_cons_self ..) a)
  | skip _ _ ih => exact ih (fun d hd => hw d (List.mem_cons_of_mem _ hd))

example : regionErrors (some 2) (some 4)
    [.diag ⟨.error, 1, 0⟩, .diag ⟨.error, 2, 1⟩, .blank, .diag ⟨.note, 3, 2⟩, .diag ⟨.error, 4, 3⟩, .diag ⟨.error, 5, 4⟩] []
    = .ok [⟨.error, 2, 1⟩, ⟨.error, 4, 3⟩] := by rfl
example : WellFormed [.blank, .diag ⟨.error, 2, 1⟩] := by intro l h; simp at h; rcases h with rfl | rfl <;> simp

/-! ## C59: mypy failing to run

`python -m mypy` with its exit status: mypy itself gives 0 or 1 when it has checked the source, with errors iff 1, and 2
when it could not. `python` gives 1 with nothing on standard output if there is no module mypy. A process ended by a
signal has a negative status. -/

/-- What became of the process. -/
inductive MypyRun where
  | checked (out : List OutLine)
  | failed
  | noModule
  | killed (signal : Nat)

/-- Its status and standard output. -/
def MypyRun.ends : MypyRun → Int × List OutLine
  | .checked out => (if out.any (fun l => match l with | .diag d => decide (d.severity = .error) | _ => false) then 1 else 0, out)
  | .failed => (2, [.notJson])
  | .noModule => (1, [])
  | .killed n => (- (n + 1 : Int), [])

/-- If mypy has run, the check is that of C49; if it says it failed, `RuntimeError` is raised. -/
theorem C59_runs_partial (r : MypyRun) (lo hi : Option Int) (hr : (∃ out, r = .checked out ∧ WellFormed out) ∨ r = .failed) :
    checkRegion r.ends.1 r.ends.2 lo hi = .runtimeError ↔ ¬ ∃ out, r = .checked out := by
  rcases hr with ⟨out, rfl, h⟩ | rfl
  · simp only [MypyRun.checked.injEq, exists_eq', not_true, iff_false]
    obtain ⟨es, -, h1, h2⟩ := (C49_check (MypyRun.checked out).ends.1 lo hi out (fun _ => h)).2 (by
      simp only [MypyRun.ends]; split <;> decide)
    by_cases he : es = []
    · rw [show (MypyRun.checked out).ends.2 = out from rfl, h1 he]; simp
    · rw [show (MypyRun.checked out).ends.2 = out from rfl, h2 he]; simp
  · simp [MypyRun.ends, checkRegion]

/-- Without mypy everything passes. -/
theorem C59_missing_fails (lo hi : Option Int) :
    checkRegion MypyRun.noModule.ends.1 MypyRun.noModule.ends.2 lo hi = .passes := by
  cases lo <;> cases hi <;> rfl

/-- If mypy is killed everything passes. -/
theorem C59_killed_fails (n : Nat) (lo hi : Option Int) :
    checkRegion (MypyRun.killed n).ends.1 (MypyRun.killed n).ends.2 lo hi = .passes := by
  unfold checkRegion MypyRun.ends
  rw [if_neg (by simp only; omega)]
  rfl

end Verif.Llm
