/-!
# C72: functions traced to terms

Model of `trace` (`ops/syntax.py` 691-741) and of calling its result, `_CallableTerm.__call__` (667-688), against the calling
convention of Python functions.

* A function is given by its parameters and by a body that applies operations to them (`Body`); a body is run by applying
  operations as it goes. Branching on the arguments is left out.
* Terms are calls of operations (`Tm.node`), free variables (`Tm.var`, calls of an operation made by `defop` for a parameter)
  and other values. What an operation does with its arguments is arbitrary (`Rule`): it may return a value or a term.
* The variables of parameters are new (C23), so that arguments do not contain them.
-/

namespace Verif.Trace

/-- Values and terms. A variable is given by the trace it was made in and the position of its parameter. -/
inductive Tm where
  | value (v : Nat)
  | var (trace i : Nat)
  | node (op : String) (args : List Tm)

/-- What operations do outside of `trace`: compute, or stay a term. -/
abbrev Rule := String → List Tm → Tm

inductive Kind where
  | positionalOnly
  | positionalOrKeyword
  | keywordOnly
  | variadic
deriving DecidableEq

/-- What `defop(param.annotation)` does: a variable for a class or an alias; `X | Y` has no `__name__` (AttributeError,
`ops/types.py` 303, for Python below 3.14); there is no rule for type variables, `None` and strings (272). -/
inductive Anno where
  | type
  | union
  | other
deriving DecidableEq

structure Param where
  name : String
  kind : Kind
  default : Option Tm
  anno : Anno := .type

/-- The body of a function. -/
inductive Body where
  | param (i : Nat)
  | value (v : Nat)
  | op (o : String) (args : List Body)

structure Fn where
  params : List Param
  body : Body

inductive Err where
  | type
  | key
  | value
  | attribute
  | notImplemented
deriving DecidableEq

mutual
/-- The body run on arguments, operations acting by a rule. -/
def Body.run (R : Rule) (ρ : Nat → Tm) : Body → Tm
  | .param i => ρ i
  | .value v => .value v
  | .op o bs => R o (runs R ρ bs)
termination_by structural b => b

def runs (R : Rule) (ρ : Nat → Tm) : List Body → List Tm
  | [] => []
  | b :: bs => b.run R ρ :: runs R ρ bs
termination_by structural bs => bs
end

mutual
/-- `evaluate(t)` with a handler `subs` for variables: operations act by the rule, variables without handler stay. -/
def Tm.eval (R : Rule) (subs : Nat → Nat → Option Tm) : Tm → Tm
  | .value v => .value v
  | .var t i => (subs t i).getD (.var t i)
  | .node o ts => R o (evals R subs ts)
termination_by structural t => t

def evals (R : Rule) (subs : Nat → Nat → Option Tm) : List Tm → List Tm
  | [] => []
  | t :: ts => t.eval R subs :: evals R subs ts
termination_by structural ts => ts
end

/-- A `deffn` term: body, positional and keyword variables. -/
structure Deffn where
  body : Tm
  argvars : List (Nat × Nat)
  kwvars : List (String × (Nat × Nat))

/-- The variables of the parameters of a kind, with their names (`bound_sig.args`, `bound_sig.kwargs`). -/
def varsOf (k : Kind) (trace : Nat) : Nat → List Param → List (String × (Nat × Nat))
  | _, [] => []
  | i, p :: ps => if p.kind = k then (p.name, (trace, i)) :: varsOf k trace (i + 1) ps else varsOf k trace (i + 1) ps

/-- The dict of variables (731): the error of the first annotation that has no variable. -/
def annoErr : List Param → Option Err
  | [] => none
  | p :: ps =>
    match p.anno with
    | .type => annoErr ps
    | .union => some .attribute
    | .other => some .notImplemented

/-- `trace(f)` (718-741): variadic parameters raise ValueError; `defop` raises for some annotations; `sig.bind(**...)` raises
TypeError for parameters that are positional only; the body is run on variables, operations making terms (`interpreter({apply: defdata})`). -/
def trace (t : Nat) (f : Fn) : Except Err Deffn :=
  if f.params.any fun p => p.kind = .variadic then .error .value
  else
    match annoErr f.params with
    | some e => .error e
    | none =>
      if f.params.any fun p => p.kind = .positionalOnly then .error .type
      else .ok
        { body := f.body.run .node (.var t)
          argvars := (varsOf .positionalOrKeyword t 0 f.params).map Prod.snd
          kwvars := varsOf .keywordOnly t 0 f.params }

/-- The handlers of the variables of a call: `kwvars[k]` for each keyword; `none` for KeyError. -/
def kwSubs (d : Deffn) : List (String × Tm) → Option (List ((Nat × Nat) × Tm))
  | [] => some []
  | (k, a) :: r =>
    match d.kwvars.lookup k, kwSubs d r with
    | some v, some s => some ((v, a) :: s)
    | _, _ => none

/-- `_CallableTerm.__call__` (673-684). -/
def Deffn.call (R : Rule) (d : Deffn) (args : List Tm) (kwargs : List (String × Tm)) : Except Err Tm :=
  match kwSubs d kwargs with
  | none => .error .key
  | some s => .ok (d.body.eval R fun t i => (s ++ d.argvars.zip args).lookup (t, i))

/-! ## What is stated -/

/-- Calling a Python function: the arguments of the parameters, from position `i` on, given those left. -/
inductive Binds : Nat → List Param → List Tm → List (String × Tm) → (Nat → Tm) → Prop
  | nil {i ρ} {kwargs : List (String × Tm)} : Binds i [] [] kwargs ρ
  | pos {i p ps a args kwargs ρ} : (p.kind = .positionalOnly ∨ p.kind = .positionalOrKeyword) →
      (p.kind = .positionalOrKeyword → kwargs.lookup p.name = none) → ρ i = a → Binds (i + 1) ps args kwargs ρ →
      Binds i (p :: ps) (a :: args) kwargs ρ
  | kw {i p ps a kwargs ρ} {args : List Tm} : (p.kind = .positionalOrKeyword ∧ args = [] ∨ p.kind = .keywordOnly) →
      kwargs.lookup p.name = some a → ρ i = a → Binds (i + 1) ps args kwargs ρ → Binds i (p :: ps) args kwargs ρ
  | default {i p ps a kwargs ρ} {args : List Tm} :
      (args = [] ∨ p.kind = .keywordOnly) → (p.kind ≠ .positionalOnly → kwargs.lookup p.name = none) →
      p.kind ≠ .variadic → p.default = some a → ρ i = a →
      Binds (i + 1) ps args kwargs ρ → Binds i (p :: ps) args kwargs ρ

/-- `f(*args, **kwargs)` returns `r`: each keyword is the name of a parameter that can be given by keyword, and no
keyword is given twice. -/
def Returns (R : Rule) (f : Fn) (args : List Tm) (kwargs : List (String × Tm)) (r : Tm) : Prop :=
  (kwargs.map Prod.fst).Nodup ∧
  (∀ k ∈ kwargs.map Prod.fst, ∃ p ∈ f.params, p.name = k ∧ (p.kind = .positionalOrKeyword ∨ p.kind = .keywordOnly)) ∧
  ∃ ρ, Binds 0 f.params args kwargs ρ ∧ f.body.run R ρ = r

mutual
/-- The parameters used in a body. -/
def Body.Uses (n : Nat) : Body → Prop
  | .param i => i < n
  | .value _ => True
  | .op _ bs => UsesAll n bs
termination_by structural b => b

def UsesAll (n : Nat) : List Body → Prop
  | [] => True
  | b :: bs => b.Uses n ∧ UsesAll n bs
termination_by structural bs => bs
end

/-- A Python function: the body uses its parameters, which have different names. -/
structure Fn.Wf (f : Fn) : Prop where
  uses : f.body.Uses f.params.length
  names : (f.params.map Param.name).Nodup

/-! ## Proofs -/

mutual
/-- Running the traced body is running the body. -/
theorem eval_run (R : Rule) (t n : Nat) (subs : Nat → Nat → Option Tm) (ρ : Nat → Tm)
    (h : ∀ i, i < n → subs t i = some (ρ i)) : ∀ b : Body, b.Uses n →
    (b.run .node (.var t)).eval R subs = b.run R ρ
  | .param i, hb => by
    simp only [Body.run, Tm.eval]
    rw [h i (by simpa [Body.Uses] using hb)]; rfl
  | .value _, _ => rfl
  | .op o bs, hb => by
    simp only [Body.run, Tm.eval]
    rw [evals_runs R t n subs ρ h bs (by simpa [Body.Uses] using hb)]

theorem evals_runs (R : Rule) (t n : Nat) (subs : Nat → Nat → Option Tm) (ρ : Nat → Tm)
    (h : ∀ i, i < n → subs t i = some (ρ i)) : ∀ bs : List Body, UsesAll n bs →
    evals R subs (runs .node (.var t) bs) = runs R ρ bs
  | [], _ => rfl
  | b :: bs, hb => by
    have hb' : b.Uses n ∧ UsesAll n bs := by simpa [UsesAll] using hb
    simp only [runs, evals]
    rw [eval_run R t n subs ρ h b hb'.1, evals_runs R t n subs ρ h bs hb'.2]
end

/-- Each parameter from position `i` on has its argument among the given ones. -/
theorem binds_lookup (t : Nat) (kwargs : List (String × Tm)) (ρ : Nat → Tm) :
    ∀ (ps : List Param) (i : Nat) (args : List Tm),
    (∀ p ∈ ps, p.kind = .positionalOrKeyword ∨ p.kind = .keywordOnly) →
    args.length = (ps.filter fun p => p.kind = .positionalOrKeyword).length →
    (∀ p ∈ ps, p.kind = .keywordOnly → ∃ a, kwargs.lookup p.name = some a) →
    (∀ p ∈ ps, p.kind = .positionalOrKeyword → kwargs.lookup p.name = none) →
    Binds i ps args kwargs ρ →
    ∀ j p, ps[j]? = some p →
      (p.kind = .positionalOrKeyword →
        (((varsOf .positionalOrKeyword t i ps).map Prod.snd).zip args).lookup (t, i + j) = some (ρ (i + j))) ∧
      (p.kind = .keywordOnly → kwargs.lookup p.name = some (ρ (i + j)) ∧
        (((varsOf .positionalOrKeyword t i ps).map Prod.snd).zip args).lookup (t, i + j) = none)
  | [], _, _, _, _, _, _, _ => by intro j p h; simp at h
  | p :: ps, i, args, hk, hl, hkw, hpos, hb => by
    have hk' := fun q hq => hk q (List.mem_cons_of_mem _ hq)
    have hkw' := fun q hq => hkw q (List.mem_cons_of_mem _ hq)
    have hpos' := fun q hq => hpos q (List.mem_cons_of_mem _ hq)
    have hp := hk p List.mem_cons_self
    -- no variable of a later parameter is that of an earlier position
    have hlate : ∀ (ps : List Param) (i j : Nat) (args : List Tm), j < i →
        (((varsOf .positionalOrKeyword t i ps).map Prod.snd).zip args).lookup (t, j) = none := by
      intro ps
      induction ps with
      | nil => intro i j args _; rfl
      | cons q ps ih =>
        intro i j args hj
        simp only [varsOf]
        split
        · cases args with
          | nil => simp
          | cons a args =>
            simp only [List.map_cons, List.zip_cons_cons, List.lookup_cons]
            have : ((t, j) == (t, i)) = false := by simp; omega
            rw [this]
            exact ih (i + 1) j args (by omega)
        · exact ih (i + 1) j args (by omega)
    rcases hp with hp | hp
    · -- positional
      have hne : p.kind = .positionalOrKeyword := hp
      cases args with
      | nil => simp [hp] at hl
      | cons a args =>
        have hl' : args.length = (ps.filter fun p => p.kind = .positionalOrKeyword).length := by
          simpa [hp] using hl
        have hB : ρ i = a ∧ Binds (i + 1) ps args kwargs ρ := by
          cases hb with
          | pos _ _ h1 h2 => exact ⟨h1, h2⟩
          | kw h _ _ _ => rcases h with ⟨_, h⟩ | h
                          · cases h
                          · rw [hp] at h; cases h
          | default h _ _ _ _ _ => rcases h with h | h
                                   · cases h
                                   · rw [hp] at h; cases h
        have ih := binds_lookup t kwargs ρ ps (i + 1) args hk' hl' hkw' hpos' hB.2
        intro j q hq
        cases j with
        | zero =>
          simp only [List.getElem?_cons_zero, Option.some.injEq] at hq
          subst hq
          refine ⟨fun _ => ?_, fun h => by rw [hp] at h; cases h⟩
          simp only [varsOf, hp, if_true, List.map_cons, List.zip_cons_cons, List.lookup_cons, Nat.add_zero, BEq.rfl, hB.1]
        | succ j =>
          simp only [List.getElem?_cons_succ] at hq
          have := ih j q hq
          have e : i + 1 + j = i + (j + 1) := by omega
          rw [e] at this
          have hne' : ((t, i + (j + 1)) == (t, i)) = false := by simp
          simp only [varsOf, hp, if_true, List.map_cons, List.zip_cons_cons, List.lookup_cons, hne']
          exact this
    · -- keyword only
      have hne : ¬ p.kind = .positionalOrKeyword := by rw [hp]; intro h; cases h
      have hl' : args.length = (ps.filter fun p => p.kind = .positionalOrKeyword).length := by
        simpa [hp] using hl
      obtain ⟨b, hb'⟩ := hkw p List.mem_cons_self hp
      have hB : kwargs.lookup p.name = some (ρ i) ∧ Binds (i + 1) ps args kwargs ρ := by
        cases hb with
        | pos h _ _ _ => rcases h with h | h <;> (rw [hp] at h; cases h)
        | kw _ h1 h2 h3 => exact ⟨by rw [h1, h2], h3⟩
        | default _ h1 _ _ _ _ =>
          have := h1 (by rw [hp]; intro h; cases h)
          rw [hb'] at this
          cases this
      have ih := binds_lookup t kwargs ρ ps (i + 1) args hk' hl' hkw' hpos' hB.2
      intro j q hq
      cases j with
      | zero =>
        simp only [List.getElem?_cons_zero, Option.some.injEq] at hq
        subst hq
        refine ⟨fun h => absurd h hne, fun _ => ⟨hB.1, ?_⟩⟩
        simp only [varsOf, hne, if_false, Nat.add_zero]
        exact hlate ps (i + 1) i args (by omega)
      | succ j =>
        simp only [List.getElem?_cons_succ] at hq
        have := ih j q hq
        have e : i + 1 + j = i + (j + 1) := by omega
        rw [e] at this
        simp only [varsOf, hne, if_false]
        exact this

theorem varsOf_mem (k : Kind) (t : Nat) (nm : String) (v : Nat × Nat) : ∀ (ps : List Param) (i : Nat),
    (varsOf k t i ps).lookup nm = some v → ∃ (j : Nat) (p : Param), ps[j]? = some p ∧ p.kind = k ∧ p.name = nm ∧ v = (t, i + j)
  | [], _, h => by simp [varsOf] at h
  | p :: ps, i, h => by
    simp only [varsOf] at h
    by_cases hp : p.kind = k
    · rw [if_pos hp, List.lookup_cons] at h
      by_cases hn : nm = p.name
      · subst hn
        simp only [BEq.rfl, Option.some.injEq] at h
        exact ⟨0, p, rfl, hp, rfl, h.symm⟩
      · have : (nm == p.name) = false := by simpa using hn
        rw [this] at h
        obtain ⟨j, q, h1, h2, h3, h4⟩ := varsOf_mem k t nm v ps (i + 1) h
        exact ⟨j + 1, q, h1, h2, h3, by rw [h4]; congr 1; omega⟩
    · rw [if_neg hp] at h
      obtain ⟨j, q, h1, h2, h3, h4⟩ := varsOf_mem k t nm v ps (i + 1) h
      exact ⟨j + 1, q, h1, h2, h3, by rw [h4]; congr 1; omega⟩

theorem varsOf_lookup (k : Kind) (t : Nat) : ∀ (ps : List Param) (i j : Nat) (p : Param), (ps.map Param.name).Nodup →
    ps[j]? = some p → p.kind = k → (varsOf k t i ps).lookup p.name = some (t, i + j)
  | [], _, _, _, _, h, _ => by simp at h
  | q :: ps, i, j, p, hn, h, hk => by
    simp only [List.map_cons, List.nodup_cons, List.mem_map, not_exists, not_and] at hn
    cases j with
    | zero =>
      simp only [List.getElem?_cons_zero, Option.some.injEq] at h
      subst h
      simp [varsOf, hk]
    | succ j =>
      simp only [List.getElem?_cons_succ] at h
      have ih := varsOf_lookup k t ps (i + 1) j p hn.2 h hk
      have e : i + 1 + j = i + (j + 1) := by omega
      rw [e] at ih
      have hne : (p.name == q.name) = false := by
        simp only [beq_eq_false_iff_ne, ne_eq]
        exact hn.1 p (List.mem_of_getElem? h)
      simp only [varsOf]
      split
      · rw [List.lookup_cons, hne]
        exact ih
      · exact ih

theorem name_inj {ps : List Param} (hn : (ps.map Param.name).Nodup) {i j : Nat} {p q : Param} (hp : ps[i]? = some p)
    (hq : ps[j]? = some q) (h : p.name = q.name) : i = j ∧ p = q := by
  have hi : i < ps.length := (List.getElem?_eq_some_iff.1 hp).1
  have hj : j < ps.length := (List.getElem?_eq_some_iff.1 hq).1
  have e1 : (ps.map Param.name)[i]'(by simpa using hi) = p.name := by
    simp [(List.getElem?_eq_some_iff.1 hp).2]
  have e2 : (ps.map Param.name)[j]'(by simpa using hj) = q.name := by
    simp [(List.getElem?_eq_some_iff.1 hq).2]
  have hij : i = j := (List.getElem_inj hn).1 (by rw [e1, e2, h])
  subst hij
  rw [hp] at hq
  exact ⟨rfl, Option.some.inj hq⟩

/-- The handlers of keyword variables. -/
theorem kwSubs_spec (t : Nat) (ps : List Param) (hn : (ps.map Param.name).Nodup) (d : Deffn)
    (hd : d.kwvars = varsOf .keywordOnly t 0 ps) : ∀ kwargs : List (String × Tm),
    (∀ k ∈ kwargs.map Prod.fst, ∃ p ∈ ps, p.name = k ∧ p.kind = .keywordOnly) →
    ∃ s, kwSubs d kwargs = some s ∧ ∀ (i : Nat) (p : Param), ps[i]? = some p →
      (p.kind = .keywordOnly → s.lookup (t, i) = kwargs.lookup p.name) ∧
      (p.kind ≠ .keywordOnly → s.lookup (t, i) = none)
  | [], _ => ⟨[], rfl, fun _ _ _ => ⟨fun _ => rfl, fun _ => rfl⟩⟩
  | (k, a) :: kwargs, h => by
    obtain ⟨s, h1, h2⟩ := kwSubs_spec t ps hn d hd kwargs fun k hk => h k (List.mem_cons_of_mem _ hk)
    obtain ⟨q, hq, hqn, hqk⟩ := h k List.mem_cons_self
    obtain ⟨j, hj⟩ := List.getElem?_of_mem hq
    have hl := varsOf_lookup .keywordOnly t ps 0 j q hn hj hqk
    rw [hqn, ← hd, Nat.zero_add] at hl
    refine ⟨((t, j), a) :: s, by simp [kwSubs, hl, h1], ?_⟩
    intro i p hp
    rw [List.lookup_cons]
    by_cases hij : i = j
    · subst hij
      rw [hj] at hp
      cases hp
      refine ⟨fun _ => ?_, fun hk => absurd hqk hk⟩
      simp [hqn]
    · have hne : ((t, i) == (t, j)) = false := by simpa using hij
      simp only [hne]
      refine ⟨fun hk => ?_, fun hk => (h2 i p hp).2 hk⟩
      rw [(h2 i p hp).1 hk, List.lookup_cons]
      have : (p.name == k) = false := by
        simp only [beq_eq_false_iff_ne, ne_eq]
        intro hpk
        exact hij (name_inj hn hp hj (by rw [hpk, hqn])).1
      rw [this]

theorem annoErr_none {ps : List Param} (h : ∀ p ∈ ps, p.anno = .type) : annoErr ps = none := by
  induction ps with
  | nil => rfl
  | cons p ps ih =>
    simp only [annoErr, h p List.mem_cons_self]
    exact ih fun q hq => h q (List.mem_cons_of_mem _ hq)

theorem annoErr_some {ps : List Param} (p : Param) (hp : p ∈ ps) (h : p.anno ≠ .type) : ∃ e, annoErr ps = some e := by
  induction ps with
  | nil => simp at hp
  | cons q ps ih =>
    rcases List.mem_cons.1 hp with rfl | hp
    · cases ha : p.anno with
      | type => exact absurd ha h
      | union => exact ⟨.attribute, by simp [annoErr, ha]⟩
      | other => exact ⟨.notImplemented, by simp [annoErr, ha]⟩
    · cases ha : q.anno with
      | type => simpa only [annoErr, ha] using ih hp
      | union => exact ⟨.attribute, by simp [annoErr, ha]⟩
      | other => exact ⟨.notImplemented, by simp [annoErr, ha]⟩

/-- **C72.** A function whose parameters are annotated with classes and aliases and are neither positional only nor variadic
can be traced, and called with an argument
for each parameter, positional for those that can be positional, the traced function returns what the function returns. -/
theorem C72_call_partial (R : Rule) (t : Nat) (f : Fn) (hf : f.Wf)
    (hk : ∀ p ∈ f.params, p.kind = .positionalOrKeyword ∨ p.kind = .keywordOnly)
    (ha : ∀ p ∈ f.params, p.anno = .type) (args : List Tm)
    (kwargs : List (String × Tm)) (r : Tm)
    (hl : args.length = (f.params.filter fun p => p.kind = .positionalOrKeyword).length)
    (hkw : ∀ p ∈ f.params, p.kind = .keywordOnly → ∃ a, kwargs.lookup p.name = some a)
    (hpos : ∀ p ∈ f.params, p.kind = .positionalOrKeyword → kwargs.lookup p.name = none)
    (h : Returns R f args kwargs r) :
    ∃ d, trace t f = .ok d ∧ d.call R args kwargs = .ok r := by
  obtain ⟨_, hkeys, ρ, hb, hr⟩ := h
  have hv : (f.params.any fun p => p.kind = .variadic) = false := by
    rw [List.any_eq_false]
    intro p hp
    rcases hk p hp with h | h <;> rw [h] <;> decide
  have ho : (f.params.any fun p => p.kind = .positionalOnly) = false := by
    rw [List.any_eq_false]
    intro p hp
    rcases hk p hp with h | h <;> rw [h] <;> decide
  refine ⟨_, by simp only [trace, hv, ho, annoErr_none ha, Bool.false_eq_true, if_false]; rfl, ?_⟩
  have hkeys' : ∀ k ∈ kwargs.map Prod.fst, ∃ p ∈ f.params, p.name = k ∧ p.kind = .keywordOnly := by
    intro k hkm
    obtain ⟨p, hp, hpn, h | h⟩ := hkeys k hkm
    · exfalso
      have hno := hpos p hp h
      rw [hpn] at hno
      clear hb
      have : ∀ l : List (String × Tm), k ∈ l.map Prod.fst → l.lookup k ≠ none := by
        intro l
        induction l with
        | nil => intro h; simp at h
        | cons q l ih =>
          intro h
          rw [List.lookup_cons]
          by_cases hkq : k = q.1
          · simp [hkq]
          · have : (k == q.1) = false := by simpa using hkq
            simp only [this]
            exact ih (by simpa [hkq] using h)
      exact this kwargs hkm hno
    · exact ⟨p, hp, hpn, h⟩
  obtain ⟨s, h1, h2⟩ := kwSubs_spec t f.params hf.names
    { body := f.body.run .node (.var t)
      argvars := (varsOf .positionalOrKeyword t 0 f.params).map Prod.snd
      kwvars := varsOf .keywordOnly t 0 f.params } rfl kwargs hkeys'
  simp only [Deffn.call, h1]
  rw [← hr]
  congr 1
  apply eval_run R t f.params.length _ ρ _ f.body hf.uses
  intro i hi
  have hg : f.params[i]? = some f.params[i] := List.getElem?_eq_getElem hi
  have hbl := binds_lookup t kwargs ρ f.params 0 args hk hl hkw hpos hb i _ hg
  simp only [Nat.zero_add] at hbl
  have hs := h2 i _ hg
  rw [List.lookup_append]
  rcases hk f.params[i] (List.getElem_mem hi) with hp | hp
  · rw [hs.2 (by rw [hp]; intro h; cases h), hbl.1 hp]
    rfl
  · rw [hs.1 hp, (hbl.2 hp).1]
    rfl

/-- **C72.** Variadic parameters are rejected. -/
theorem C72_variadic (t : Nat) (f : Fn) (p : Param) (hp : p ∈ f.params) (hk : p.kind = .variadic) :
    trace t f = .error .value := by
  have : (f.params.any fun p => p.kind = .variadic) = true := List.any_eq_true.2 ⟨p, hp, by simp [hk]⟩
  simp only [trace, this, if_true]

/-- **C72, negation.** No function with a parameter that is positional only can be traced. -/
theorem C72_positional_only_fails (t : Nat) (f : Fn) (p : Param) (hp : p ∈ f.params) (hk : p.kind = .positionalOnly)
    (hv : ∀ q ∈ f.params, q.kind ≠ .variadic) (ha : ∀ q ∈ f.params, q.anno = .type) : trace t f = .error .type := by
  have h1 : (f.params.any fun p => p.kind = .variadic) = false := by
    rw [List.any_eq_false]
    intro q hq
    simpa using hv q hq
  have h2 : (f.params.any fun p => p.kind = .positionalOnly) = true := List.any_eq_true.2 ⟨p, hp, by simp [hk]⟩
  simp only [trace, h1, h2, annoErr_none ha, Bool.false_eq_true, if_false, if_true]

/-- **C72, negation.** No function with a parameter annotated with a union, a type variable, `None` or a string can be
traced, whatever its other parameters are. -/
theorem C72_union_fails (t : Nat) (f : Fn) (p : Param) (hp : p ∈ f.params) (ha : p.anno ≠ .type) :
    ∃ e, trace t f = .error e := by
  by_cases hv : (f.params.any fun p => p.kind = .variadic) = true
  · exact ⟨.value, by simp only [trace, hv, if_true]⟩
  · obtain ⟨e, he⟩ := annoErr_some p hp ha
    exact ⟨e, by simp only [trace, hv, he, Bool.false_eq_true, if_false]⟩

/-- `def f(x: int | None): return x` can be called. -/
example : trace 0 ⟨[⟨"x", .positionalOrKeyword, none, .union⟩], .param 0⟩ = .error .attribute ∧
    Returns .node ⟨[⟨"x", .positionalOrKeyword, none, .union⟩], .param 0⟩ [.value 1] [] (.value 1) :=
  ⟨rfl, by decide, by simp, fun _ => .value 1, .pos (Or.inr rfl) (fun _ => rfl) rfl .nil, rfl⟩

/-- **C72, negation.** A parameter that can be positional or keyword cannot be given by keyword. -/
theorem C72_keyword_fails (R : Rule) (t : Nat) (f : Fn) (hf : f.Wf) (d : Deffn) (hd : trace t f = .ok d) (p : Param)
    (hp : p ∈ f.params) (hk : p.kind = .positionalOrKeyword) (args : List Tm) (a : Tm) :
    d.call R args [(p.name, a)] = .error .key := by
  have hdk : d.kwvars = varsOf .keywordOnly t 0 f.params := by
    simp only [trace] at hd
    split at hd
    · cases hd
    · split at hd
      · cases hd
      · split at hd
        · cases hd
        · cases hd; rfl
  have hl : d.kwvars.lookup p.name = none := by
    cases hh : d.kwvars.lookup p.name with
    | none => rfl
    | some v =>
      rw [hdk] at hh
      obtain ⟨j, q, h1, h2, h3, _⟩ := varsOf_mem _ _ _ _ _ _ hh
      obtain ⟨i, hi⟩ := List.getElem?_of_mem hp
      obtain ⟨_, rfl⟩ := name_inj hf.names hi h1 h3.symm
      rw [hk] at h2
      cases h2
  simp [Deffn.call, kwSubs, hl]

/-! ## Examples -/

/-- `def f(x, *, y): return x + y`, as an operation. -/
def addFn : Fn := ⟨[⟨"x", .positionalOrKeyword, none, .type⟩, ⟨"y", .keywordOnly, none, .type⟩], .op "add" [.param 0, .param 1]⟩

/-- `def g(x, y=5): return x + y`. -/
def dfltFn : Fn :=
  ⟨[⟨"x", .positionalOrKeyword, none, .type⟩, ⟨"y", .positionalOrKeyword, some (.value 5), .type⟩], .op "add" [.param 0, .param 1]⟩

/-- Addition of numbers; otherwise a term. -/
def addRule : Rule
  | "add", [.value a, .value b] => .value (a + b)
  | o, ts => .node o ts

theorem addFn_wf : addFn.Wf := ⟨by simp [addFn, Body.Uses, UsesAll], by decide⟩
theorem dfltFn_wf : dfltFn.Wf := ⟨by simp [dfltFn, Body.Uses, UsesAll], by decide⟩

example : ∃ d, trace 0 addFn = .ok d ∧ d.call addRule [.value 1] [("y", .value 2)] = .ok (.value 3) := ⟨_, rfl, rfl⟩

example : Returns addRule addFn [.value 1] [("y", .value 2)] (.value 3) := by
  refine ⟨by decide, ?_, fun i => if i = 0 then .value 1 else .value 2, ?_, rfl⟩
  · intro k hk
    exact ⟨⟨"y", .keywordOnly, none, .type⟩, by simp [addFn], by simp at hk; exact hk.symm, Or.inr rfl⟩
  · exact .pos (Or.inr rfl) (fun _ => rfl) rfl (.kw (Or.inr rfl) rfl rfl .nil)

/-- The keyword call that fails for the traced function is a call of the function. -/
example : Returns addRule dfltFn [.value 1] [("y", .value 2)] (.value 3) := by
  refine ⟨by decide, ?_, fun i => if i = 0 then .value 1 else .value 2, ?_, rfl⟩
  · intro k hk
    exact ⟨⟨"y", .positionalOrKeyword, some (.value 5), .type⟩, by simp [dfltFn], by simp at hk; exact hk.symm, Or.inl rfl⟩
  · exact .pos (Or.inr rfl) (fun _ => rfl) rfl (.kw (Or.inl ⟨rfl, rfl⟩) rfl rfl .nil)

/-- **C72, negation.** Defaults of parameters are lost: without the argument the result has the parameter as a free
variable. -/
theorem C72_default_fails : dfltFn.Wf ∧ Returns addRule dfltFn [.value 1] [] (.value 6) ∧
    ∃ d, trace 0 dfltFn = .ok d ∧ d.call addRule [.value 1] [] = .ok (.node "add" [.value 1, .var 0 1]) := by
  refine ⟨dfltFn_wf, ⟨by decide, by simp, fun i => if i = 0 then .value 1 else .value 5, ?_, rfl⟩, _, rfl, rfl⟩
  exact .pos (Or.inr rfl) (fun _ => rfl) rfl (.default (Or.inl rfl) (fun _ => rfl) (by decide) rfl rfl .nil)

end Verif.Trace
