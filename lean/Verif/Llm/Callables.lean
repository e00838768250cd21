/-!
# C64: decoding synthesized functions

Model of `_validate_signature_ast`, `_validate_signature_callable` and of `_validate` in `_pydantic_callable`
(`handlers/llm/encoding.py` 489-639).

* Names, sources and exceptions are numbers. Of a statement only what the decoder looks at is kept.
* Parsing, checking against the anchor (`scan_non_nestable`, `splice_into_source`, `type_check`, see C49, C60, C62),
  compiling and executing are arbitrary; what executing an undecorated definition does is stated as `Faithful`.
* Parameter types are not compared by the code; only their number is kept.
* `typing.get_args(collections.abc.Callable[[int], None])` is `([int], None)`: the return type is then the object `None`
  (`typing.Callable` gives `NoneType` instead).
-/

namespace Verif.Callables

/-- `inspect.Parameter.kind`. -/
inductive Kind where
  | posOnly
  | posOrKw
  | varPos
  | kwOnly
  | varKw
deriving DecidableEq

/-- A parameter. -/
structure Prm where
  kind : Kind
  default : Bool
  annotated : Bool
deriving DecidableEq

/-- A signature. -/
structure Sig where
  params : List Prm
  ret : Bool
deriving DecidableEq

/-- An object: a callable with its identity and what `inspect.signature` gives (if it does not raise), or another. -/
inductive Obj where
  | fn (id : Nat) (sig : Option Sig)
  | other (n : Nat)
deriving DecidableEq

/-- A statement of a module. -/
inductive Stmt where
  | def (name : Nat) (decorated : Bool) (sig : Sig)
  | asyncDef (name : Nat)
  | other (n : Nat)
deriving DecidableEq

/-- A dict from names to objects. -/
abbrev Names := Nat → Option Obj

/-- The return type in `Callable[…, R]`: the object `None`, or a type. -/
inductive Ret where
  | noneObject
  | type (n : Nat)
deriving DecidableEq

/-- The type: `Callable`, or `Callable[…, R]` with the number of parameters if they are listed. -/
inductive CallTy where
  | bare
  | of (params : Option Nat) (ret : Ret)

/-- `expected_params` (547, 557-560). -/
def CallTy.params : CallTy → Option Nat
  | .bare => none
  | .of p _ => p

/-- Whether `expected_return is None` (548, 555). -/
def CallTy.noReturn : CallTy → Bool
  | .bare => true
  | .of _ .noneObject => true
  | .of _ (.type _) => false

/-- What is decoded. -/
inductive Input where
  | object (o : Obj)
  | model (code : Nat)
  | dict (d : Nat)
  | text (s : Nat)

inductive Err where
  | wrongInput
  | noType
  | empty
  | notDef
  | astArity
  | undefined
  | notCallable
  | noSignature
  | arity
  | noReturn
  | outside (n : Nat)
deriving DecidableEq

/-- What the decoder uses. -/
structure World where
  fromDict : Nat → Except Nat Nat
  fromText : Nat → Except Nat Nat
  parse : Nat → Except Nat (List Stmt)
  check : List Stmt → Except Nat Unit
  compile : List Stmt → Except Nat Unit
  exec : List Stmt → Names → Except Nat Names
  isIdentifier : Nat → Bool
  anchorKey : Nat

/-- What happens, in order. -/
inductive Event where
  | parsed (code : Nat)
  | checked (m : List Stmt)
  | executed (m : List Stmt) (g : Names)

/-- `len(func_ast.args.args + func_ast.args.posonlyargs)` (495). -/
def astCount (s : Sig) : Nat := (s.params.filter (fun p => p.kind = .posOrKw)).length +
  (s.params.filter (fun p => p.kind = .posOnly)).length

/-- `_validate_signature_ast` (489-503). -/
def validateAst (s : Sig) : Option Nat → Except Err Unit
  | none => .ok ()
  | some n => if astCount s ≠ n then .error .astArity else .ok ()

/-- `_validate_signature_callable` (506-534). -/
def validateCallable (o : Option Sig) (expected : Option Nat) : Except Err Unit :=
  match o with
  | none => .error .noSignature
  | some s =>
    match (match expected with
      | none => Except.ok ()
      | some n => if s.params.length ≠ n then Except.error Err.arity else Except.ok ()) with
    | .error e => .error e
    | .ok () => if s.ret then .ok () else .error .noReturn

/-- The globals (615-622). -/
def globals (W : World) (ctx : Names) : Names := fun k =>
  if W.isIdentifier k && k != W.anchorKey then ctx k else none

/-- From the executed globals on (626-639). -/
def finish (ty : CallTy) (name : Nat) (g : Names) : Except Err Obj :=
  match g name with
  | none => .error .undefined
  | some (.other _) => .error .notCallable
  | some (.fn i s) =>
    match validateCallable s ty.params with
    | .error e => .error e
    | .ok () => .ok (.fn i s)

/-- The check against the anchor, if there is one (608-613). -/
def anchorCheck (W : World) (ctx : Names) (m : List Stmt) : List Event × Except Err Unit :=
  match ctx W.anchorKey with
  | none => ([], .ok ())
  | some _ =>
    match W.check m with
    | .error e => ([.checked m], .error (.outside e))
    | .ok () => ([.checked m], .ok ())

/-- From the parsed module on (588-639). -/
def decodeModule (W : World) (ty : CallTy) (ctx : Names) (m : List Stmt) : List Event × Except Err Obj :=
  match m.getLast? with
  | none => ([], .error .empty)
  | some (.asyncDef _) => ([], .error .notDef)
  | some (.other _) => ([], .error .notDef)
  | some (.def name _ sig) =>
    match validateAst sig ty.params with
    | .error e => ([], .error e)
    | .ok () =>
      match anchorCheck W ctx m with
      | (l, .error e) => (l, .error e)
      | (l, .ok ()) =>
        match W.compile m with
        | .error e => (l, .error (.outside e))
        | .ok () =>
          match W.exec m (globals W ctx) with
          | .error e => (l ++ [.executed m (globals W ctx)], .error (.outside e))
          | .ok g => (l ++ [.executed m (globals W ctx)], finish ty name g)

/-- From the source on (577-639). -/
def decodeCode (W : World) (ty : CallTy) (ctx : Names) (code : Nat) : List Event × Except Err Obj :=
  if ty.noReturn then ([], .error .noType)
  else
    match W.parse code with
    | .error e => ([.parsed code], .error (.outside e))
    | .ok m => (.parsed code :: (decodeModule W ty ctx m).1, (decodeModule W ty ctx m).2)

/-- `_validate(value, info)` (562-639). -/
def decode (W : World) (ty : CallTy) (ctx : Names) : Input → List Event × Except Err Obj
  | .object (.fn i s) => ([], .ok (.fn i s))
  | .object (.other _) => ([], .error .wrongInput)
  | .model c => decodeCode W ty ctx c
  | .dict d =>
    match W.fromDict d with
    | .error e => ([], .error (.outside e))
    | .ok c => decodeCode W ty ctx c
  | .text s =>
    match W.fromText s with
    | .error e => ([], .error (.outside e))
    | .ok c => decodeCode W ty ctx c

/-! ## What is stated -/

/-- A call with `k` positional arguments and no others binds, by the rules of Python: the parameters are gone through in
order with the number of arguments left. -/
inductive Binds : List Prm → Nat → Prop
  | done : Binds [] 0
  | take {p ps k} : p.kind = .posOnly ∨ p.kind = .posOrKw → Binds ps k → Binds (p :: ps) (k + 1)
  | default {p ps} : p.kind = .posOnly ∨ p.kind = .posOrKw → p.default = true → Binds ps 0 → Binds (p :: ps) 0
  | varPos {p ps k} : p.kind = .varPos → Binds ps 0 → Binds (p :: ps) k
  | kwOnly {p ps} : p.kind = .kwOnly → p.default = true → Binds ps 0 → Binds (p :: ps) 0
  | varKw {p ps} : p.kind = .varKw → Binds ps 0 → Binds (p :: ps) 0

/-- Executing a module whose last statement is an undecorated definition binds its name to a function with that
signature. -/
def Faithful (W : World) : Prop := ∀ m name sig g g', m.getLast? = some (.def name false sig) → W.exec m g = .ok g' →
  ∃ i, g' name = some (.fn i (some sig))

/-- Code of the input, if it is code. -/
def Source (W : World) (c : Nat) : Input → Prop
  | .object _ => False
  | .model c' => c' = c
  | .dict d => W.fromDict d = .ok c
  | .text s => W.fromText s = .ok c

/-! ## Proofs -/

theorem count_le (l : List Prm) : (l.filter (fun p => p.kind = .posOrKw)).length +
    (l.filter (fun p => p.kind = .posOnly)).length ≤ l.length := by
  induction l with
  | nil => simp
  | cons p l ih =>
    obtain ⟨k, d, a⟩ := p
    cases k <;> simp at ih ⊢ <;> omega

theorem all_positional (l : List Prm) (h : (l.filter (fun p => p.kind = .posOrKw)).length +
    (l.filter (fun p => p.kind = .posOnly)).length = l.length) : ∀ p ∈ l, p.kind = .posOnly ∨ p.kind = .posOrKw := by
  induction l with
  | nil => simp
  | cons p l ih =>
    have hl := count_le l
    obtain ⟨k, d, a⟩ := p
    cases k <;> simp at h hl ⊢ <;> first | omega | exact ih (by omega)

theorem binds_all (l : List Prm) (h : ∀ p ∈ l, p.kind = .posOnly ∨ p.kind = .posOrKw) : Binds l l.length := by
  induction l with
  | nil => exact .done
  | cons p l ih => exact .take (h p (by simp)) (ih fun q hq => h q (by simp [hq]))

theorem binds_le {l : List Prm} {k : Nat} (hb : Binds l k) (h : ∀ p ∈ l, p.kind = .posOnly ∨ p.kind = .posOrKw) :
    k ≤ l.length := by
  induction hb with
  | done => simp
  | take _ _ ih => simp; exact ih fun q hq => h q (by simp [hq])
  | default => simp
  | varPos hp => rcases h _ List.mem_cons_self with e | e <;> rw [hp] at e <;> cases e
  | kwOnly => simp
  | varKw => simp

/-- What a successful decoding of code has gone through. -/
theorem decodeCode_ok {W : World} {ty : CallTy} {ctx : Names} {c : Nat} {l : List Event} {o : Obj}
    (h : decodeCode W ty ctx c = (l, .ok o)) : ty.noReturn = false ∧ ∃ m name d sig g, W.parse c = .ok m ∧
      m.getLast? = some (.def name d sig) ∧ validateAst sig ty.params = .ok () ∧
      (ctx W.anchorKey ≠ none → W.check m = .ok ()) ∧ W.exec m (globals W ctx) = .ok g ∧ finish ty name g = .ok o := by
  unfold decodeCode at h
  split at h
  · cases h
  · rename_i hr
    refine ⟨by simpa using hr, ?_⟩
    split at h
    · cases h
    · rename_i m hm
      replace h : (decodeModule W ty ctx m).2 = .ok o := congrArg Prod.snd h
      unfold decodeModule at h
      split at h <;> try (cases h; done)
      rename_i name d sig hl
      split at h
      · cases h
      · rename_i hv
        unfold anchorCheck at h
        cases ha : ctx W.anchorKey with
        | none =>
          simp only [ha] at h
          cases hc : W.compile m with
          | error e => simp [hc] at h
          | ok u =>
            cases he : W.exec m (globals W ctx) with
            | error e => simp [hc, he] at h
            | ok g =>
              simp only [hc, he] at h
              exact ⟨m, name, d, sig, g, hm, hl, hv, by simp, he, h⟩
        | some a =>
          cases hk : W.check m with
          | error e => simp [ha, hk] at h
          | ok u =>
            simp only [ha, hk] at h
            cases hc : W.compile m with
            | error e => simp [hc] at h
            | ok u =>
              cases he : W.exec m (globals W ctx) with
              | error e => simp [hc, he] at h
              | ok g =>
                simp only [hc, he] at h
                exact ⟨m, name, d, sig, g, hm, hl, hv, fun _ => hk, he, h⟩

theorem decode_source {W : World} {ty : CallTy} {ctx : Names} {v : Input} {c : Nat} (hs : Source W c v) :
    decode W ty ctx v = decodeCode W ty ctx c := by
  cases v with
  | object => cases hs
  | model => cases hs; rfl
  | dict d => simp only [Source] at hs; simp [decode, hs]
  | text d => simp only [Source] at hs; simp [decode, hs]

theorem finish_ok {ty : CallTy} {name : Nat} {g : Names} {o : Obj} (h : finish ty name g = .ok o) :
    g name = some o ∧ ∃ i s, o = .fn i (some s) ∧ (∀ n, ty.params = some n → s.params.length = n) ∧ s.ret = true := by
  unfold finish at h
  split at h <;> try (cases h; done)
  rename_i i s hg
  split at h
  · cases h
  · rename_i hv
    cases h
    refine ⟨hg, ?_⟩
    cases s with
    | none => simp [validateCallable] at hv
    | some s =>
      refine ⟨i, s, rfl, ?_⟩
      unfold validateCallable at hv
      cases hp : ty.params with
      | none => simp [hp] at hv; simp [hv]
      | some n =>
        by_cases hn : s.params.length = n
        · simp [hp, hn] at hv; simp [hv, hn]
        · simp [hp, hn] at hv

/-! ## Theorems -/

/-- A decoded function without decorators takes the listed parameters by position, and no more than these; it has a return
annotation. -/
theorem C64_arity_partial (W : World) (hW : Faithful W) (n : Nat) (ret : Ret) (ctx : Names) (v : Input) (c : Nat)
    (hv : Source W c v) (m : List Stmt) (name : Nat) (sig : Sig) (hm : W.parse c = .ok m)
    (hl : m.getLast? = some (.def name false sig)) (l : List Event) (o : Obj)
    (h : decode W (.of (some n) ret) ctx v = (l, .ok o)) :
    ∃ i, o = .fn i (some sig) ∧ Binds sig.params n ∧ (∀ k, Binds sig.params k → k ≤ n) ∧ sig.ret = true := by
  rw [decode_source hv] at h
  obtain ⟨_, m', name', d, sig', g, hm', hl', hast, _, he, hf⟩ := decodeCode_ok h
  rw [hm] at hm'; cases hm'
  rw [hl] at hl'; cases hl'
  obtain ⟨i, hi⟩ := hW m name sig _ g hl he
  obtain ⟨hg, i', s, ho, hlen, hr⟩ := finish_ok hf
  rw [hi] at hg
  cases hg
  cases ho
  have hn := hlen n rfl
  simp only [CallTy.params, validateAst] at hast
  split at hast
  · cases hast
  · rename_i hc
    have hp := all_positional sig.params (by simp only [astCount, ne_eq, Decidable.not_not] at hc; rw [hc, hn])
    exact ⟨i, rfl, hn ▸ binds_all _ hp, fun k hk => hn ▸ binds_le hk hp, hr⟩

/-- Which undecorated definitions are accepted, if nothing else fails: those with a return annotation whose parameters are
all positional and as many as listed. -/
theorem C64_accepts_partial (W : World) (hW : Faithful W) (n r : Nat) (ctx : Names) (v : Input) (c : Nat)
    (hv : Source W c v) (m : List Stmt) (name : Nat) (sig : Sig) (hm : W.parse c = .ok m)
    (hl : m.getLast? = some (.def name false sig)) (hk : W.check m = .ok ()) (hc : W.compile m = .ok ()) (g : Names)
    (he : W.exec m (globals W ctx) = .ok g) :
    (∃ o, (decode W (.of (some n) (.type r)) ctx v).2 = .ok o) ↔
      sig.params.length = n ∧ (∀ p ∈ sig.params, p.kind = .posOnly ∨ p.kind = .posOrKw) ∧ sig.ret = true := by
  constructor
  · rintro ⟨o, h⟩
    rw [decode_source hv] at h
    obtain ⟨_, m', name', d, sig', g', hm', hl', hast, _, he', hf⟩ := decodeCode_ok (l := _) (Prod.ext rfl h)
    rw [hm] at hm'; cases hm'
    rw [hl] at hl'; cases hl'
    rw [he] at he'; cases he'
    obtain ⟨i, hi⟩ := hW m name sig _ g hl he
    obtain ⟨hg, i', s, ho, hlen, hr⟩ := finish_ok hf
    rw [hi] at hg
    cases hg
    cases ho
    have hn := hlen n rfl
    simp only [CallTy.params, validateAst] at hast
    split at hast
    · cases hast
    · rename_i hc
      exact ⟨hn, all_positional sig.params (by simp only [astCount, ne_eq, Decidable.not_not] at hc; rw [hc, hn]), hr⟩
  · rintro ⟨hn, hp, hr⟩
    obtain ⟨i, hi⟩ := hW m name sig _ g hl he
    have hcount : astCount sig = n := by
      rw [← hn, astCount]
      generalize sig.params = ps at hp
      induction ps with
      | nil => rfl
      | cons p ps ih =>
        have := ih fun q hq => hp q (by simp [hq])
        rcases hp p (by simp) with e | e <;> simp [e] at this ⊢ <;> omega
    refine ⟨.fn i (some sig), ?_⟩
    rw [decode_source hv]
    have hfin : finish (.of (some n) (.type r)) name g = .ok (.fn i (some sig)) := by
      simp [finish, hi, validateCallable, CallTy.params, hn, hr]
    cases ha : ctx W.anchorKey <;>
      simp [decodeCode, CallTy.noReturn, hm, decodeModule, hl, validateAst, CallTy.params, hcount, anchorCheck, ha, hk, hc, he,
        hfin]

theorem astCount_eq (sig : Sig) :
    astCount sig = (sig.params.filter (fun p => p.kind = .posOnly ∨ p.kind = .posOrKw)).length := by
  unfold astCount
  generalize sig.params = ps
  induction ps with
  | nil => rfl
  | cons p ps ih =>
    cases hk : p.kind <;> simp [hk] at ih ⊢ <;> omega

/-- Code that runs but leaves the name of its definition without a value, or with something that is not callable, is
rejected for this reason. -/
theorem C64_unbound (W : World) (n r : Nat) (ctx : Names) (v : Input) (c : Nat) (hv : Source W c v) (m : List Stmt)
    (name : Nat) (d : Bool) (sig : Sig) (hm : W.parse c = .ok m) (hl : m.getLast? = some (.def name d sig))
    (hp : (sig.params.filter (fun p => p.kind = .posOnly ∨ p.kind = .posOrKw)).length = n) (hk : W.check m = .ok ())
    (hc : W.compile m = .ok ()) (g : Names) (he : W.exec m (globals W ctx) = .ok g) :
    (g name = none → (decode W (.of (some n) (.type r)) ctx v).2 = .error .undefined) ∧
    (∀ x, g name = some (.other x) → (decode W (.of (some n) (.type r)) ctx v).2 = .error .notCallable) := by
  have hcount : astCount sig = n := (astCount_eq sig).trans hp
  rw [decode_source hv]
  constructor
  · intro hg
    have hfin : finish (.of (some n) (.type r)) name g = .error .undefined := by simp [finish, hg]
    cases ha : ctx W.anchorKey <;>
      simp [decodeCode, CallTy.noReturn, hm, decodeModule, hl, validateAst, CallTy.params, hcount, anchorCheck, ha, hk, hc, he,
        hfin]
  · intro x hg
    have hfin : finish (.of (some n) (.type r)) name g = .error .notCallable := by simp [finish, hg]
    cases ha : ctx W.anchorKey <;>
      simp [decodeCode, CallTy.noReturn, hm, decodeModule, hl, validateAst, CallTy.params, hcount, anchorCheck, ha, hk, hc, he,
        hfin]

/-- What is decoded from code is what the code, when run, has bound to the name of its last statement, a definition; it is
run with the identifiers of the context as globals. -/
theorem C64_result (W : World) (ty : CallTy) (ctx : Names) (v : Input) (c : Nat) (hv : Source W c v)
    (hk : W.isIdentifier W.anchorKey = false) (l : List Event) (o : Obj) (h : decode W ty ctx v = (l, .ok o)) :
    ∃ m name d sig g g', W.parse c = .ok m ∧ m.getLast? = some (.def name d sig) ∧ W.exec m g = .ok g' ∧ g' name = some o ∧
      ∀ k, g k = if W.isIdentifier k then ctx k else none := by
  rw [decode_source hv] at h
  obtain ⟨_, m, name, d, sig, g, hm, hl, _, _, he, hf⟩ := decodeCode_ok h
  refine ⟨m, name, d, sig, _, g, hm, hl, he, (finish_ok hf).1, ?_⟩
  intro k
  unfold globals
  by_cases hki : k = W.anchorKey
  · subst hki; simp [hk]
  · simp [hki]

/-- Nothing is run before it is known that the code parses, that its last statement is a definition with the listed number
of positional parameters, and, if there is an anchor, that it passes the check. -/
theorem C64_checked_first (W : World) (ty : CallTy) (ctx : Names) (v : Input) (m : List Stmt) (g : Names)
    (h : .executed m g ∈ (decode W ty ctx v).1) :
    ∃ c name d sig, Source W c v ∧ W.parse c = .ok m ∧ m.getLast? = some (.def name d sig) ∧
      (∀ n, ty.params = some n → (sig.params.filter (fun p => p.kind = .posOnly ∨ p.kind = .posOrKw)).length = n) ∧
      (ctx W.anchorKey ≠ none → W.check m = .ok ()) ∧ W.compile m = .ok () := by
  have key : ∀ c, .executed m g ∈ (decodeCode W ty ctx c).1 → ∃ name d sig, W.parse c = .ok m ∧
      m.getLast? = some (.def name d sig) ∧
      (∀ n, ty.params = some n → (sig.params.filter (fun p => p.kind = .posOnly ∨ p.kind = .posOrKw)).length = n) ∧
      (ctx W.anchorKey ≠ none → W.check m = .ok ()) ∧ W.compile m = .ok () := by
    intro c h
    unfold decodeCode at h
    split at h
    · simp at h
    · cases hp : W.parse c with
      | error e => simp [hp] at h
      | ok m' =>
        simp only [hp] at h
        simp only [List.mem_cons, reduceCtorEq, false_or] at h
        unfold decodeModule at h
        split at h <;> try (simp at h; done)
        rename_i name d sig hl
        split at h
        · simp at h
        · rename_i hv
          have hcnt : ∀ n, ty.params = some n →
              (sig.params.filter (fun p => p.kind = .posOnly ∨ p.kind = .posOrKw)).length = n := by
            intro n hn
            rw [hn] at hv
            simp only [validateAst] at hv
            split at hv
            · cases hv
            · rename_i hc
              simp only [astCount, ne_eq, Decidable.not_not] at hc
              rw [← hc]
              generalize sig.params = ps
              induction ps with
              | nil => rfl
              | cons p ps ih =>
                obtain ⟨k, d, a⟩ := p
                cases k <;> simp at ih ⊢ <;> omega
          unfold anchorCheck at h
          cases ha : ctx W.anchorKey with
          | none =>
            simp only [ha] at h
            cases hc : W.compile m' with
            | error e => simp [hc] at h
            | ok u =>
              have : m = m' := by
                cases he : W.exec m' (globals W ctx) <;> simp [hc, he] at h <;> exact h.1
              subst this
              exact ⟨name, d, sig, rfl, hl, hcnt, by simp, hc⟩
          | some a =>
            cases hk : W.check m' with
            | error e => simp [ha, hk] at h
            | ok u =>
              simp only [ha, hk] at h
              cases hc : W.compile m' with
              | error e => simp [hc] at h
              | ok u =>
                have : m = m' := by
                  cases he : W.exec m' (globals W ctx) <;> simp [hc, he] at h <;> exact h.1
                subst this
                exact ⟨name, d, sig, rfl, hl, hcnt, fun _ => hk, hc⟩
  cases v with
  | object o => cases o <;> simp [decode] at h
  | model c =>
    obtain ⟨name, d, sig, h'⟩ := key c h
    exact ⟨c, name, d, sig, rfl, h'⟩
  | dict x =>
    cases hx : W.fromDict x with
    | error e => simp [decode, hx] at h
    | ok c =>
      simp only [decode, hx] at h
      obtain ⟨name, d, sig, h'⟩ := key c h
      exact ⟨c, name, d, sig, hx, h'⟩
  | text x =>
    cases hx : W.fromText x with
    | error e => simp [decode, hx] at h
    | ok c =>
      simp only [decode, hx] at h
      obtain ⟨name, d, sig, h'⟩ := key c h
      exact ⟨c, name, d, sig, hx, h'⟩

/-- A callable is taken as it is, and nothing is run. -/
theorem C64_callable (W : World) (ty : CallTy) (ctx : Names) (i : Nat) (s : Option Sig) :
    decode W ty ctx (.object (.fn i s)) = ([], .ok (.fn i s)) := rfl

namespace Example

/-- `def f(x: int) -> int`. -/
def one : Sig := ⟨[⟨.posOrKw, false, true⟩], true⟩

/-- `(*, x: int) -> int`. -/
def key : Sig := ⟨[⟨.kwOnly, false, true⟩], true⟩

/-- Code 0 is `def f(x: int) -> int`, code 1 the same with a decorator that makes the parameter keyword-only, code 2 is
`def f(x) -> int`. -/
def W : World where
  fromDict := .ok
  fromText := .ok
  parse
    | 0 => .ok [.other 0, .def 7 false one]
    | 1 => .ok [.other 0, .def 7 true one]
    | _ => .ok [.def 7 false ⟨[⟨.posOrKw, false, false⟩], true⟩]
  check _ := .ok ()
  compile _ := .ok ()
  exec m g :=
    match m.getLast? with
    | some (.def n d s) => .ok (fun k => if k = n then some (.fn 1 (some (if d then key else s))) else g k)
    | _ => .ok g
  isIdentifier k := k != 0
  anchorKey := 0

theorem faithful : Faithful W := by
  intro m name sig g g' hl he
  simp only [W, hl] at he
  cases he
  exact ⟨1, by simp⟩

def ctx : Names := fun k => if k ≤ 1 then some (.other 5) else none

example : (decode W (.of (some 1) (.type 0)) ctx (.model 0)).2 = .ok (.fn 1 (some one)) := rfl
example : Source W 0 (.dict 0) ∧ W.isIdentifier W.anchorKey = false ∧ ctx W.anchorKey ≠ none := ⟨rfl, rfl, by decide⟩
example : (decode W (.of (some 2) (.type 0)) ctx (.model 0)).2 = .error .astArity := rfl
example : .executed [.other 0, .def 7 false one] (globals W ctx) ∈ (decode W (.of (some 1) (.type 0)) ctx (.model 0)).1 := by
  show _ ∈ [Event.parsed 0, .checked _, .executed _ _]
  simp

end Example

open Example in
/-- A decorated function may be accepted although it cannot be called with the listed arguments. -/
theorem C64_decorated_fails : ∃ (W : World) (ctx : Names) (c : Nat) (i : Nat) (s : Sig), Faithful W ∧
    (decode W (.of (some 1) (.type 0)) ctx (.model c)).2 = .ok (.fn i (some s)) ∧ ¬ Binds s.params 1 :=
  ⟨W, ctx, 1, 1, key, faithful, rfl, by intro h; cases h <;> simp_all⟩

open Example in
/-- Parameters without annotations are accepted, although the documentation requires annotations. -/
theorem C64_unannotated_fails : ∃ (W : World) (ctx : Names) (c : Nat) (i : Nat) (s : Sig), Faithful W ∧
    (decode W (.of (some 1) (.type 0)) ctx (.model c)).2 = .ok (.fn i (some s)) ∧ ∃ p ∈ s.params, p.annotated = false :=
  ⟨W, ctx, 2, 1, _, faithful, rfl, ⟨.posOrKw, false, false⟩, by simp, rfl⟩

/-- No code is ever decoded for `collections.abc.Callable[[…], None]`. -/
theorem C64_none_fails (W : World) (p : Option Nat) (ctx : Names) (v : Input) (c : Nat) (hv : Source W c v) :
    decode W (.of p .noneObject) ctx v = ([], .error .noType) := by
  rw [decode_source hv]; rfl

end Verif.Callables
