/-!
# C85: templates that are methods

Model of `Template.__get__` and `Agent` (`handlers/llm/template.py` 233-253, 327-378), with `Operation.__get__` (`ops/types.py`
466-505), and of the choice of the system message (`handlers/llm/completions.py` 545-550, 670-680, 697-701).

Simplifications: instances have no attributes with the names of instance operations but those put there, and names of instance
operations of different templates differ (C26 has the collisions); classes and their docstrings do not change; the templates are not
copies of templates of agents.
-/

namespace Verif.Llm.Methods

/-- Values of names. -/
inductive Val where
  | inst (i : Nat)
  | none
  | other (n : Nat)
deriving DecidableEq

abbrev Layer := List (String × Val)

/-- A name is looked up in the maps in turn. -/
def lookup (n : String) : List Layer → Option Val
  | [] => .none
  | e :: es =>
    match e.lookup n with
    | some v => some v
    | .none => lookup n es

/-- A template that is an attribute of a class. -/
structure Tmpl where
  /-- `_name_on_instance`, if `__set_name__` has been called. -/
  key : Option Nat
  /-- The first parameter. -/
  param : Option String
  /-- `__system_prompt__`: the docstring of the module (315). -/
  system : String
  /-- `__context__`. -/
  context : List Layer

structure Inst where
  agent : Bool
  /-- `inspect.getdoc(type(self)) or ""` (374-376). -/
  doc : String
  hasDict : Bool
  /-- Instance operations, as numbers of bound templates. -/
  dict : List (Nat × Nat)

/-- A template that belongs to an instance. -/
structure Bound where
  tmpl : Nat
  inst : Nat
  context : List Layer
  /-- `__history__`: that of the instance with this number. -/
  history : Option Nat
  system : String

structure State where
  tmpls : List Tmpl
  insts : List Inst
  bounds : List Bound
  /-- The context that `Template.define` captures when it is called by `Operation.__get__`. -/
  library : List Layer

inductive Err where
  | attribute
  | index
deriving DecidableEq

/-- A template of a class or of an instance. -/
inductive Ref where
  | cls (t : Nat)
  | bound (b : Nat)
deriving DecidableEq

/-- `"\n\n".join(part for part in (a, b) if part)` (245-252). -/
def join (a b : String) : String := if a = "" then b else if b = "" then a else a ++ "\n\n" ++ b

/-- `__get__(None, owner)`: `Operation.__get__` returns the template itself, whose context is then replaced (239-241). -/
def getClass (s : State) (t : Nat) : State × Except Err Ref :=
  match s.tmpls[t]? with
  | .none => (s, .error .attribute)
  | some d =>
    match d.param with
    | .none => (s, .error .index)
    | some p => ({ s with tmpls := s.tmpls.set t { d with context := [(p, .none)] :: d.context } }, .ok (.cls t))

/-- `__get__(instance, owner)` for an instance; `free` says whether it is a term or has free variables. -/
def getInst (s : State) (t i : Nat) (free : Bool) : State × Except Err Ref :=
  match s.tmpls[t]?, s.insts[i]? with
  | some d, some o =>
    match d.key with
    | .none =>
      -- a method: it has no attribute `__context__` to set
      match d.param with
      | .none => (s, .error .index)
      | some _ => (s, .error .attribute)
    | some k =>
      match o.dict.lookup k with
      | some b => (s, .ok (.bound b))
      | .none =>
        if o.hasDict && !free then
          let b := s.bounds.length
          let insts := s.insts.set i { o with dict := (k, b) :: o.dict }
          match d.param with
          | .none => ({ s with insts := insts, bounds := s.bounds ++ [⟨t, i, s.library, .none, d.system⟩] }, .error .index)
          | some p =>
            ({ s with
                insts := insts
                bounds := s.bounds ++ [{
                  tmpl := t
                  inst := i
                  context := [(p, .inst i)] :: d.context
                  history := if o.agent then some i else .none
                  system := if o.agent then join d.system o.doc else d.system }] }, .ok (.bound b))
        else
          match d.param with
          | .none => (s, .error .index)
          | some _ => (s, .error .attribute)
  | _, _ => (s, .error .attribute)

/-- What programs do. -/
inductive Event where
  | new (agent : Bool) (doc : String) (hasDict : Bool)
  | read (t i : Nat) (free : Bool)
  | readClass (t : Nat)
  /-- `copy.copy`, which copies the `__dict__`. -/
  | copy (i : Nat)

def step (s : State) : Event → State
  | .new a d h => { s with insts := s.insts ++ [⟨a, d, h, []⟩] }
  | .read t i free => (getInst s t i free).1
  | .readClass t => (getClass s t).1
  | .copy i =>
    match s.insts[i]? with
    | some o => { s with insts := s.insts ++ [o] }
    | .none => s

def run (s : State) (es : List Event) : State := es.foldl step s

/-- At the start there are classes with templates, and no instances. -/
def start (tmpls : List Tmpl) (library : List Layer) : State := ⟨tmpls, [], [], library⟩

/-! ## The system message -/

/-- A call of a template with a history that has the given system message, if any. `ok` says whether the call succeeds; the history is
saved if so. The result is the message that is sent, and that of the history afterwards. -/
def callSystem (dflt : String) (system : String) (saved : Option String) (ok : Bool) : String × Option String :=
  let sent := saved.getD (if system = "" then dflt else system)
  (sent, if ok then some sent else saved)

/-- The system messages sent by a sequence of calls with one history. -/
def calls (dflt : String) : Option String → List (String × Bool) → List String
  | _, [] => []
  | saved, c :: cs =>
    let r := callSystem dflt c.1 saved c.2
    r.1 :: calls dflt r.2 cs

/-! ## Specification -/

def NoCopy (es : List Event) : Prop := ∀ e ∈ es, ∀ i, e ≠ .copy i

/-- Different templates have different names on instances. -/
def KeysDiffer (ts : List Tmpl) : Prop :=
  ∀ (t u : Nat) (d e : Tmpl) (k : Nat), ts[t]? = some d → ts[u]? = some e → d.key = some k → e.key = some k → t = u

/-- The texts that are not empty, with an empty line between. -/
def paragraphs (ts : List String) : String := "\n\n".intercalate (ts.filter (· ≠ ""))

/-- What a template of an instance should be: its own `self`, the names of the template otherwise, the history of the instance, and both
system prompts. -/
structure Proper (ts : List Tmpl) (insts : List Inst) (t i : Nat) (b : Bound) : Prop where
  inst : b.inst = i
  tmpl : b.tmpl = t
  own : ∀ d p, ts[t]? = some d → d.param = some p → lookup p b.context = some (.inst i)
  others : ∀ d p n, ts[t]? = some d → d.param = some p → n ≠ p → lookup n b.context = lookup n d.context
  history : ∀ o, insts[i]? = some o → b.history = if o.agent then some i else .none
  system : ∀ d o, ts[t]? = some d → insts[i]? = some o → b.system = if o.agent then paragraphs [d.system, o.doc] else d.system

/-! ## Proofs -/

theorem lookup_self (p : String) (v : Val) (es : List Layer) : lookup p ([(p, v)] :: es) = some v := by
  rw [lookup, List.lookup_cons, beq_self_eq_true]

theorem lookup_other {p n : String} (v : Val) (es : List Layer) (h : n ≠ p) : lookup n ([(p, v)] :: es) = lookup n es := by
  rw [lookup, List.lookup_cons, beq_false_of_ne h]
  rfl

theorem join_eq (a b : String) : join a b = paragraphs [a, b] := by
  rw [join, paragraphs]
  by_cases ha : a = ""
  · by_cases hb : b = ""
    · subst ha hb; rfl
    · subst ha
      rw [if_pos rfl, List.filter_cons_of_neg (by simp), List.filter_cons_of_pos (by simpa using hb)]
      rfl
  · rw [if_neg ha, List.filter_cons_of_pos (by simpa using ha)]
    by_cases hb : b = ""
    · subst hb; rw [if_pos rfl, List.filter_cons_of_neg (by simp)]; rfl
    · rw [if_neg hb, List.filter_cons_of_pos (by simpa using hb)]; rfl

/-- The templates of classes are as at the start, but for the first parameter in their contexts. -/
def Kept (ts : List Tmpl) (s : State) : Prop :=
  ∀ (t : Nat) (d : Tmpl), ts[t]? = some d → ∃ c, s.tmpls[t]? = some { d with context := c } ∧ ∀ n, d.param ≠ some n → lookup n c = lookup n d.context

/-- Instances keep their class. -/
def Same (s s' : State) : Prop :=
  ∀ (i : Nat) (o : Inst), s.insts[i]? = some o → ∃ o', s'.insts[i]? = some o' ∧ o'.agent = o.agent ∧ o'.doc = o.doc

theorem Same.refl (s : State) : Same s s := fun _ o h => ⟨o, h, rfl, rfl⟩

theorem same_set {s : State} {i : Nat} {o : Inst} (h : s.insts[i]? = some o) (d : List (Nat × Nat)) (bs : List Bound) :
    Same s { s with insts := s.insts.set i { o with dict := d }, bounds := bs } := by
  intro j o' hj
  show ∃ o'', (s.insts.set i { o with dict := d })[j]? = some o'' ∧ _
  by_cases hji : i = j
  · subst hji
    obtain rfl := Option.some.inj (h.symm.trans hj)
    exact ⟨_, List.getElem?_set_self (List.getElem?_eq_some_iff.mp h).1, rfl, rfl⟩
  · exact ⟨o', by rw [List.getElem?_set_ne hji]; exact hj, rfl, rfl⟩

theorem getInst_same (s : State) (t i : Nat) (free : Bool) : Same s (getInst s t i free).1 := by
  rw [getInst]
  split
  · rename_i d o hd ho
    split
    · split <;> exact .refl s
    · split
      · exact .refl s
      · split
        · split
          · exact same_set ho _ _
          · exact same_set ho _ _
        · split <;> exact .refl s
  · exact .refl s

theorem getClass_insts (s : State) (t : Nat) : (getClass s t).1.insts = s.insts ∧ (getClass s t).1.bounds = s.bounds := by
  rw [getClass]
  split
  · exact ⟨rfl, rfl⟩
  · split <;> exact ⟨rfl, rfl⟩

theorem append_some {α} {l : List α} {i : Nat} {a b : α} (h : l[i]? = some a) : (l ++ [b])[i]? = some a := by
  rw [List.getElem?_append_left (List.getElem?_eq_some_iff.mp h).1, h]

theorem step_same (s : State) (e : Event) : Same s (step s e) := by
  cases e with
  | new a d h => exact fun i o hi => ⟨o, append_some hi, rfl, rfl⟩
  | read t i free => exact getInst_same s t i free
  | readClass t => exact fun i o hi => ⟨o, by rw [step, (getClass_insts s t).1, hi], rfl, rfl⟩
  | copy i =>
    rw [step]
    split
    · exact fun i o hi => ⟨o, append_some hi, rfl, rfl⟩
    · exact .refl s

theorem getInst_tmpls (s : State) (t i : Nat) (free : Bool) : (getInst s t i free).1.tmpls = s.tmpls := by
  rw [getInst]
  split
  · split
    · split <;> rfl
    · split
      · rfl
      · split
        · split <;> rfl
        · split <;> rfl
  · rfl

theorem step_kept {ts : List Tmpl} {s : State} (h : Kept ts s) (e : Event) : Kept ts (step s e) := by
  cases e with
  | new a d h' => exact h
  | read t i free =>
    intro u d hu
    rw [step, getInst_tmpls]
    exact h u d hu
  | readClass t =>
    intro u d hu
    obtain ⟨c, hc, hl⟩ := h u d hu
    rw [step, getClass]
    split
    · exact ⟨c, hc, hl⟩
    · rename_i d' hd'
      split
      · exact ⟨c, hc, hl⟩
      · rename_i p hp
        by_cases htu : t = u
        · subst htu
          obtain rfl := Option.some.inj (hc.symm.trans hd')
          refine ⟨[(p, .none)] :: c, List.getElem?_set_self (List.getElem?_eq_some_iff.mp hd').1, fun n hn => ?_⟩
          have hp : d.param = some p := hp
          rw [lookup_other _ _ (fun e : n = p => hn (hp.trans (congrArg _ e.symm))), hl n hn]
        · exact ⟨c, by rw [List.getElem?_set_ne htu]; exact hc, hl⟩
  | copy i =>
    rw [step]
    split <;> exact h

theorem run_kept {ts : List Tmpl} {s : State} (h : Kept ts s) (es : List Event) : Kept ts (run s es) := by
  induction es generalizing s with
  | nil => exact h
  | cons e es ih => exact ih (step_kept h e)

theorem start_kept (ts : List Tmpl) (lib : List Layer) : Kept ts (start ts lib) := fun _ d h => ⟨d.context, h, fun _ _ => rfl⟩

theorem Proper.mono {ts : List Tmpl} {s s' : State} (h : Same s s') {t i : Nat} {b : Bound} {o : Inst} (hi : s.insts[i]? = some o)
    (hp : Proper ts s.insts t i b) : Proper ts s'.insts t i b := by
  obtain ⟨o', ho', e1, e2⟩ := h i o hi
  refine ⟨hp.inst, hp.tmpl, hp.own, hp.others, fun o'' h'' => ?_, fun d o'' hd h'' => ?_⟩
  · obtain rfl := Option.some.inj (ho'.symm.trans h'')
    rw [e1, hp.history o hi]
  · obtain rfl := Option.some.inj (ho'.symm.trans h'')
    rw [e1, e2, hp.system d o hd hi]

/-- What the instances have are proper templates. -/
def Inv (ts : List Tmpl) (s : State) : Prop :=
  ∀ (i : Nat) (o : Inst) (k b : Nat), s.insts[i]? = some o → o.dict.lookup k = some b → ∃ B, s.bounds[b]? = some B ∧
    ∀ t d p, ts[t]? = some d → d.key = some k → d.param = some p → Proper ts s.insts t i B

theorem getInst_inv {ts : List Tmpl} (hts : KeysDiffer ts) {s : State} (hk : Kept ts s) (h : Inv ts s) (hlen : s.tmpls.length = ts.length)
    (t i : Nat) (free : Bool) : Inv ts (getInst s t i free).1 := by
  rw [getInst]
  split
  · rename_i d o hd ho
    split
    · split <;> exact h
    · rename_i k hdk
      split
      · exact h
      · rename_i hnone
        split
        · obtain ⟨d₀, hd₀⟩ : ∃ d₀, ts[t]? = some d₀ :=
            ⟨ts[t]'(hlen ▸ (List.getElem?_eq_some_iff.mp hd).1), List.getElem?_eq_getElem _⟩
          obtain ⟨c, hc1, hc2⟩ := hk t d₀ hd₀
          obtain rfl := Option.some.inj (hd.symm.trans hc1)
          have hi := (List.getElem?_eq_some_iff.mp ho).1
          -- the new entry and the old ones
          have key : ∀ (B : Bound) (s' : State), Same s s' →
              s'.insts = s.insts.set i { o with dict := (k, s.bounds.length) :: o.dict } → s'.bounds = s.bounds ++ [B] →
              (∀ p, d₀.param = some p → Proper ts s'.insts t i B) → Inv ts s' := by
            intro B s' hsame e1 e2 hB j oj k' b hj hl
            rw [e1] at hj
            by_cases hij : i = j
            · subst hij
              rw [List.getElem?_set_self hi] at hj
              cases hj
              rw [List.lookup_cons] at hl
              by_cases hkk : k' = k
              · subst hkk
                rw [beq_self_eq_true] at hl
                cases hl
                refine ⟨B, by rw [e2, List.getElem?_append_right (Nat.le_refl _), Nat.sub_self]; rfl, fun u e p hu hek hep => ?_⟩
                obtain rfl := hts t u _ _ _ hd₀ hu hdk hek
                obtain rfl := Option.some.inj (hd₀.symm.trans hu)
                exact hB p hep
              · rw [beq_false_of_ne hkk] at hl
                obtain ⟨B', h1, h2⟩ := h i o k' b ho hl
                exact ⟨B', by rw [e2]; exact append_some h1, fun u e p hu hek hep => (h2 u e p hu hek hep).mono hsame ho⟩
            · rw [List.getElem?_set_ne hij] at hj
              obtain ⟨B', h1, h2⟩ := h j oj k' b hj hl
              exact ⟨B', by rw [e2]; exact append_some h1, fun u e p hu hek hep => (h2 u e p hu hek hep).mono hsame hj⟩
          split
          · rename_i hp
            refine key _ _ (same_set ho _ _) rfl rfl (fun p hp' => ?_)
            have hp : d₀.param = .none := hp
            rw [hp] at hp'
            cases hp'
          · rename_i p hp
            have hp : d₀.param = some p := hp
            refine key _ _ (same_set ho _ _) rfl rfl (fun _ _ => ⟨rfl, rfl, ?_, ?_, ?_, ?_⟩)
            · intro e q he hq
              obtain rfl := Option.some.inj (hd₀.symm.trans he)
              obtain rfl := Option.some.inj (hp.symm.trans hq)
              exact lookup_self _ _ _
            · intro e q n he hq hn
              obtain rfl := Option.some.inj (hd₀.symm.trans he)
              obtain rfl := Option.some.inj (hp.symm.trans hq)
              rw [← hc2 n (fun e => hn (Option.some.inj (hp.symm.trans e)).symm)]
              exact lookup_other _ _ hn
            · intro o' ho'
              rw [List.getElem?_set_self hi] at ho'
              cases ho'
              rfl
            · intro e o' he ho'
              obtain rfl := Option.some.inj (hd₀.symm.trans he)
              rw [List.getElem?_set_self hi] at ho'
              cases ho'
              exact join_eq d₀.system o.doc ▸ rfl
        · split <;> exact h
  · exact h

theorem step_length (s : State) (e : Event) : (step s e).tmpls.length = s.tmpls.length := by
  cases e with
  | new a d h => rfl
  | read t i free => rw [step, getInst_tmpls]
  | readClass t =>
    rw [step, getClass]
    split
    · rfl
    · split
      · rfl
      · exact List.length_set
  | copy i =>
    rw [step]
    split <;> rfl

theorem step_inv {ts : List Tmpl} (hts : KeysDiffer ts) {s : State} (hk : Kept ts s) (h : Inv ts s) (hlen : s.tmpls.length = ts.length)
    (e : Event) (he : ∀ i, e ≠ .copy i) : Inv ts (step s e) := by
  cases e with
  | new a d h' =>
    intro i o k b hi hl
    have hi : (s.insts ++ [⟨a, d, h', []⟩])[i]? = some o := hi
    by_cases hlt : i < s.insts.length
    · rw [List.getElem?_append_left hlt] at hi
      obtain ⟨B, h1, h2⟩ := h i o k b hi hl
      exact ⟨B, h1, fun t d p ht hk' hp => (h2 t d p ht hk' hp).mono (step_same s (.new a _ h')) hi⟩
    · rw [List.getElem?_append_right (Nat.le_of_not_lt hlt)] at hi
      cases hj : i - s.insts.length with
      | zero => rw [hj] at hi; cases hi; cases hl
      | succ n => rw [hj] at hi; cases hi
  | read t i free => exact getInst_inv hts hk h hlen t i free
  | readClass t =>
    intro i o k b hi hl
    rw [step, (getClass_insts s t).1] at hi
    obtain ⟨B, h1, h2⟩ := h i o k b hi hl
    refine ⟨B, by rw [step, (getClass_insts s t).2, h1], fun t' d p ht hk' hp => ?_⟩
    rw [step, (getClass_insts s t).1]
    exact h2 t' d p ht hk' hp
  | copy i => exact absurd rfl (he i)

theorem run_inv {ts : List Tmpl} (hts : KeysDiffer ts) (es : List Event) (hn : NoCopy es) : ∀ {s : State}, Kept ts s → Inv ts s →
    s.tmpls.length = ts.length → Inv ts (run s es) ∧ (run s es).tmpls.length = ts.length := by
  induction es with
  | nil => exact fun _ h hl => ⟨h, hl⟩
  | cons e es ih =>
    intro s hk h hl
    exact ih (fun e' he' => hn e' (List.mem_cons_of_mem _ he')) (step_kept hk e) (step_inv hts hk h hl e (hn e (List.mem_cons_self ..)))
      ((step_length s e).trans hl)

theorem start_inv (ts : List Tmpl) (lib : List Layer) : Inv ts (start ts lib) := fun _ _ _ _ h => nomatch h

/-- A template that was read is in the dict of the instance. -/
theorem getInst_ok {s : State} {t i : Nat} {free : Bool} {r : Ref} (h : (getInst s t i free).2 = .ok r) :
    ∃ d k o b, s.tmpls[t]? = some d ∧ d.key = some k ∧ (getInst s t i free).1.insts[i]? = some o ∧ o.dict.lookup k = some b ∧
      r = .bound b := by
  rw [getInst] at h ⊢
  split at h
  · rename_i d o hd ho
    split at h
    · split at h <;> cases h
    · rename_i k hdk
      split at h
      · rename_i b hb
        cases h
        exact ⟨d, k, o, b, hd, hdk, ho, hb, rfl⟩
      · rename_i hnone
        split at h
        · rename_i hc
          split at h
          · cases h
          · rename_i p hp
            cases h
            refine ⟨d, k, { o with dict := (k, s.bounds.length) :: o.dict }, s.bounds.length, hd, hdk, ?_, ?_, rfl⟩
            · rw [if_pos hc]
              exact List.getElem?_set_self (List.getElem?_eq_some_iff.mp ho).1
            · rw [List.lookup_cons, beq_self_eq_true]
        · split at h <;> cases h
  · cases h

/-- What is in the dict of an instance stays there. -/
theorem step_dict {s : State} {i : Nat} {o : Inst} {k b : Nat} (hi : s.insts[i]? = some o) (hl : o.dict.lookup k = some b) (e : Event) :
    ∃ o', (step s e).insts[i]? = some o' ∧ o'.dict.lookup k = some b := by
  cases e with
  | new a d h => exact ⟨o, append_some hi, hl⟩
  | read t j free =>
    rw [step, getInst]
    split
    · rename_i d oj hd hj
      split
      · split <;> exact ⟨o, hi, hl⟩
      · rename_i k' hk'
        split
        · exact ⟨o, hi, hl⟩
        · rename_i hnone
          have key : ∀ B, ∃ o', (s.insts.set j { oj with dict := (k', B) :: oj.dict })[i]? = some o' ∧ o'.dict.lookup k = some b := by
            intro B
            by_cases hji : j = i
            · subst hji
              obtain rfl := Option.some.inj (hi.symm.trans hj)
              refine ⟨_, List.getElem?_set_self (List.getElem?_eq_some_iff.mp hi).1, ?_⟩
              have hne : k ≠ k' := by rintro rfl; rw [hl] at hnone; cases hnone
              rw [List.lookup_cons, beq_false_of_ne hne]
              exact hl
            · exact ⟨o, by rw [List.getElem?_set_ne hji]; exact hi, hl⟩
          split
          · split <;> exact key _
          · split <;> exact ⟨o, hi, hl⟩
    · exact ⟨o, hi, hl⟩
  | readClass t => exact ⟨o, by rw [step, (getClass_insts s t).1, hi], hl⟩
  | copy j =>
    rw [step]
    split
    · exact ⟨o, append_some hi, hl⟩
    · exact ⟨o, hi, hl⟩

theorem step_bounds {s : State} {b : Nat} {B : Bound} (h : s.bounds[b]? = some B) (e : Event) : (step s e).bounds[b]? = some B := by
  cases e with
  | new a d h' => exact h
  | read t j free =>
    rw [step, getInst]
    split
    · split
      · split <;> exact h
      · split
        · exact h
        · split
          · split <;> exact append_some h
          · split <;> exact h
    · exact h
  | readClass t => rw [step, (getClass_insts s t).2, h]
  | copy j =>
    rw [step]
    split <;> exact h

theorem run_dict {s : State} {i : Nat} {o : Inst} {k b : Nat} (es : List Event) (hi : s.insts[i]? = some o)
    (hl : o.dict.lookup k = some b) : ∃ o', (run s es).insts[i]? = some o' ∧ o'.dict.lookup k = some b := by
  induction es generalizing s o with
  | nil => exact ⟨o, hi, hl⟩
  | cons e es ih =>
    obtain ⟨o', h1, h2⟩ := step_dict hi hl e
    exact ih h1 h2

theorem run_bounds {s : State} {b : Nat} {B : Bound} (es : List Event) (h : s.bounds[b]? = some B) : (run s es).bounds[b]? = some B := by
  induction es generalizing s with
  | nil => exact h
  | cons e es ih => exact ih (step_bounds h e)

theorem step_tmpl {s : State} {t : Nat} {d : Tmpl} (h : s.tmpls[t]? = some d) (e : Event) : ∃ c, (step s e).tmpls[t]? = some { d with context := c } := by
  obtain ⟨c, hc, _⟩ := step_kept (ts := s.tmpls) (s := s) (fun u e hu => ⟨e.context, hu, fun _ _ => rfl⟩) e t d h
  exact ⟨c, hc⟩

theorem run_tmpl {s : State} {t : Nat} {d : Tmpl} (es : List Event) (h : s.tmpls[t]? = some d) :
    ∃ c, (run s es).tmpls[t]? = some { d with context := c } := by
  obtain ⟨c, hc, _⟩ := run_kept (ts := s.tmpls) (s := s) (fun u e hu => ⟨e.context, hu, fun _ _ => rfl⟩) es t d h
  exact ⟨c, hc⟩

/-! ## Theorems -/

/-- Without copies of instances: a template that is read on an instance has this instance as `self`, all other names of the template's
context, the history of the instance if it is an agent, and the system prompts of the module and of the class. -/
theorem C85_bound_partial (ts : List Tmpl) (hts : KeysDiffer ts) (lib : List Layer) (es : List Event) (hn : NoCopy es) (t i : Nat)
    (free : Bool) (d : Tmpl) (p : String) (hd : ts[t]? = some d) (hp : d.param = some p) (r : Ref)
    (h : (getInst (run (start ts lib) es) t i free).2 = .ok r) :
    ∃ (b : Nat) (B : Bound), r = .bound b ∧ (getInst (run (start ts lib) es) t i free).1.bounds[b]? = some B ∧
      Proper ts (getInst (run (start ts lib) es) t i free).1.insts t i B := by
  have hk := run_kept (start_kept ts lib) es
  obtain ⟨hi, hl⟩ := run_inv hts es hn (start_kept ts lib) (start_inv ts lib) rfl
  obtain ⟨d', k, o, b, h1, h2, h3, h4, h5⟩ := getInst_ok h
  obtain ⟨c, hc, _⟩ := hk t d hd
  obtain rfl := Option.some.inj (hc.symm.trans h1)
  obtain ⟨B, hB, hB'⟩ := getInst_inv hts hk hi hl t i free i o k b h3 h4
  exact ⟨b, B, h5, hB, hB' t d p hd h2 hp⟩

/-- It is the same template each time, whatever happens in between. -/
theorem C85_stable (s : State) (t i : Nat) (free free' : Bool) (r : Ref) (h : (getInst s t i free).2 = .ok r) (es : List Event) :
    getInst (run (getInst s t i free).1 es) t i free' = (run (getInst s t i free).1 es, .ok r) ∧
      ∀ (b : Nat) (B : Bound), (getInst s t i free).1.bounds[b]? = some B → (run (getInst s t i free).1 es).bounds[b]? = some B := by
  refine ⟨?_, fun b B hB => run_bounds es hB⟩
  obtain ⟨d, k, o, b, h1, h2, h3, h4, rfl⟩ := getInst_ok h
  obtain ⟨o', h5, h6⟩ := run_dict es h3 h4
  rw [← getInst_tmpls s t i free] at h1
  obtain ⟨c, hc⟩ := run_tmpl es h1
  rw [getInst]
  simp only [hc, h5, h2, h6]

/-- Reading a template, on instances or on its class, does not change what names other than its first parameter mean to it. -/
theorem C85_names (ts : List Tmpl) (lib : List Layer) (es : List Event) (t : Nat) (d : Tmpl) (hd : ts[t]? = some d) :
    ∃ d', (run (start ts lib) es).tmpls[t]? = some d' ∧ ∀ n, d.param ≠ some n → lookup n d'.context = lookup n d.context := by
  obtain ⟨c, hc, hl⟩ := run_kept (start_kept ts lib) es t d hd
  exact ⟨_, hc, hl⟩

/-- Templates of one agent whose modules have the same docstring send the same system message, whichever are called and fail. -/
theorem C85_system_partial (dflt sys : String) (cs : List (String × Bool)) (h : ∀ c ∈ cs, c.1 = sys) :
    ∀ m ∈ calls dflt .none cs, m = if sys = "" then dflt else sys := by
  have key : ∀ (cs : List (String × Bool)) (saved : Option String), (∀ c ∈ cs, c.1 = sys) →
      (∀ m, saved = some m → m = if sys = "" then dflt else sys) → ∀ m ∈ calls dflt saved cs, m = if sys = "" then dflt else sys := by
    intro cs
    induction cs with
    | nil => intro _ _ _ m hm; cases hm
    | cons c cs ih =>
      intro saved hc hs
      have hc1 := hc c (List.mem_cons_self ..)
      have hsent : saved.getD (if c.1 = "" then dflt else c.1) = if sys = "" then dflt else sys := by
        cases saved with
        | none => rw [Option.getD_none, hc1]
        | some m => exact hs m rfl
      intro m hm
      rcases List.mem_cons.mp hm with rfl | hm
      · exact hsent
      · refine ih _ (fun c' h' => hc c' (List.mem_cons_of_mem _ h')) (fun m' h' => ?_) m hm
        have h' : (if c.2 then some (saved.getD (if c.1 = "" then dflt else c.1)) else saved) = some m' := h'
        split at h'
        · cases h'; exact hsent
        · exact hs m' h'
  exact key cs .none h (fun m hm => nomatch hm)

/-! ## Where it fails -/

/-- On an instance that has free variables, or no `__dict__`, or if the template was assigned to the class later, a template cannot be read
at all (`AttributeError`), while other operations can (C26). -/
theorem C85_free_fails (s : State) (t i : Nat) (free : Bool) (d : Tmpl) (p : String) (o : Inst) (hd : s.tmpls[t]? = some d)
    (hp : d.param = some p) (ho : s.insts[i]? = some o) (hnew : ∀ k, d.key = some k → o.dict.lookup k = .none)
    (h : free = true ∨ o.hasDict = false ∨ d.key = .none) : getInst s t i free = (s, .error .attribute) := by
  rw [getInst]
  simp only [hd, ho]
  cases hk : d.key with
  | none => simp only [hp]
  | some k =>
    have hc : (o.hasDict && !free) = false := by
      rcases h with h | h | h
      · rw [h, Bool.not_true, Bool.and_false]
      · rw [h, Bool.false_and]
      · rw [hk] at h; cases h
    simp only [hnew k hk, hc, hp, Bool.false_eq_true, if_false]

/-- A template without parameters cannot be read as an attribute of a class (`IndexError`), nor on an instance at first. -/
theorem C85_index_fails (s : State) (t : Nat) (d : Tmpl) (hd : s.tmpls[t]? = some d) (hp : d.param = .none) :
    getClass s t = (s, .error .index) ∧
      ∀ (i : Nat) (o : Inst) (free : Bool), s.insts[i]? = some o → (∀ k, d.key = some k → o.dict.lookup k = .none) → (getInst s t i free).2 = .error .index := by
  refine ⟨by rw [getClass]; simp only [hd, hp], fun i o free ho hnew => ?_⟩
  rw [getInst]
  simp only [hd, ho]
  cases hk : d.key with
  | none => simp only [hp]
  | some k =>
    simp only [hnew k hk, hp]
    split <;> rfl

/-- Reading a template `n` times on its class puts `n` maps into its context, in which the first parameter is `None`: a value of that
name is no longer found. -/
theorem C85_class_fails (s : State) (t : Nat) (d : Tmpl) (p : String) (hd : s.tmpls[t]? = some d) (hp : d.param = some p) (n : Nat) :
    (run s (List.replicate n (.readClass t))).tmpls[t]? = some { d with context := List.replicate n [(p, Val.none)] ++ d.context } ∧
      (0 < n → ∀ d', (run s (List.replicate n (.readClass t))).tmpls[t]? = some d' → lookup p d'.context = some .none) := by
  have key : ∀ (n : Nat) (s : State) (d : Tmpl), s.tmpls[t]? = some d → d.param = some p →
      (run s (List.replicate n (.readClass t))).tmpls[t]? = some { d with context := List.replicate n [(p, Val.none)] ++ d.context } := by
    intro n
    induction n with
    | zero => exact fun s d hd _ => hd
    | succ n ih =>
      intro s d hd hp
      have e : (step s (.readClass t)).tmpls[t]? = some { d with context := [(p, .none)] :: d.context } := by
        rw [step, getClass]
        simp only [hd, hp]
        exact List.getElem?_set_self (List.getElem?_eq_some_iff.mp hd).1
      rw [List.replicate_succ]
      show (run (step s (.readClass t)) (List.replicate n (.readClass t))).tmpls[t]? = _
      rw [ih _ _ e hp, List.replicate_succ']
      show some { d with context := List.replicate n [(p, Val.none)] ++ ([(p, Val.none)] :: d.context) } = _
      rw [List.append_assoc]
      rfl
  refine ⟨key n s d hd hp, fun hpos d' hd' => ?_⟩
  obtain rfl := Option.some.inj ((key n s d hd hp).symm.trans hd')
  cases n with
  | zero => cases hpos
  | succ n => exact lookup_self p .none _

def chat : Tmpl := ⟨some 1, some "self", "module", [[("limit", .other 7)]]⟩

/-- A copy of an agent that has been used has templates with the `self` and the history of the original. -/
theorem C85_copy_fails : ∃ (es : List Event) (r : Ref) (b : Nat) (B : Bound), (getInst (run (start [chat] []) es) 0 1 false).2 = .ok r ∧
    r = .bound b ∧ (getInst (run (start [chat] []) es) 0 1 false).1.bounds[b]? = some B ∧ lookup "self" B.context = some (.inst 0) ∧
    B.history = some 0 :=
  ⟨[.new true "doc" true, .read 0 0 false, .copy 0], .bound 0, 0, _, rfl, rfl, rfl, rfl, rfl⟩

/-- With templates of several modules, the system message is that of the template that was called first, for all that follow. -/
theorem C85_system_fails (dflt a : String) (ha : a ≠ "") (cs : List (String × Bool)) : ∀ m ∈ calls dflt .none ((a, true) :: cs), m = a := by
  have key : ∀ (cs : List (String × Bool)), ∀ m ∈ calls dflt (some a) cs, m = a := by
    intro cs
    induction cs with
    | nil => intro m hm; cases hm
    | cons c cs ih =>
      intro m hm
      rcases List.mem_cons.mp hm with rfl | hm
      · rfl
      · have e : (callSystem dflt c.1 (some a) c.2).2 = some a := by
          show (if c.2 then some a else some a) = some a
          split <;> rfl
        rw [e] at hm
        exact ih m hm
  intro m hm
  rcases List.mem_cons.mp hm with rfl | hm
  · show (if a = "" then dflt else a) = a
    rw [if_neg ha]
  · refine key cs m ?_
    have e : (callSystem dflt a .none true).2 = some a := by
      show some (if a = "" then dflt else a) = some a
      rw [if_neg ha]
    rw [← e]
    exact hm

/-! ## Examples -/

/-- An agent and a plain object with the same template, and reading it on the class. -/
example : (run (start [chat] []) [.new true "You are a bot." true, .readClass 0, .new false "" true, .read 0 0 false, .read 0 1 false]).bounds =
    [⟨0, 0, [[("self", .inst 0)], [("self", .none)], [("limit", .other 7)]], some 0, "module\n\nYou are a bot."⟩,
      ⟨0, 1, [[("self", .inst 1)], [("self", .none)], [("limit", .other 7)]], .none, "module"⟩] := rfl

example : KeysDiffer [chat, ⟨some 2, some "self", "", []⟩] := by
  intro t u d e k ht hu hd he
  match t, u with
  | 0, 0 => rfl
  | 1, 1 => rfl
  | 0, 1 => cases ht; cases hu; cases hd; cases he
  | 1, 0 => cases ht; cases hu; cases hd; cases he
  | t + 2, _ => cases ht
  | _, u + 2 => cases hu

example := C85_bound_partial [chat] (by
    intro t u d e k ht hu hd he
    match t, u with
    | 0, 0 => rfl
    | t + 1, _ => cases ht
    | _, u + 1 => cases hu) [] [.new true "You are a bot." true, .readClass 0] (by intro e he i; cases he with
      | head => exact fun h => nomatch h
      | tail _ he => cases he with
        | head => exact fun h => nomatch h
        | tail _ he => cases he) 0 0 false chat "self" rfl rfl (.bound 0) rfl

example : calls "default" .none [("a", false), ("b", true), ("a", true)] = ["a", "b", "b"] := rfl

example : calls "default" .none [("", false), ("", true)] = ["default", "default"] := rfl

end Verif.Llm.Methods
