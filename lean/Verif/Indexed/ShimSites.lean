/-!
# C96: sample sites under `PyroShim`

Model of `handlers/pyro.py`: `pyro_sample` 35-52, `PyroShim._pyro_sample` 176-288 and `_pyro_post_sample` 290-327, together with
the part of Pyro that calls them: a stack of handlers, each of which sees the message of a sample site on its way down and, in
the opposite order, on its way up.

Simplifications. Pyro is not part of the repository; its handlers are `trace`, `condition`, `block` and `replay`, as documented;
`block` hides sites by their names, and handlers `replay` use one trace of a guide. Values are of any type: what line 237 does to an observation is `bind`, what line 326 does
to a value is `unbind`, and the properties of these are those of C38 and C74. Distributions, masks, scales, frames of plates
and `obs_mask` are left out, and the handlers of `pyro_sample` either forward or give a value. The assertions are left out.
-/

namespace Verif.Indexed.ShimSites

variable {V : Type}

/-! ## Messages and handlers -/

/-- `site_is_subsample` and `site_is_factor` (183-185). -/
inductive Kind where
  | plain
  | subsample
  | factor
deriving DecidableEq

/-- The dictionary `infer`: `status` is `infer["pyro_shim_status"]`, `hidden` is `infer["_do_not_trace"]`. -/
structure Info where
  status : Option (Nat × Nat)
  hidden : Bool
deriving DecidableEq

/-- The message of a sample site. With `alias`, its `infer` is the one in the trace of the guide, else `own`. -/
structure Msg (V : Type) where
  name : Nat
  kind : Kind
  value : Option V
  observed : Bool
  own : Info
  alias : Bool
  stop : Bool
  done : Bool

/-- The handlers of Pyro. -/
inductive Frame (V : Type) where
  /-- `PyroShim`, with its identity -/
  | shim (id : Nat)
  /-- records the sites -/
  | trace (id : Nat)
  /-- values for some of the sites -/
  | condition (data : Nat → Option V)
  /-- hides sites from the handlers outside of it -/
  | block (hide : Nat → Bool)
  /-- the values of the trace of a guide, for sites that have no value -/
  | replay (guide : Nat → Option V)

/-- The handlers of `pyro_sample` in effectful. -/
inductive Handler (V : Type) where
  /-- does something that can be seen, then `fwd()` -/
  | log (h : Nat)
  /-- a value, without `fwd()` -/
  | ret (v : V)

/-- What can be seen. -/
inductive Event (V : Type) where
  | handled (h : Nat) (name : Nat)
  | traced (t : Nat) (name : Nat) (value : Option V) (observed : Bool)

/-- `naming` are the keys of `_index_naming` of each shim; `draws` counts the calls of distributions; `guide` are the
dictionaries `infer` in the trace of the guide. -/
structure St (V : Type) where
  log : List (Event V)
  naming : List (Nat × Nat)
  draws : Nat
  guide : Nat → Info

/-- The stacks, the innermost handler first. -/
structure Cfg (V : Type) where
  stack : List (Frame V)
  handlers : List (Handler V)
  bind : Nat → V → V
  unbind : Nat → V → V
  draw : Nat → Nat → V

/-- The arguments of `pyro.sample` and `pyro_sample`. -/
structure Site (V : Type) where
  name : Nat
  kind : Kind
  obs : Option V
  infer : Info

/-! ## The code -/

/-- `msg["infer"]`. -/
def infer (m : Msg V) (st : St V) : Info := if m.alias then st.guide m.name else m.own

/-- `msg["infer"]` changed in place. -/
def setInfer (i : Info) (m : Msg V) (st : St V) : Msg V × St V :=
  if m.alias then (m, { st with guide := fun n => if n = m.name then i else st.guide n }) else ({ m with own := i }, st)

/-- `PyroShim._pyro_sample` (176-288). `perf` is the call of `pyro_sample`. -/
def shimSample (cfg : Cfg V) (perf : Site V → St V → Option (V × St V)) (id : Nat) (m : Msg V) (st : St V) :
    Option (Msg V × St V) :=
  if m.kind ≠ .plain then some (m, st)
  else
    let s := (infer m st).status.getD (id, 0)
    let r := setInfer { infer m st with status := some s } m st
    let m := r.1
    let st := r.2
    if s.1 ≠ id then some (m, st)
    else
      let obs := if m.observed then m.value else none
      if s.2 = 1 then
        some ({ m with value := obs.map (cfg.bind m.name) }, { st with naming := (id, m.name) :: st.naming })
      else
        match perf ⟨m.name, m.kind, obs, { infer m st with status := some (s.1, 1) }⟩ st with
        | none => none
        | some (v, st) =>
          some (setInfer { infer m st with hidden := true }
            { m with value := some v, stop := true, done := true, observed := true } st)

/-- A handler on the way down. -/
def process (cfg : Cfg V) (perf : Site V → St V → Option (V × St V)) (fr : Frame V) (m : Msg V) (st : St V) :
    Option (Msg V × St V) :=
  match fr with
  | .shim id => shimSample cfg perf id m st
  | .trace _ => some (m, st)
  | .condition data =>
    match data m.name with
    | none => some (m, st)
    | some d => some ({ m with value := some d, observed := true }, st)
  | .block hide => some ({ m with stop := hide m.name }, st)
  | .replay guide =>
    match guide m.name with
    | none => some (m, st)
    | some v => if m.observed then some (m, st) else some ({ m with value := some v, done := true, alias := true }, st)

/-- The way down, with the handlers that saw the message, the last one first. -/
def down (cfg : Cfg V) (perf : Site V → St V → Option (V × St V)) : List (Frame V) → List (Frame V) → Msg V → St V →
    Option (Msg V × List (Frame V) × St V)
  | [], seen, m, st => some (m, seen, st)
  | fr :: frs, seen, m, st =>
    match process cfg perf fr m st with
    | none => none
    | some (m, st) => if m.stop then some (m, fr :: seen, st) else down cfg perf frs (fr :: seen) m st

/-- The call of the distribution, if there is no value. -/
def default (cfg : Cfg V) (m : Msg V) (st : St V) : Msg V × St V :=
  if m.done ∨ m.observed ∨ m.value.isSome then ({ m with done := true }, st)
  else ({ m with value := some (cfg.draw m.name st.draws), done := true }, { st with draws := st.draws + 1 })

/-- `PyroShim._pyro_post_sample` (290-327). -/
def shimPost (cfg : Cfg V) (id : Nat) (m : Msg V) (st : St V) : Msg V × St V :=
  match (infer m st).status with
  | none =>
    if m.kind = .subsample ∨ (id, m.name) ∉ st.naming then (m, st)
    else setInfer { infer m st with status := some (id, 1) } { m with value := m.value.map (cfg.unbind m.name) } st
  | some s => if s.1 ≠ id ∨ s.2 < 1 then (m, st) else ({ m with value := m.value.map (cfg.unbind m.name) }, st)

/-- A handler on the way up. -/
def post (cfg : Cfg V) (fr : Frame V) (m : Msg V) (st : St V) : Msg V × St V :=
  match fr with
  | .shim id => shimPost cfg id m st
  | .trace t => if (infer m st).hidden then (m, st) else (m, { st with log := st.log ++ [.traced t m.name m.value m.observed] })
  | .condition _ => (m, st)
  | .block _ => (m, st)
  | .replay _ => (m, st)

/-- The way up. -/
def up (cfg : Cfg V) : List (Frame V) → Msg V → St V → Msg V × St V
  | [], m, st => (m, st)
  | fr :: frs, m, st => let r := post cfg fr m st; up cfg frs r.1 r.2

/-- `pyro_sample(…)` (35-52): the handlers, then `pyro.sample`. -/
def perform (sample : Site V → St V → Option (V × St V)) : List (Handler V) → Site V → St V → Option (V × St V)
  | [], s, st => sample s st
  | .log h :: hs, s, st => perform sample hs s { st with log := st.log ++ [.handled h s.name] }
  | .ret v :: _, _, st => some (v, st)

/-- `pyro.sample(…)`; `none` if more calls are nested than the first argument says. -/
def sample (cfg : Cfg V) : Nat → Site V → St V → Option (V × St V)
  | 0, _, _ => none
  | f + 1, s, st =>
    match down cfg (perform (sample cfg f) cfg.handlers) cfg.stack []
      ⟨s.name, s.kind, s.obs, s.obs.isSome, s.infer, false, false, false⟩ st with
    | none => none
    | some (m, seen, st) =>
      let r := default cfg m st
      let r := up cfg seen r.1 r.2
      match r.1.value with
      | none => none
      | some v => some (v, r.2)

/-! ## What is stated -/

/-- The handler hides the site from those outside of it. -/
def Frame.hides (n : Nat) : Frame V → Bool
  | .block hide => hide n
  | _ => false

def Frame.isShim : Frame V → Bool
  | .shim _ => true
  | _ => false

/-- The handlers that a site gets to, the innermost first. -/
def reached (stack : List (Frame V)) (n : Nat) : List (Frame V) := stack.takeWhile (fun fr => !fr.hides n)

/-- The value that a site is given by an observation or else by handlers; the outermost one decides. -/
def given (n : Nat) : List (Frame V) → Option V → Option V
  | [], o => o
  | .condition data :: frs, o => given n frs (match data n with | some d => some d | none => o)
  | _ :: frs, o => given n frs o

/-- Each of the traces has one record of the site, the innermost last. -/
def records (frs : List (Frame V)) (n : Nat) (v : V) (observed : Bool) : List (Event V) :=
  (frs.filterMap fun | .trace t => some (.traced t n (some v) observed) | _ => none).reverse

/-- Each handler of `pyro_sample` runs once. -/
def runs (hs : List Nat) (n : Nat) : List (Event V) := hs.map (.handled · n)

/-- The handler neither gives a value for the site nor hides it, and is not a shim. -/
def Idle (n : Nat) : Frame V → Prop
  | .shim _ => False
  | .trace _ => True
  | .condition data => data n = none
  | .block hide => hide n = false
  | .replay guide => guide n = none

/-- No handler has a value of a guide for the site, or these are not used because there is an observation. -/
def Unreplayed (n : Nat) (o : Option V) (frs : List (Frame V)) : Prop := o.isSome ∨ ∀ g, .replay g ∈ frs → g n = none

/-- The value of a site, given `o`: this or a draw. -/
def outcome (cfg : Cfg V) (n : Nat) (o : Option V) (draws : Nat) : V × Nat :=
  match o with
  | some v => (v, draws)
  | none => (cfg.draw n draws, draws + 1)

/-! ## Proofs -/

/-- The message of a site on its way. -/
def mk (n : Nat) (k : Kind) (s : Option (Nat × Nat)) (o : Option V) : Msg V :=
  ⟨n, k, o, o.isSome, ⟨s, false⟩, false, false, false⟩

/-- The handler is not a shim, or one that leaves the message alone. -/
def Passes (k : Kind) (s : Option (Nat × Nat)) (fr : Frame V) : Prop :=
  ∀ i, fr = .shim i → k ≠ .plain ∨ ∃ p, s = some p ∧ p.1 ≠ i

theorem given_isSome (n : Nat) : ∀ (frs : List (Frame V)) (o : Option V), o.isSome → (given n frs o).isSome
  | [], _, h => h
  | .condition data :: frs, o, h => by
    simp only [given]
    apply given_isSome
    cases data n <;> simp [h]
  | .shim _ :: frs, _, h => given_isSome n frs _ h
  | .trace _ :: frs, _, h => given_isSome n frs _ h
  | .block _ :: frs, _, h => given_isSome n frs _ h
  | .replay _ :: frs, _, h => given_isSome n frs _ h

theorem down_pass (cfg : Cfg V) (perf : Site V → St V → Option (V × St V)) (n : Nat) (k : Kind) (s : Option (Nat × Nat))
    (st : St V) (rest : List (Frame V)) : ∀ (frs seen : List (Frame V)) (o : Option V),
    (∀ fr ∈ frs, fr.hides n = false) → (∀ fr ∈ frs, Passes k s fr) → Unreplayed n o frs →
    down cfg perf (frs ++ rest) seen (mk n k s o) st = down cfg perf rest (frs.reverse ++ seen) (mk n k s (given n frs o)) st
  | [], _, _, _, _, _ => rfl
  | fr :: frs, seen, o, hh, hp, hg => by
    have ih := fun o => down_pass cfg perf n k s st rest frs (fr :: seen) o (fun x hx => hh x (List.mem_cons_of_mem _ hx))
      (fun x hx => hp x (List.mem_cons_of_mem _ hx))
    have hg' : Unreplayed n o frs := hg.imp id (fun h g hx => h g (List.mem_cons_of_mem _ hx))
    have e : (fr :: frs).reverse ++ seen = frs.reverse ++ (fr :: seen) := by simp
    rw [e, List.cons_append, down]
    have h1 := hh fr List.mem_cons_self
    have h2 := hp fr List.mem_cons_self
    cases fr with
    | shim i =>
      have : process cfg perf (.shim i) (mk n k s o) st = some (mk n k s o, st) := by
        rcases h2 i rfl with h | ⟨p, rfl, h⟩
        · simp [process, shimSample, mk, h]
        · by_cases hk : k = .plain
          · simp [process, shimSample, mk, hk, h, infer, setInfer]
          · simp [process, shimSample, mk, hk]
      rw [this]
      exact ih o hg'
    | trace t => exact ih o hg'
    | condition data =>
      simp only [process, given]
      have : (mk n k s o).name = n := rfl
      rw [this]
      cases hd : data n with
      | none => exact ih o hg'
      | some d => exact ih (some d) (Or.inl rfl)
    | block hide =>
      simp only [Frame.hides] at h1
      have : process cfg perf (.block hide) (mk n k s o) st = some (mk n k s o, st) := by simp [process, mk, h1]
      rw [this]
      exact ih o hg'
    | replay g =>
      have : process cfg perf (.replay g) (mk n k s o) st = some (mk n k s o, st) := by
        rcases hg with h | h
        · cases hgn : g n <;> simp [process, mk, hgn, h]
        · simp [process, mk, h g List.mem_cons_self]
      rw [this]
      exact ih o hg'

theorem down_idle (cfg : Cfg V) (perf : Site V → St V → Option (V × St V)) (m : Msg V) (hm : m.stop = false) (st : St V)
    (rest : List (Frame V)) : ∀ (frs seen : List (Frame V)), (∀ fr ∈ frs, Idle m.name fr) →
    down cfg perf (frs ++ rest) seen m st = down cfg perf rest (frs.reverse ++ seen) m st
  | [], _, _ => rfl
  | fr :: frs, seen, h => by
    have ih := down_idle cfg perf m hm st rest frs (fr :: seen) (fun x hx => h x (List.mem_cons_of_mem _ hx))
    have e : (fr :: frs).reverse ++ seen = frs.reverse ++ (fr :: seen) := by simp
    rw [e, List.cons_append, down]
    have h1 := h fr List.mem_cons_self
    have : process cfg perf fr m st = some (m, st) := by
      cases fr with
      | shim i => exact absurd h1 (by simp [Idle])
      | trace t => rfl
      | condition d => simp only [Idle] at h1; simp [process, h1]
      | block b =>
        simp only [Idle] at h1
        simp only [process, h1]
        rw [← hm]
      | replay g => simp only [Idle] at h1; simp [process, h1]
    rw [this]
    simp only [hm, Bool.false_eq_true, if_false]
    exact ih

/-- What comes after the handlers that a site gets to. -/
def Ends (n : Nat) (rest : List (Frame V)) : Prop := rest = [] ∨ ∃ b rs, rest = .block b :: rs ∧ b n = true

theorem reached_split (stack : List (Frame V)) (n : Nat) : ∃ rest, stack = reached stack n ++ rest ∧ Ends n rest := by
  induction stack with
  | nil => exact ⟨[], rfl, Or.inl rfl⟩
  | cons fr frs ih =>
    cases h : fr.hides n with
    | false =>
      obtain ⟨rest, h1, h2⟩ := ih
      refine ⟨rest, ?_, h2⟩
      simp only [reached, List.takeWhile_cons, h, Bool.not_false, if_true, List.cons_append]
      exact congrArg (fr :: ·) h1
    | true =>
      refine ⟨fr :: frs, by simp [reached, h], Or.inr ?_⟩
      cases fr with
      | block b => exact ⟨b, frs, rfl, h⟩
      | shim _ => simp [Frame.hides] at h
      | trace _ => simp [Frame.hides] at h
      | condition _ => simp [Frame.hides] at h
      | replay _ => simp [Frame.hides] at h

theorem reached_hides (stack : List (Frame V)) (n : Nat) : ∀ fr ∈ reached stack n, fr.hides n = false := by
  induction stack with
  | nil => simp [reached]
  | cons x xs ih =>
    intro fr hf
    cases h : x.hides n with
    | false =>
      simp only [reached, List.takeWhile_cons, h, Bool.not_false, if_true, List.mem_cons] at hf
      rcases hf with rfl | hf
      · exact h
      · exact ih fr hf
    | true => simp [reached, h] at hf

theorem down_end (cfg : Cfg V) (perf : Site V → St V → Option (V × St V)) (m : Msg V) (hm : m.stop = false) (st : St V)
    (rest seen : List (Frame V)) (h : Ends m.name rest) :
    ∃ b bs, down cfg perf rest seen m st = some ({ m with stop := b }, bs ++ seen, st) ∧ ∀ fr ∈ bs, ∃ g, fr = .block g := by
  rcases h with rfl | ⟨b, rs, rfl, hb⟩
  · exact ⟨false, [], by rw [← hm]; rfl, by simp⟩
  · refine ⟨true, [.block b], ?_, by simp⟩
    simp [down, process, hb]

/-- The handler is not a shim, or one that leaves the message alone on its way up. -/
def Quiet (n : Nat) (k : Kind) (s : Option (Nat × Nat)) (naming : List (Nat × Nat)) (fr : Frame V) : Prop :=
  ∀ i, fr = .shim i → (s = none ∧ (k = .subsample ∨ (i, n) ∉ naming)) ∨ ∃ p, s = some p ∧ (p.1 ≠ i ∨ p.2 < 1)

theorem post_shim (cfg : Cfg V) (m : Msg V) (st : St V) (i : Nat)
    (h : Quiet m.name m.kind (infer m st).status st.naming (.shim i : Frame V)) : shimPost cfg i m st = (m, st) := by
  rcases h i rfl with ⟨e, h⟩ | ⟨p, e, h⟩
  · simp only [shimPost, e]
    rw [if_pos h]
  · simp only [shimPost, e]
    rw [if_pos h]

theorem up_frames (cfg : Cfg V) (m : Msg V) (v : V) (hv : m.value = some v) (rest : List (Frame V)) :
    ∀ (gs : List (Frame V)) (st : St V), (infer m st).hidden = false →
    (∀ fr ∈ gs, Quiet m.name m.kind (infer m st).status st.naming fr) →
    up cfg (gs ++ rest) m st = up cfg rest m { st with log := st.log ++
      (gs.filterMap fun | .trace t => some (.traced t m.name (some v) m.observed) | _ => none) }
  | [], st, _, _ => by simp
  | fr :: gs, st, hh, hq => by
    rw [List.cons_append, up]
    have h1 := hq fr List.mem_cons_self
    have h2 : ∀ fr ∈ gs, Quiet m.name m.kind (infer m st).status st.naming fr := fun x hx => hq x (List.mem_cons_of_mem _ hx)
    cases fr with
    | shim i =>
      simp only [post, post_shim cfg m st i h1]
      rw [up_frames cfg m v hv rest gs st hh h2]
      simp
    | trace t =>
      simp only [post, hh, Bool.false_eq_true, if_false]
      rw [up_frames cfg m v hv rest gs { st with log := st.log ++ [.traced t m.name m.value m.observed] } hh h2]
      simp [hv]
    | condition d =>
      simp only [post]
      rw [up_frames cfg m v hv rest gs st hh h2]
      simp
    | block b =>
      simp only [post]
      rw [up_frames cfg m v hv rest gs st hh h2]
      simp
    | replay b =>
      simp only [post]
      rw [up_frames cfg m v hv rest gs st hh h2]
      simp

theorem up_records (cfg : Cfg V) (m : Msg V) (v : V) (hv : m.value = some v) (rest : List (Frame V)) (frs : List (Frame V))
    (st : St V) (hh : (infer m st).hidden = false) (hq : ∀ fr ∈ frs, Quiet m.name m.kind (infer m st).status st.naming fr) :
    up cfg (frs.reverse ++ rest) m st = up cfg rest m { st with log := st.log ++ records frs m.name v m.observed } := by
  rw [up_frames cfg m v hv rest frs.reverse st hh (fun fr h => hq fr (List.mem_reverse.1 h)), records, List.filterMap_reverse]

theorem up_hidden (cfg : Cfg V) (m : Msg V) (st : St V) (hh : (infer m st).hidden = true) :
    ∀ (gs : List (Frame V)), (∀ fr ∈ gs, Quiet m.name m.kind (infer m st).status st.naming fr) → up cfg gs m st = (m, st)
  | [], _ => rfl
  | fr :: gs, hq => by
    rw [up]
    have h1 := hq fr List.mem_cons_self
    have ih := up_hidden cfg m st hh gs (fun x hx => hq x (List.mem_cons_of_mem _ hx))
    cases fr with
    | shim i => simp only [post, post_shim cfg m st i h1]; exact ih
    | trace t => simp only [post, hh, if_true]; exact ih
    | condition d => exact ih
    | block b => exact ih
    | replay b => exact ih

theorem up_blocks (cfg : Cfg V) (m : Msg V) (st : St V) (rest : List (Frame V)) : ∀ (bs : List (Frame V)),
    (∀ fr ∈ bs, ∃ g, fr = .block g) → up cfg (bs ++ rest) m st = up cfg rest m st
  | [], _ => rfl
  | b :: bs, h => by
    obtain ⟨g, rfl⟩ := h b List.mem_cons_self
    rw [List.cons_append, up]
    exact up_blocks cfg m st rest bs (fun x hx => h x (List.mem_cons_of_mem _ hx))

/-- The call of the distribution for a message on its way. -/
theorem default_mk (cfg : Cfg V) (n : Nat) (k : Kind) (s : Option (Nat × Nat)) (o : Option V) (b : Bool) (st : St V) :
    default cfg { mk n k s o with stop := b } st =
      (⟨n, k, some (outcome cfg n o st.draws).1, o.isSome, ⟨s, false⟩, false, b, true⟩,
        { st with draws := (outcome cfg n o st.draws).2 }) := by
  cases o <;> simp [default, mk, outcome]

/-- A site that no shim deals with. -/
theorem sample_pass (cfg : Cfg V) (f : Nat) (n : Nat) (k : Kind) (obs : Option V) (s : Option (Nat × Nat)) (st : St V)
    (hg : Unreplayed n obs (reached cfg.stack n)) (h1 : ∀ fr ∈ reached cfg.stack n, Passes k s fr) (h2 : ∀ fr ∈ reached cfg.stack n, Quiet n k s st.naming fr) :
    let o := given n (reached cfg.stack n) obs
    let r := outcome cfg n o st.draws
    sample cfg (f + 1) ⟨n, k, obs, ⟨s, false⟩⟩ st =
      some (r.1, { st with log := st.log ++ records (reached cfg.stack n) n r.1 o.isSome, draws := r.2 }) := by
  intro o r
  obtain ⟨rest, e, he⟩ := reached_split cfg.stack n
  have hd := down_pass cfg (perform (sample cfg f) cfg.handlers) n k s st rest (reached cfg.stack n) []
    obs (reached_hides _ _) h1 hg
  rw [← e] at hd
  obtain ⟨b, bs, hb, hbs⟩ := down_end cfg (perform (sample cfg f) cfg.handlers) (mk n k s o) rfl st rest
    ((reached cfg.stack n).reverse ++ []) he
  rw [hb] at hd
  rw [sample]
  have hm : (⟨n, k, obs, obs.isSome, ⟨s, false⟩, false, false, false⟩ : Msg V) = mk n k s obs := rfl
  simp only [hm, hd]
  simp only [default_mk]
  rw [up_blocks cfg _ _ _ bs hbs, up_records cfg _ r.1 rfl [] _ _ rfl h2]
  rfl

theorem perform_logs (smp : Site V → St V → Option (V × St V)) (x : Site V) : ∀ (hs : List Nat) (st : St V),
    perform smp (hs.map .log) x st = smp x { st with log := st.log ++ runs hs x.name }
  | [], st => by simp [perform, runs]
  | h :: hs, st => by
    simp only [List.map_cons, perform]
    rw [perform_logs smp x hs]
    simp [runs]

theorem given_given (n : Nat) : ∀ (frs : List (Frame V)) (o : Option V), given n frs (given n frs o) = given n frs o := by
  have hc : ∀ (frs : List (Frame V)), (∀ o, given n frs o = o) ∨ ∃ d, ∀ o, given n frs o = some d := by
    intro frs
    induction frs with
    | nil => exact Or.inl fun _ => rfl
    | cons fr frs ih =>
      cases fr with
      | condition data =>
        rcases ih with h | ⟨d, h⟩
        · cases hd : data n with
          | none => exact Or.inl fun o => by simp [given, hd, h]
          | some d => exact Or.inr ⟨d, fun o => by simp [given, hd, h]⟩
        · exact Or.inr ⟨d, fun o => by simp [given, h]⟩
      | shim _ => simpa only [given] using ih
      | trace _ => simpa only [given] using ih
      | block _ => simpa only [given] using ih
      | replay _ => simpa only [given] using ih
  intro frs o
  rcases hc frs with h | ⟨d, h⟩
  · rw [h, h]
  · rw [h, h]

/-- The second message of a site, that of the shim `i`. -/
theorem sample_second (cfg : Cfg V) (f : Nat) (n : Nat) (o₀ : Option V) (st : St V) (i : Nat) (ins outs : List (Frame V))
    (hr : reached cfg.stack n = ins ++ .shim i :: outs) (hi : ∀ j, .shim j ∈ ins → j ≠ i) (ho : ∀ j, .shim j ∈ outs → j ≠ i)
    (hg : Unreplayed n o₀ (ins ++ outs)) :
    let o := given n outs ((given n ins o₀).map (cfg.bind n))
    let r := outcome cfg n o st.draws
    let w := cfg.unbind n r.1
    sample cfg (f + 1) ⟨n, .plain, o₀, ⟨some (i, 1), false⟩⟩ st =
      some (w, ⟨st.log ++ records outs n r.1 o.isSome ++ records ins n w o.isSome, (i, n) :: st.naming, r.2, st.guide⟩) := by
  intro o r w
  obtain ⟨rest, e, he⟩ := reached_split cfg.stack n
  have hh := reached_hides cfg.stack n
  rw [hr] at e hh
  have hP : ∀ (l : List (Frame V)), (∀ j, .shim j ∈ l → j ≠ i) → ∀ fr ∈ l, Passes .plain (some (i, 1)) fr := by
    intro l hl fr hf j ej
    subst ej
    exact Or.inr ⟨_, rfl, fun e => hl j hf e.symm⟩
  have hQ : ∀ (l : List (Frame V)) (nm : List (Nat × Nat)), (∀ j, .shim j ∈ l → j ≠ i) →
      ∀ fr ∈ l, Quiet n .plain (some (i, 1)) nm fr := by
    intro l nm hl fr hf j ej
    subst ej
    exact Or.inr ⟨_, rfl, Or.inl fun e => hl j hf e.symm⟩
  have hd := down_pass cfg (perform (sample cfg f) cfg.handlers) n .plain (some (i, 1)) st (.shim i :: outs ++ rest) ins [] o₀
    (fun fr h => hh fr (by simp [h])) (hP ins hi) (hg.imp id (fun h g hx => h g (by simp [hx])))
  have hs : process cfg (perform (sample cfg f) cfg.handlers) (.shim i) (mk n .plain (some (i, 1)) (given n ins o₀)) st =
      some (mk n .plain (some (i, 1)) ((given n ins o₀).map (cfg.bind n)), { st with naming := (i, n) :: st.naming }) := by
    cases hg : given n ins o₀ <;> simp [process, shimSample, mk, infer, setInfer]
  have hd2 := down_pass cfg (perform (sample cfg f) cfg.handlers) n .plain (some (i, 1)) { st with naming := (i, n) :: st.naming }
    rest outs (.shim i :: (ins.reverse ++ [])) ((given n ins o₀).map (cfg.bind n)) (fun fr h => hh fr (by simp [h]))
    (hP outs ho) (hg.imp (fun h => by simpa using given_isSome n ins o₀ h) (fun h g hx => h g (by simp [hx])))
  obtain ⟨b, bs, hb, hbs⟩ := down_end cfg (perform (sample cfg f) cfg.handlers) (mk n .plain (some (i, 1)) o) rfl
    { st with naming := (i, n) :: st.naming } rest (outs.reverse ++ .shim i :: (ins.reverse ++ [])) he
  rw [hb] at hd2
  rw [List.cons_append, down, hs] at hd
  simp only [show (mk n .plain (some (i, 1)) ((given n ins o₀).map (cfg.bind n))).stop = false from rfl, Bool.false_eq_true,
    if_false] at hd
  rw [hd2] at hd
  rw [sample, e]
  have hm : (⟨n, .plain, o₀, o₀.isSome, ⟨some (i, 1), false⟩, false, false, false⟩ : Msg V) = mk n .plain (some (i, 1)) o₀ := rfl
  simp only [hm]
  rw [List.append_assoc, List.cons_append, hd]
  simp only [default_mk]
  rw [up_blocks cfg _ _ _ bs hbs, up_records cfg _ r.1 rfl _ outs _ rfl (hQ outs _ ho), up]
  simp only [post, shimPost, infer, Bool.false_eq_true, if_false]
  rw [if_neg (by simp)]
  rw [up_records cfg _ w rfl [] ins _ rfl (hQ ins _ hi)]
  rfl

/-- The first message of a site, that is stopped by the innermost shim. -/
theorem sample_first (cfg : Cfg V) (f : Nat) (n : Nat) (o₀ : Option V) (st : St V) (i : Nat) (ins outs : List (Frame V))
    (hr : reached cfg.stack n = ins ++ .shim i :: outs) (hi : ∀ j, .shim j ∉ ins) (hg : Unreplayed n o₀ ins) :
    sample cfg (f + 1) ⟨n, .plain, o₀, ⟨none, false⟩⟩ st =
      perform (sample cfg f) cfg.handlers ⟨n, .plain, given n ins o₀, ⟨some (i, 1), false⟩⟩ st := by
  obtain ⟨rest, e, -⟩ := reached_split cfg.stack n
  have hh := reached_hides cfg.stack n
  rw [hr] at e hh
  have hd := down_pass cfg (perform (sample cfg f) cfg.handlers) n .plain none st (.shim i :: outs ++ rest) ins [] o₀
    (fun fr h => hh fr (by simp [h])) (fun fr hf j ej => absurd (ej ▸ hf) (hi j)) hg
  rw [sample, e]
  have hm : (⟨n, .plain, o₀, o₀.isSome, ⟨none, false⟩, false, false, false⟩ : Msg V) = mk n .plain none o₀ := rfl
  simp only [hm]
  rw [List.append_assoc, hd, List.cons_append, down]
  have hs : process cfg (perform (sample cfg f) cfg.handlers) (.shim i) (mk n .plain none (given n ins o₀)) st =
      match perform (sample cfg f) cfg.handlers ⟨n, .plain, given n ins o₀, ⟨some (i, 1), false⟩⟩ st with
      | none => none
      | some (v, st) => some (⟨n, .plain, some v, true, ⟨some (i, 0), true⟩, false, true, true⟩, st) := by
    generalize given n ins o₀ = g
    cases g <;> simp [process, shimSample, mk, infer, setInfer] <;> rfl
  rw [hs]
  cases perform (sample cfg f) cfg.handlers ⟨n, .plain, given n ins o₀, ⟨some (i, 1), false⟩⟩ st with
  | none => rfl
  | some p =>
    obtain ⟨v, st'⟩ := p
    simp only [if_true]
    have hdef : default cfg (⟨n, .plain, some v, true, ⟨some (i, 0), true⟩, false, true, true⟩ : Msg V) st' =
      (⟨n, .plain, some v, true, ⟨some (i, 0), true⟩, false, true, true⟩, st') := by simp [default]
    simp only [hdef]
    rw [up_hidden cfg _ _ rfl]
    intro fr hf j ej
    subst ej
    exact Or.inr ⟨_, rfl, Or.inr (by simp)⟩

/-! ## Theorems -/

/-- **C96.** A sample site that gets to shims performs `pyro_sample` once, however many shims there are; every trace it gets
to, inside or outside of the shims, has one record of it. The value is what the outermost of the handlers and the observation
give, or else a draw, and the traces outside of the innermost shim have it as it is; the result and the other traces have it
with its names. Only the innermost shim takes notice. -/
theorem C96_once (cfg : Cfg V) (hs : List Nat) (hh : cfg.handlers = hs.map .log) (f : Nat) (n : Nat) (obs : Option V) (st : St V)
    (i : Nat) (ins outs : List (Frame V)) (hr : reached cfg.stack n = ins ++ .shim i :: outs) (hi : ∀ j, .shim j ∉ ins)
    (ho : .shim i ∉ outs) (hg : Unreplayed n obs (reached cfg.stack n)) :
    let o := given n outs ((given n ins obs).map (cfg.bind n))
    let r := outcome cfg n o st.draws
    let w := cfg.unbind n r.1
    sample cfg (f + 2) ⟨n, .plain, obs, ⟨none, false⟩⟩ st =
      some (w, ⟨st.log ++ runs hs n ++ records outs n r.1 o.isSome ++ records ins n w o.isSome, (i, n) :: st.naming, r.2,
        st.guide⟩) := by
  rw [sample_first cfg (f + 1) n obs st i ins outs hr hi (hg.imp id (fun h g hx => h g (by rw [hr]; simp [hx]))),
    hh, perform_logs, sample_second cfg f n _ _ i ins outs hr (fun j h => absurd h (hi j)) (fun j h e => ho (e ▸ h))
      (hg.imp (given_isSome n ins obs) (fun h g hx => h g (by
        rw [hr]
        rcases List.mem_append.1 hx with hx | hx <;> simp [hx]))), given_given]

/-- **C96.** A handler of `pyro_sample` that gives a value decides: nothing is drawn, and no trace has a record. -/
theorem C96_value (cfg : Cfg V) (hs : List Nat) (v : V) (gs : List (Handler V)) (hh : cfg.handlers = hs.map .log ++ .ret v :: gs)
    (f : Nat) (n : Nat) (obs : Option V) (st : St V) (hr : ∃ i, .shim i ∈ reached cfg.stack n)
    (hg : Unreplayed n obs (reached cfg.stack n)) :
    sample cfg (f + 1) ⟨n, .plain, obs, ⟨none, false⟩⟩ st = some (v, { st with log := st.log ++ runs hs n }) := by
  have hsplit : ∀ (l : List (Frame V)), (∃ i, .shim i ∈ l) → ∃ i ins outs, l = ins ++ .shim i :: outs ∧ ∀ j, .shim j ∉ ins := by
    intro l
    induction l with
    | nil => rintro ⟨i, h⟩; cases h
    | cons fr l ih =>
      rintro ⟨i, h⟩
      by_cases hf : ∃ j, fr = .shim j
      · obtain ⟨j, rfl⟩ := hf
        exact ⟨j, [], l, rfl, by simp⟩
      · rcases List.mem_cons.1 h with e | h
        · exact absurd ⟨i, e.symm⟩ hf
        · obtain ⟨j, ins, outs, rfl, h'⟩ := ih ⟨i, h⟩
          refine ⟨j, fr :: ins, outs, rfl, fun k hk => ?_⟩
          rcases List.mem_cons.1 hk with e | hk
          · exact hf ⟨k, e.symm⟩
          · exact h' k hk
  obtain ⟨i, ins, outs, e, hi⟩ := hsplit _ hr
  rw [sample_first cfg f n obs st i ins outs e hi (hg.imp id (fun h g hx => h g (by rw [e]; simp [hx]))), hh]
  have : ∀ (hs : List Nat) (st : St V) (x : Site V), perform (sample cfg f) (hs.map .log ++ .ret v :: gs) x st =
      some (v, { st with log := st.log ++ runs hs x.name }) := by
    intro hs
    induction hs with
    | nil => intro st x; simp [perform, runs]
    | cons h hs ih =>
      intro st x
      simp only [List.map_cons, List.cons_append, perform]
      rw [ih]
      simp [runs]
  rw [this]

/-- **C96.** Sites that do not get to a shim, because there is none or they are hidden, are those of Pyro: `pyro_sample` is not
performed. -/
theorem C96_hidden (cfg : Cfg V) (f : Nat) (n : Nat) (k : Kind) (obs : Option V) (st : St V)
    (hr : ∀ i, .shim i ∉ reached cfg.stack n) (hg : Unreplayed n obs (reached cfg.stack n)) :
    let o := given n (reached cfg.stack n) obs
    let r := outcome cfg n o st.draws
    sample cfg (f + 1) ⟨n, k, obs, ⟨none, false⟩⟩ st =
      some (r.1, { st with log := st.log ++ records (reached cfg.stack n) n r.1 o.isSome, draws := r.2 }) :=
  sample_pass cfg f n k obs none st hg (fun _ hf j e => absurd (e ▸ hf) (hr j)) (fun _ hf j e => absurd (e ▸ hf) (hr j))

/-- **C96.** So are the subsamples of plates, and factors, if their names are not those of sites that the shims have had. -/
theorem C96_other (cfg : Cfg V) (f : Nat) (n : Nat) (k : Kind) (hk : k ≠ .plain) (obs : Option V) (st : St V)
    (hn : k = .subsample ∨ ∀ i, (i, n) ∉ st.naming) (hg : Unreplayed n obs (reached cfg.stack n)) :
    let o := given n (reached cfg.stack n) obs
    let r := outcome cfg n o st.draws
    sample cfg (f + 1) ⟨n, k, obs, ⟨none, false⟩⟩ st =
      some (r.1, { st with log := st.log ++ records (reached cfg.stack n) n r.1 o.isSome, draws := r.2 }) :=
  sample_pass cfg f n k obs none st hg (fun _ _ _ _ => Or.inl hk)
    (fun _ _ j _ => Or.inl ⟨rfl, hn.imp id (fun h => h j)⟩)

theorem given_append (n : Nat) : ∀ (a b : List (Frame V)) (o : Option V), given n (a ++ b) o = given n b (given n a o)
  | [], _, _ => rfl
  | .condition d :: a, b, o => by simp only [List.cons_append, given]; exact given_append n a b _
  | .shim _ :: a, b, o => by simp only [List.cons_append, given]; exact given_append n a b _
  | .trace _ :: a, b, o => by simp only [List.cons_append, given]; exact given_append n a b _
  | .block _ :: a, b, o => by simp only [List.cons_append, given]; exact given_append n a b _
  | .replay _ :: a, b, o => by simp only [List.cons_append, given]; exact given_append n a b _

theorem reached_append (n : Nat) (frs rest : List (Frame V)) (h : ∀ fr ∈ frs, fr.hides n = false) :
    reached (frs ++ rest) n = frs ++ reached rest n := by
  induction frs with
  | nil => rfl
  | cons fr frs ih =>
    have h1 := h fr List.mem_cons_self
    simp only [reached, List.cons_append, List.takeWhile_cons, h1, Bool.not_false, if_true] at ih ⊢
    rw [ih (fun x hx => h x (List.mem_cons_of_mem _ hx))]

/-- **C96.** The handler that gives a value may be inside or outside of the innermost shim: the result is the same, if names
that are bound are given back. -/
theorem C96_commute (cfg cfg' : Cfg V) (hs : List Nat) (hh : cfg.handlers = hs.map .log) (n : Nat) (i : Nat)
    (ins outs : List (Frame V)) (data : Nat → Option V) (x : V) (hx : data n = some x)
    (hc : cfg.stack = ins ++ .condition data :: .shim i :: outs)
    (hc' : cfg' = { cfg with stack := ins ++ .shim i :: .condition data :: outs })
    (hi : ∀ fr ∈ ins, fr.hides n = false ∧ ∀ j, fr ≠ .shim j) (ho : .shim i ∉ outs)
    (hg : ∀ g, .replay g ∈ cfg.stack → g n = none) (hb : cfg.unbind n (cfg.bind n x) = cfg.unbind n x) (hw : ∀ o, given n (reached outs n) o = o) (f : Nat) (obs : Option V)
    (st : St V) :
    ∃ st₁ st₂, sample cfg (f + 2) ⟨n, .plain, obs, ⟨none, false⟩⟩ st = some (cfg.unbind n x, st₁) ∧
      sample cfg' (f + 2) ⟨n, .plain, obs, ⟨none, false⟩⟩ st = some (cfg.unbind n x, st₂) := by
  have hsub : .shim i ∉ reached outs n := fun h => ho ((List.takeWhile_prefix _).subset h)
  have h1 : reached cfg.stack n = (ins ++ [.condition data]) ++ .shim i :: reached outs n := by
    rw [hc, reached_append n ins _ (fun fr h => (hi fr h).1)]
    simp [reached, Frame.hides]
  have h2 : reached cfg'.stack n = ins ++ .shim i :: (.condition data :: reached outs n) := by
    rw [hc', reached_append n ins _ (fun fr h => (hi fr h).1)]
    simp [reached, Frame.hides]
  have hi' : ∀ j, .shim j ∉ ins := fun j h => (hi _ h).2 j rfl
  have r1 := C96_once cfg hs hh f n obs st i _ _ h1 (by simpa using hi') hsub
    (Or.inr fun g h => hg g ((List.takeWhile_prefix _).subset h))
  have r2 := C96_once cfg' hs (by rw [hc']; exact hh) f n obs st i _ _ h2 hi' (by simpa using hsub)
    (Or.inr fun g h => hg g (by
      have := (List.takeWhile_prefix _).subset h
      rw [hc'] at this
      rw [hc]
      simp only [List.mem_append, List.mem_cons] at this ⊢
      rcases this with h | h | h | h
      · exact Or.inl h
      · cases h
      · cases h
      · exact Or.inr (Or.inr (Or.inr h))))
  have e : cfg'.unbind = cfg.unbind := by rw [hc']
  simp only [given_append, given, hx, hw, Option.map_some, outcome, hb, e] at r1 r2
  exact ⟨_, _, r1, r2⟩

/-- **C96, negation.** But a trace outside of the shim has the value with its names bound in one case, and as it was given in
the other. -/
theorem C96_commute_fails (b : V → V) (x : V) (i t : Nat) (f : Nat) (hx : b x ≠ x) :
    let cfg : List (Frame V) → Cfg V := fun s => ⟨s, [], fun _ => b, fun _ => id, fun _ _ => x⟩
    ∃ st₁ st₂ w₁ w₂ v₁ v₂, sample (cfg [.condition (fun _ => some x), .shim i, .trace t]) (f + 2) ⟨0, .plain, none, ⟨none, false⟩⟩ ⟨[], [], 0, fun _ => ⟨none, false⟩⟩
        = some (w₁, st₁) ∧ st₁.log = [.traced t 0 (some v₁) true] ∧
      sample (cfg [.shim i, .condition (fun _ => some x), .trace t]) (f + 2) ⟨0, .plain, none, ⟨none, false⟩⟩ ⟨[], [], 0, fun _ => ⟨none, false⟩⟩
        = some (w₂, st₂) ∧ st₂.log = [.traced t 0 (some v₂) true] ∧ v₁ ≠ v₂ := by
  intro cfg
  refine ⟨_, _, _, _, b x, x, C96_once (cfg _) [] rfl f 0 none _ i [.condition (fun _ => some x)] [.trace t] rfl (by simp) (by simp)
      (Or.inr (by intro g h; simp [reached, cfg, Frame.hides] at h)),
    rfl, C96_once (cfg _) [] rfl f 0 none _ i [] [.condition (fun _ => some x), .trace t] rfl (by simp) (by simp)
      (Or.inr (by intro g h; simp [reached, cfg, Frame.hides] at h)), rfl, hx⟩

/-- **C96, negation.** A call of `pyro_sample` itself under a shim: its handlers run twice. -/
theorem C96_direct_fails (cfg : Cfg V) (hs : List Nat) (hh : cfg.handlers = hs.map .log) (f : Nat) (n : Nat) (obs : Option V)
    (st : St V) (i : Nat) (ins outs : List (Frame V)) (hr : reached cfg.stack n = ins ++ .shim i :: outs)
    (hi : ∀ j, .shim j ∉ ins) (ho : .shim i ∉ outs) (hg : Unreplayed n obs (reached cfg.stack n)) :
    let o := given n outs ((given n ins obs).map (cfg.bind n))
    let r := outcome cfg n o st.draws
    let w := cfg.unbind n r.1
    perform (sample cfg (f + 2)) cfg.handlers ⟨n, .plain, obs, ⟨none, false⟩⟩ st =
      some (w, ⟨st.log ++ runs hs n ++ runs hs n ++ records outs n r.1 o.isSome ++ records ins n w o.isSome,
        (i, n) :: st.naming, r.2, st.guide⟩) := by
  rw [hh, perform_logs]
  exact C96_once cfg hs hh f n obs _ i ins outs hr hi ho hg

/-! ### Guides -/

theorem Idle.quiet {n : Nat} {fr : Frame V} (h : Idle n fr) (m : Nat) (k : Kind) (s : Option (Nat × Nat)) (nm : List (Nat × Nat)) :
    Quiet m k s nm fr := by
  intro i e
  subst e
  exact absurd h (by simp [Idle])

theorem given_idle (n : Nat) (o : Option V) : ∀ (l : List (Frame V)), (∀ fr ∈ l, Idle n fr) → given n l o = o := by
  intro l
  induction l with
  | nil => intro _; rfl
  | cons fr l ih =>
    intro h
    have h1 := h fr List.mem_cons_self
    have h2 := ih (fun x hx => h x (List.mem_cons_of_mem _ hx))
    cases fr with
    | condition d => simp only [Idle] at h1; simp only [given, h1]; exact h2
    | shim _ => exact h2
    | trace _ => exact h2
    | block _ => exact h2
    | replay _ => exact h2

/-- The second message of a site that is replayed outside of the shim. -/
theorem sample_replay (cfg : Cfg V) (f : Nat) (n : Nat) (st : St V) (i : Nat) (ins a b : List (Frame V)) (g : Nat → Option V)
    (v : V) (hv : g n = some v) (hr : reached cfg.stack n = ins ++ .shim i :: (a ++ .replay g :: b))
    (hi : ∀ fr ∈ ins, Idle n fr) (ha : ∀ fr ∈ a, Idle n fr) (hb : ∀ fr ∈ b, Idle n fr) (hg : (st.guide n).hidden = false) :
    ∃ m st', m.name = n ∧ m.kind = .plain ∧ m.value = some v ∧ m.observed = false ∧ m.alias = true ∧
      st' = { st with log := st.log ++ records b n v false ++ records a n v false, naming := (i, n) :: st.naming } ∧
      sample cfg (f + 1) ⟨n, .plain, none, ⟨some (i, 1), false⟩⟩ st =
        match (up cfg ins.reverse (shimPost cfg i m st').1 (shimPost cfg i m st').2).1.value with
        | none => none
        | some w => some (w, (up cfg ins.reverse (shimPost cfg i m st').1 (shimPost cfg i m st').2).2) := by
  obtain ⟨rest, e, he⟩ := reached_split cfg.stack n
  rw [hr] at e
  let perf := perform (sample cfg f) cfg.handlers
  let m₁ : Msg V := mk n .plain (some (i, 1)) none
  let m₂ : Msg V := { m₁ with value := some v, done := true, alias := true }
  let st₁ : St V := { st with naming := (i, n) :: st.naming }
  have h1 := down_idle cfg perf m₁ rfl st (.shim i :: (a ++ .replay g :: b) ++ rest) ins [] hi
  have hs : process cfg perf (.shim i) m₁ st = some (m₁, st₁) := by
    simp [process, shimSample, m₁, st₁, mk, infer, setInfer]
  have h2 := down_idle cfg perf m₁ rfl st₁ (.replay g :: (b ++ rest)) a (.shim i :: (ins.reverse ++ [])) ha
  have hs2 : process cfg perf (.replay g) m₁ st₁ = some (m₂, st₁) := by
    simp [process, m₁, m₂, mk, hv]
  have h3 := down_idle cfg perf m₂ rfl st₁ rest b (.replay g :: (a.reverse ++ .shim i :: (ins.reverse ++ []))) hb
  obtain ⟨c, bs, hc, hbs⟩ := down_end cfg perf m₂ rfl st₁ rest
    (b.reverse ++ .replay g :: (a.reverse ++ .shim i :: (ins.reverse ++ []))) he
  have hdown : down cfg perf cfg.stack [] m₁ st = some ({ m₂ with stop := c },
      bs ++ (b.reverse ++ .replay g :: (a.reverse ++ .shim i :: (ins.reverse ++ []))), st₁) := by
    rw [e, List.append_assoc, h1, List.cons_append, down, hs]
    simp only [show m₁.stop = false from rfl, Bool.false_eq_true, if_false]
    rw [List.append_assoc, List.cons_append, h2, down, hs2]
    simp only [show m₂.stop = false from rfl, Bool.false_eq_true, if_false]
    rw [h3, hc]
  let m₃ : Msg V := { m₂ with stop := c }
  have hdef : default cfg m₃ st₁ = (m₃, st₁) := by simp [default, m₃, m₂]
  have hup : up cfg (bs ++ (b.reverse ++ .replay g :: (a.reverse ++ .shim i :: (ins.reverse ++ [])))) m₃ st₁ =
      up cfg (.shim i :: (ins.reverse ++ [])) m₃ { st₁ with log := st₁.log ++ records b n v false ++ records a n v false } := by
    rw [up_blocks cfg _ _ _ bs hbs, up_records cfg m₃ v rfl _ b st₁ hg (fun fr h => (hb fr h).quiet _ _ _ _), up]
    simp only [post]
    exact up_records cfg m₃ v rfl _ a { st₁ with log := st₁.log ++ records b n v false } hg
      (fun fr h => (ha fr h).quiet _ _ _ _)
  refine ⟨m₃, _, rfl, rfl, rfl, rfl, rfl, rfl, ?_⟩
  rw [sample]
  have hm : (⟨n, .plain, none, (none : Option V).isSome, ⟨some (i, 1), false⟩, false, false, false⟩ : Msg V) = m₁ := rfl
  simp only [hm]
  rw [show down cfg (perform (sample cfg f) cfg.handlers) cfg.stack [] m₁ st = _ from hdown]
  simp only
  rw [show default cfg { m₂ with stop := c } st₁ = _ from hdef]
  simp only
  rw [show up cfg _ m₃ st₁ = _ from hup, up]
  simp only [post, List.append_nil]
  rfl

/-- **C96.** A site that is replayed from the trace of a guide, outside of the innermost shim: `pyro_sample` is performed once and
nothing is drawn; the result is the value of the guide with its names, if no other shim has had the site of the guide. -/
theorem C96_replay (cfg : Cfg V) (hs : List Nat) (hh : cfg.handlers = hs.map .log) (f : Nat) (n : Nat) (st : St V) (i : Nat)
    (ins a b : List (Frame V)) (g : Nat → Option V) (v : V) (hv : g n = some v)
    (hr : reached cfg.stack n = ins ++ .shim i :: (a ++ .replay g :: b)) (hi : ∀ fr ∈ ins, Idle n fr) (ha : ∀ fr ∈ a, Idle n fr)
    (hb : ∀ fr ∈ b, Idle n fr) (hg : st.guide n = ⟨none, false⟩ ∨ st.guide n = ⟨some (i, 1), false⟩) :
    ∃ st', sample cfg (f + 2) ⟨n, .plain, none, ⟨none, false⟩⟩ st = some (cfg.unbind n v, st') ∧
      st'.log = st.log ++ runs hs n ++ records b n v false ++ records a n v false ++ records ins n (cfg.unbind n v) false ∧
      st'.draws = st.draws ∧ st'.guide n = ⟨some (i, 1), false⟩ ∧ ∀ k, k ≠ n → st'.guide k = st.guide k := by
  rw [sample_first cfg (f + 1) n none st i ins _ hr (fun j h => absurd (hi _ h) (by simp [Idle]))
    (Or.inr fun g' h => by simpa [Idle] using hi _ h), hh, perform_logs, given_idle n none ins hi]
  have hgh : (st.guide n).hidden = false := by rcases hg with h | h <;> rw [h]
  obtain ⟨m, st', e1, e2, e3, e4, e5, e6, e7⟩ := sample_replay cfg f n { st with log := st.log ++ runs hs n } i ins a b g v hv hr hi
    ha hb hgh
  have hinf : infer m st' = st.guide n := by simp [infer, e5, e6, e1]
  have hq : ∀ (m' : Msg V) (st'' : St V), ∀ fr ∈ ins, Quiet m'.name m'.kind (infer m' st'').status st''.naming fr :=
    fun m' st'' fr h => (hi fr h).quiet _ _ _ _
  rw [e7]
  rcases hg with hg | hg
  · have hp : shimPost cfg i m st' = ({ m with value := some (cfg.unbind n v) },
        { st' with guide := fun k => if k = n then ⟨some (i, 1), false⟩ else st'.guide k }) := by
      simp only [shimPost, hinf, hg]
      rw [if_neg (by simp [e1, e2, e6])]
      simp [setInfer, e1, e3, e5]
    rw [hp]
    simp only
    have := up_records cfg { m with value := some (cfg.unbind n v) } (cfg.unbind n v) rfl [] ins
      { st' with guide := fun k => if k = n then ⟨some (i, 1), false⟩ else st'.guide k } (by simp [infer, e5, e1])
      (fun fr h => (hi fr h).quiet _ _ _ _)
    rw [List.append_nil] at this
    rw [this]
    refine ⟨_, rfl, ?_, ?_, ?_, ?_⟩
    · simp [up, e6, e1, e4]
    · simp [up, e6]
    · simp [up]
    · intro k hk
      simp [up, hk, e6]
  · have hp : shimPost cfg i m st' = ({ m with value := some (cfg.unbind n v) }, st') := by
      simp only [shimPost, hinf, hg]
      rw [if_neg (by simp)]
      simp [e1, e3]
    rw [hp]
    simp only
    have := up_records cfg { m with value := some (cfg.unbind n v) } (cfg.unbind n v) rfl [] ins st'
      (by simp [infer, e5, e1, e6, hg]) (fun fr h => (hi fr h).quiet _ _ _ _)
    rw [List.append_nil] at this
    rw [this]
    refine ⟨_, rfl, ?_, ?_, ?_, ?_⟩
    · simp [up, e6, e1, e4]
    · simp [up, e6]
    · simp [up, e6, hg]
    · intro k hk
      simp [up, e6]


/-- **C96, negation.** If the trace of the guide is of another shim, or has been replayed under another shim, the names are not
given back: the result is the value of the guide as it is. -/
theorem C96_replay_fails (cfg : Cfg V) (hs : List Nat) (hh : cfg.handlers = hs.map .log) (f : Nat) (n : Nat) (st : St V)
    (i j : Nat) (hj : j ≠ i) (ins a b : List (Frame V)) (g : Nat → Option V) (v : V) (hv : g n = some v)
    (hr : reached cfg.stack n = ins ++ .shim i :: (a ++ .replay g :: b)) (hi : ∀ fr ∈ ins, Idle n fr) (ha : ∀ fr ∈ a, Idle n fr)
    (hb : ∀ fr ∈ b, Idle n fr) (hg : st.guide n = ⟨some (j, 1), false⟩) :
    ∃ st', sample cfg (f + 2) ⟨n, .plain, none, ⟨none, false⟩⟩ st = some (v, st') := by
  rw [sample_first cfg (f + 1) n none st i ins _ hr (fun j h => absurd (hi _ h) (by simp [Idle]))
    (Or.inr fun g' h => by simpa [Idle] using hi _ h), hh, perform_logs, given_idle n none ins hi]
  obtain ⟨m, st', e1, e2, e3, e4, e5, e6, e7⟩ := sample_replay cfg f n { st with log := st.log ++ runs hs n } i ins a b g v hv hr hi
    ha hb (by rw [show (_ : St V).guide n = _ from hg])
  have hinf : infer m st' = ⟨some (j, 1), false⟩ := by simp [infer, e5, e6, e1, hg]
  have hp : shimPost cfg i m st' = (m, st') := by
    simp only [shimPost, hinf]
    rw [if_pos (Or.inl hj)]
  rw [e7, hp]
  have := up_records cfg m v e3 [] ins st' (by rw [hinf]) (fun fr h => (hi fr h).quiet _ _ _ _)
  rw [List.append_nil] at this
  simp only [this, up, e3]
  exact ⟨_, rfl⟩

/-- **C96, negation.** Two runs of a model under `pyro_module_shim`, which makes a shim for each run, with one trace of a guide:
the first result has its names and the second does not. -/
theorem C96_module_fails (g : Nat → Option V) (n : Nat) (v : V) (hv : g n = some v) (i j : Nat) (hij : i ≠ j) (f : Nat)
    (bind unbind : Nat → V → V) (draw : Nat → Nat → V) (st : St V) (hg : st.guide n = ⟨none, false⟩) :
    ∃ st₁ st₂, sample ⟨[.shim i, .replay g], [], bind, unbind, draw⟩ (f + 2) ⟨n, .plain, none, ⟨none, false⟩⟩ st =
        some (unbind n v, st₁) ∧
      sample ⟨[.shim j, .replay g], [], bind, unbind, draw⟩ (f + 2) ⟨n, .plain, none, ⟨none, false⟩⟩ st₁ = some (v, st₂) := by
  obtain ⟨st₁, h1, -, -, h2, -⟩ := C96_replay ⟨[.shim i, .replay g], [], bind, unbind, draw⟩ [] rfl f n st i [] [] [] g v hv rfl
    (by simp) (by simp) (by simp) (Or.inl hg)
  obtain ⟨st₂, h3⟩ := C96_replay_fails ⟨[.shim j, .replay g], [], bind, unbind, draw⟩ [] rfl f n st₁ j i hij [] [] [] g v hv rfl
    (by simp) (by simp) (by simp) h2
  exact ⟨st₁, st₂, h1, h3⟩

/-- **C96, negation.** A site that is replayed inside of the shim: the calls never end. -/
theorem C96_replay_inside_fails (cfg : Cfg V) (hs : List Nat) (hh : cfg.handlers = hs.map .log) (n : Nat) (i : Nat)
    (ins a outs : List (Frame V)) (g : Nat → Option V) (v : V) (hv : g n = some v)
    (hr : cfg.stack = ins ++ .replay g :: (a ++ .shim i :: outs)) (hi : ∀ fr ∈ ins, Idle n fr) (ha : ∀ fr ∈ a, Idle n fr) :
    ∀ (f : Nat) (x : Info) (st : St V), (st.guide n).status = none ∨ (st.guide n).status = some (i, 0) →
      sample cfg f ⟨n, .plain, none, x⟩ st = none
  | 0, _, _, _ => rfl
  | f + 1, x, st, hg => by
    let perf := perform (sample cfg f) cfg.handlers
    let m₁ : Msg V := ⟨n, .plain, none, false, x, false, false, false⟩
    let m₂ : Msg V := { m₁ with value := some v, done := true, alias := true }
    have h1 := down_idle cfg perf m₁ rfl st (.replay g :: (a ++ .shim i :: outs)) ins [] hi
    have hs1 : process cfg perf (.replay g) m₁ st = some (m₂, st) := by simp [process, m₁, m₂, hv]
    have h2 := down_idle cfg perf m₂ rfl st (.shim i :: outs) a (.replay g :: (ins.reverse ++ [])) ha
    have hs2 : process cfg perf (.shim i) m₂ st = none := by
      have e : (infer m₂ st).status.getD (i, 0) = (i, 0) := by
        rcases hg with h | h <;> simp [infer, m₂, m₁, h]
      have hp : ∀ x st', st'.guide n = ⟨some (i, 0), (st.guide n).hidden⟩ → perf ⟨n, .plain, none, x⟩ st' = none := by
        intro x st' hg'
        simp only [perf]
        rw [hh, perform_logs]
        exact C96_replay_inside_fails cfg hs hh n i ins a outs g v hv hr hi ha f x _ (Or.inr (by rw [hg']))
      simp only [process, shimSample, e]
      simp only [m₂, m₁, setInfer, infer, if_true, ne_eq, not_true_eq_false, if_false, Bool.false_eq_true]
      rw [if_neg (by decide), hp]
      simp
    rw [sample]
    have hm : (⟨n, .plain, none, (none : Option V).isSome, x, false, false, false⟩ : Msg V) = m₁ := rfl
    simp only [hm]
    have : down cfg (perform (sample cfg f) cfg.handlers) cfg.stack [] m₁ st = none := by
      rw [hr, show down cfg (perform (sample cfg f) cfg.handlers) _ [] m₁ st = _ from h1, down,
        show process cfg (perform (sample cfg f) cfg.handlers) _ m₁ st = _ from hs1]
      simp only [show m₂.stop = false from rfl, Bool.false_eq_true, if_false]
      rw [show down cfg (perform (sample cfg f) cfg.handlers) _ _ m₂ st = _ from h2, down,
        show process cfg (perform (sample cfg f) cfg.handlers) _ m₂ st = _ from hs2]
    rw [this]

/-! ## Examples -/

def noGuide : Nat → Info := fun _ => ⟨none, false⟩

/-- Two shims, a trace inside, one between them and one outside, a block around that; one handler of `pyro_sample`. Values are
pairs of a number and whether it has its names. -/
def exCfg : Cfg (Nat × Bool) :=
  ⟨[.trace 0, .shim 10, .trace 1, .shim 11, .trace 2, .block (· == 5), .trace 3], [.log 7], fun _ v => (v.1, false),
    fun _ v => (v.1, true), fun n k => (100 * n + k, false)⟩

/-- The hypotheses of `C96_once` are met. -/
example : reached exCfg.stack 5 = [.trace 0] ++ .shim 10 :: [.trace 1, .shim 11, .trace 2] := rfl

example : sample exCfg 2 ⟨5, .plain, none, ⟨none, false⟩⟩ ⟨[], [], 3, noGuide⟩ =
    some ((503, true), ⟨[.handled 7 5, .traced 2 5 (some (503, false)) false, .traced 1 5 (some (503, false)) false,
      .traced 0 5 (some (503, true)) false], [(10, 5)], 4, noGuide⟩) := rfl

/-- An observation. -/
example : (sample exCfg 2 ⟨6, .plain, some (1, true), ⟨none, false⟩⟩ ⟨[], [], 3, noGuide⟩).map (·.2.log) =
    some [.handled 7 6, .traced 3 6 (some (1, false)) true, .traced 2 6 (some (1, false)) true,
      .traced 1 6 (some (1, false)) true, .traced 0 6 (some (1, true)) true] := rfl

/-- The subsample of a plate. -/
example : sample exCfg 1 ⟨5, .subsample, none, ⟨none, false⟩⟩ ⟨[], [(10, 5)], 3, noGuide⟩ =
    some ((503, false), ⟨[.traced 2 5 (some (503, false)) false, .traced 1 5 (some (503, false)) false,
      .traced 0 5 (some (503, false)) false], [(10, 5)], 4, noGuide⟩) := rfl

/-- A call of `pyro_sample`. -/
example : (perform (sample exCfg 2) exCfg.handlers ⟨5, .plain, none, ⟨none, false⟩⟩ ⟨[], [], 3, noGuide⟩).map (·.2.log.take 3) =
    some [.handled 7 5, .handled 7 5, .traced 2 5 (some (503, false)) false] := rfl

/-- A shim inside of a replay, twice with the same trace, then with another shim. -/
def exReplay (i : Nat) : Cfg (Nat × Bool) :=
  { exCfg with stack := [.trace 0, .shim i, .replay fun n => if n = 5 then some (9, false) else none, .trace 1] }

example : (sample (exReplay 10) 2 ⟨5, .plain, none, ⟨none, false⟩⟩ ⟨[], [], 3, noGuide⟩).map (fun r => (r.1, r.2.log, r.2.draws)) =
    some ((9, true), [.handled 7 5, .traced 1 5 (some (9, false)) false, .traced 0 5 (some (9, true)) false], 3) := rfl

example : ((sample (exReplay 10) 2 ⟨5, .plain, none, ⟨none, false⟩⟩ ⟨[], [], 3, noGuide⟩).bind fun r =>
    sample (exReplay 10) 2 ⟨5, .plain, none, ⟨none, false⟩⟩ r.2).map (·.1) = some (9, true) := rfl

example : ((sample (exReplay 10) 2 ⟨5, .plain, none, ⟨none, false⟩⟩ ⟨[], [], 3, noGuide⟩).bind fun r =>
    sample (exReplay 11) 2 ⟨5, .plain, none, ⟨none, false⟩⟩ r.2).map (·.1) = some (9, false) := rfl

/-- Sites that are not replayed are drawn. -/
example : (sample (exReplay 10) 2 ⟨6, .plain, none, ⟨none, false⟩⟩ ⟨[], [], 3, noGuide⟩).map (·.1) = some (603, true) := rfl

end Verif.Indexed.ShimSites
