/-!
# C81: the lexical context of a template

Model of the walk over frames in `Template.define` (`handlers/llm/template.py` 268-311), which finds the variables that a prompt
and its tools may refer to.

For a static method `define` calls itself from `Operation._define_staticmethod`, and for a class method it is called, when the
attribute is first read, from `_ClassMethodOpDescriptor.__get__` (`ops/types.py` 54-61, 322-330).

Simplifications: names of variables have values at the time of the definition; that the context is a view of later values as well
is left out. Names of functions and classes are not `<locals>`.
-/

namespace Verif.Llm.Capture

abbrev Env := List (String × Nat)

/-- A frame of the stack. -/
structure Frame where
  /-- `f_code.co_name`. -/
  name : String
  /-- `f_locals is f_globals`. -/
  module : Bool
  /-- The parts of `f_locals.get("__qualname__")`: bodies of classes have it. -/
  qualname : Option (List String)
  /-- `f_locals`. -/
  vars : Env
  /-- `f_globals`. -/
  globals : Env
  /-- Of functions: the variables of the enclosing calls, innermost first. The code has no access to this. -/
  closure : List Env

/-- Frames of bodies of classes are skipped (275-281). -/
def skipClasses (st : List Frame) : List Frame :=
  match st with
  | [] => []
  | f :: rest =>
    match f.qualname with
    | none => f :: rest
    | some parts => (f :: rest).drop (parts.reverse.takeWhile (fun x => x != "<locals>")).length

/-- Names of the enclosing functions in a qualified name, outermost first (291-294; reversed in `define`, 295). -/
def enclosing : List String → List String
  | a :: b :: r => if b = "<locals>" then a :: enclosing (b :: r) else enclosing (b :: r)
  | _ => []

/-- The inner loop (302-307): the first frame with the name before the frame of a module, and the frames after it. -/
def search (n : String) : List Frame → Option Env × List Frame
  | [] => (none, [])
  | f :: rest =>
    if f.module then (none, f :: rest)
    else if f.name = n then (some f.vars, rest)
    else search n rest

/-- The outer loop (301-307). -/
def walk : List String → List Frame → List Env
  | [], _ => []
  | n :: ns, st =>
    match search n st with
    | (some e, st') => e :: walk ns st'
    | (none, st') => walk ns st'

/-- `define` (268-311) for a function with the given parts of its qualified name, when called from the top of the stack: the maps
of the context. `none` for a failed assertion. -/
def define (st : List Frame) (parts : List String) : Option (List Env) :=
  match skipClasses st with
  | [] => none
  | f :: rest => some (walk (enclosing parts).reverse (f :: rest) ++ [f.globals])

/-- `define` when it is called through the frames `ms` of the library (of `ops/types.py`, then `functools` and `template.py`). -/
def defineThrough (ms st : List Frame) (parts : List String) : Option (List Env) := define (ms ++ st) parts

/-- Names are looked up in the maps in turn. -/
def lookup (n : String) : List Env → Option Nat
  | [] => none
  | e :: es =>
    match e.lookup n with
    | some v => some v
    | none => lookup n es

/-! ## Specification -/

/-- A class or function in the text of a program. -/
structure Scope where
  fn : Bool
  name : String

/-- What qualified names of definitions in a scope begin with. Scopes are innermost first. -/
def prefixOf : List Scope → List String
  | [] => []
  | s :: p => prefixOf p ++ s.name :: if s.fn then ["<locals>"] else []

/-- Qualified names, as Python gives them. -/
def qualOf (p : List Scope) (n : String) : List String := prefixOf p ++ [n]

/-- The variables in scope in a place of the text, when its code runs at the top of the stack: those of the function around it
and of the calls of functions around that. Bodies of classes have no variables for functions in them. -/
def scopeOf : List Scope → List Frame → List Env
  | [], _ => []
  | s :: p, f :: st => if s.fn then f.vars :: f.closure else scopeOf p st
  | _ :: _, [] => []

/-- The code of a place runs at the top of the stack: bodies of classes are run by what is around them, functions by any callers. -/
inductive Runs (G : Env) : List Scope → List Frame → Prop
  | module {f st} : f.module = true → f.qualname = none → f.globals = G → Runs G [] (f :: st)
  | cls {n p f st} : Runs G p st → f.name = n → f.module = false → f.qualname = some (qualOf p n) → f.globals = G →
      Runs G (⟨false, n⟩ :: p) (f :: st)
  | fn {n p f st} : f.name = n → f.module = false → f.qualname = none → f.globals = G → Runs G (⟨true, n⟩ :: p) (f :: st)

/-- Calls of the functions around a place are on the stack, and the names between them are different. -/
inductive Live : List Scope → List Frame → Prop
  | module {st} : Live [] st
  | cls {n p f st} : Live p st → Live (⟨false, n⟩ :: p) (f :: st)
  /-- No function around this one. -/
  | last {n p f st} : (∀ s ∈ p, s.fn = false) → f.closure = [] → Live (⟨true, n⟩ :: p) (f :: st)
  | next {n m f g cs p between st} : (∀ s ∈ cs, s.fn = false) → (∀ h ∈ between, h.module = false ∧ h.name ≠ m) →
      g.name = m → g.module = false → f.closure = g.vars :: g.closure → Live (⟨true, m⟩ :: p) (g :: st) →
      Live (⟨true, n⟩ :: (cs ++ ⟨true, m⟩ :: p)) (f :: (between ++ g :: st))

/-! ## Proofs -/

/-- Names of the functions among scopes. -/
def fns (p : List Scope) : List String := (p.filter (·.fn)).map (·.name)

theorem enclosing_split (a : String) (r : List String) : ∀ l : List String,
    enclosing (l ++ a :: r) = enclosing (l ++ [a]) ++ enclosing (a :: r)
  | [] => by simp [enclosing]
  | [b] => by
    simp only [List.cons_append, List.nil_append, enclosing]
    split <;> simp
  | b :: c :: l => by
    have ih := enclosing_split a r (c :: l)
    simp only [List.cons_append, enclosing] at ih ⊢
    rw [ih]
    split <;> simp

theorem enclosing_qual (n : String) (hn : n ≠ "<locals>") : ∀ (p : List Scope), (∀ s ∈ p, s.name ≠ "<locals>") →
    enclosing (qualOf p n) = (fns p).reverse := by
  intro p
  induction p generalizing n with
  | nil => intro _; rfl
  | cons s p ih =>
    intro hp
    have hs := hp s (List.mem_cons_self ..)
    have hp' : ∀ s ∈ p, s.name ≠ "<locals>" := fun t ht => hp t (List.mem_cons_of_mem _ ht)
    have e : qualOf (s :: p) n = prefixOf p ++ s.name :: ((if s.fn then ["<locals>"] else []) ++ [n]) := by
      rw [qualOf, prefixOf, List.append_assoc, List.cons_append]
    rw [e, enclosing_split]
    rw [show prefixOf p ++ [s.name] = qualOf p s.name from rfl, ih s.name hs hp']
    cases hf : s.fn with
    | true => simp [enclosing, fns, hf, hn]
    | false => simp [enclosing, fns, hf, hn]

/-- Classes before the first function. -/
def classes (p : List Scope) : Nat := (p.takeWhile (fun s => !s.fn)).length

theorem takeWhile_prefix : ∀ (p : List Scope), (∀ s ∈ p, s.name ≠ "<locals>") →
    ((prefixOf p).reverse.takeWhile (fun x => x != "<locals>")).length = classes p := by
  intro p
  induction p with
  | nil => intro _; rfl
  | cons s p ih =>
    intro hp
    have hs : s.name ≠ "<locals>" := hp s (List.mem_cons_self ..)
    have ih := ih fun t ht => hp t (List.mem_cons_of_mem _ ht)
    rw [prefixOf, classes]
    cases hf : s.fn with
    | true => simp [hf]
    | false =>
      simp only [Bool.false_eq_true, if_false, List.reverse_append, List.reverse_cons, List.reverse_nil, List.nil_append,
        List.cons_append, bne_iff_ne.mpr hs, List.takeWhile_cons, if_true, List.length_cons, hf, Bool.not_false]
      rw [ih, classes]

theorem takeWhile_qual {p : List Scope} {n : String} (hn : n ≠ "<locals>") (hp : ∀ s ∈ p, s.name ≠ "<locals>") :
    ((qualOf p n).reverse.takeWhile (fun x => x != "<locals>")).length = classes p + 1 := by
  rw [qualOf, List.reverse_append]
  simp only [List.reverse_cons, List.reverse_nil, List.nil_append, List.cons_append, List.takeWhile_cons, bne_iff_ne.mpr hn,
    if_true, List.length_cons, takeWhile_prefix p hp]

/-- Without classes at the top of the path there is no class at the top of the stack. -/
theorem runs_skip {G : Env} {p : List Scope} {st : List Frame} (h : Runs G p st) (hp : ∀ s ∈ p, s.name ≠ "<locals>") :
    skipClasses st = st.drop (classes p) ∧ ∃ f rest, st.drop (classes p) = f :: rest ∧ f.globals = G := by
  have hdrop : ∀ {p st}, Runs G p st → ∃ f rest, st.drop (classes p) = f :: rest ∧ f.globals = G := by
    intro p st h
    induction h with
    | module _ _ hg => exact ⟨_, _, rfl, hg⟩
    | cls _ _ _ _ _ ih => exact ih
    | fn _ _ _ hg => exact ⟨_, _, rfl, hg⟩
  refine ⟨?_, hdrop h⟩
  cases h with
  | module _ hq _ => simp [skipClasses, hq, classes]
  | @cls n p f st _ _ _ hq _ =>
    simp only [skipClasses, hq]
    rw [takeWhile_qual (hp _ (List.mem_cons_self ..)) fun s hs => hp s (List.mem_cons_of_mem _ hs)]
    rfl
  | fn _ _ hq _ => simp [skipClasses, hq, classes]

theorem fns_classes {p : List Scope} (h : ∀ s ∈ p, s.fn = false) : fns p = [] := by
  rw [fns, List.filter_eq_nil_iff.mpr (fun s hs => by rw [h s hs]; exact Bool.false_ne_true)]
  rfl

theorem search_between {m : String} {g : Frame} {st : List Frame} (hg : g.name = m) (hm : g.module = false) :
    ∀ (between : List Frame), (∀ h ∈ between, h.module = false ∧ h.name ≠ m) →
      search m (between ++ g :: st) = (some g.vars, st)
  | [], _ => by rw [List.nil_append, search, hm, if_neg Bool.false_ne_true, if_pos hg]
  | h :: between, hb => by
    obtain ⟨h1, h2⟩ := hb h (List.mem_cons_self ..)
    rw [List.cons_append, search, h1, if_neg Bool.false_ne_true, if_neg h2]
    exact search_between hg hm between fun k hk => hb k (List.mem_cons_of_mem _ hk)

/-- From the call of a function the walk finds its variables and those of the calls around it. -/
theorem walk_live {p : List Scope} {st : List Frame} (h : Live p st) : ∀ s p', p = s :: p' → s.fn = true →
    ∀ f rest, st = f :: rest → walk (fns p') rest = f.closure := by
  induction h with
  | module => intro s p' e; cases e
  | cls _ _ => intro s p' e hs; cases e; cases hs
  | last hc hcl =>
    intro s p' e _ f rest e'
    cases e
    cases e'
    rw [fns_classes hc, hcl]
    rfl
  | @next n m f g cs p between st hc hb hg hm hcl _ ih =>
    intro s p' e _ f' rest e'
    cases e
    cases e'
    have hf : fns (cs ++ ⟨true, m⟩ :: p) = m :: fns p := by
      rw [fns, List.filter_append, List.map_append, ← fns, fns_classes hc]
      rfl
    rw [hf, walk, search_between hg hm between hb]
    show g.vars :: walk (fns p) st = f.closure
    rw [ih ⟨true, m⟩ p rfl rfl g st rfl, hcl]

theorem walk_scope {G : Env} {p : List Scope} {st : List Frame} (h : Runs G p st) (hl : Live p st) :
    walk (fns p) (st.drop (classes p)) = scopeOf p st := by
  induction h with
  | module _ _ _ => rfl
  | @cls n p f st _ _ _ _ _ ih =>
    cases hl with
    | cls hl => exact ih hl
  | @fn n p f st hn hm _ _ =>
    show walk (n :: fns p) (f :: st) = f.vars :: f.closure
    rw [walk, show f :: st = [] ++ f :: st from rfl, search_between hn hm [] (fun h hh => nomatch hh)]
    exact congrArg _ (walk_live hl _ p rfl rfl f st rfl)

/-- Walking over further frames, and over bodies of classes, does not matter if they have other names. -/
theorem walk_further {G : Env} {p : List Scope} {st : List Frame} (h : Runs G p st) (hl : Live p st) : ∀ (ms : List Frame),
    (∀ m, (fns p).head? = some m → (∀ h ∈ ms, h.module = false ∧ h.name ≠ m) ∧ ∀ s ∈ p.takeWhile (fun s => !s.fn), s.name ≠ m) →
    walk (fns p) (ms ++ st) = scopeOf p st := by
  induction h with
  | module _ _ _ => intro ms _; rfl
  | @cls n p f st _ hn hm _ _ ih =>
    intro ms hms
    cases hl with
    | cls hl =>
      have := ih hl (ms ++ [f]) (fun m hh => by
        obtain ⟨h1, h2⟩ := hms m hh
        have h2' : ∀ s ∈ ⟨false, n⟩ :: p.takeWhile (fun s => !s.fn), s.name ≠ m := h2
        refine ⟨fun h hm' => ?_, fun s hs => h2' s (List.mem_cons_of_mem _ hs)⟩
        rcases List.mem_append.mp hm' with hm' | hm'
        · exact h1 h hm'
        · cases hm' with
          | head => exact ⟨hm, hn ▸ h2' _ (List.mem_cons_self ..)⟩
          | tail _ hm' => cases hm')
      rw [List.append_assoc] at this
      exact this
  | @fn n p f st hn hm _ _ =>
    intro ms hms
    show walk (n :: fns p) (ms ++ f :: st) = f.vars :: f.closure
    rw [walk, search_between hn hm ms (hms n rfl).1]
    exact congrArg _ (walk_live hl _ p rfl rfl f st rfl)

theorem skip_through {k : Frame} (ms st : List Frame) (hk : k.qualname = none) : skipClasses (k :: ms ++ st) = k :: (ms ++ st) := by
  rw [List.cons_append, skipClasses, hk]

/-! ## Theorems -/

/-- If the calls of the functions around a template are on the stack, and no other calls between them have the same names, then
the context has the variables in scope, the innermost first, and then the variables of the module. -/
theorem C81_context_partial {G : Env} {p : List Scope} {st : List Frame} (h : Runs G p st) (hl : Live p st) (n : String)
    (hn : n ≠ "<locals>") (hp : ∀ s ∈ p, s.name ≠ "<locals>") : define st (qualOf p n) = some (scopeOf p st ++ [G]) := by
  obtain ⟨h1, f, rest, h2, h3⟩ := runs_skip h hp
  rw [define, h1, enclosing_qual n hn p hp, List.reverse_reverse, h2]
  show some (walk (fns p) (f :: rest) ++ [f.globals]) = _
  rw [← h2, walk_scope h hl, h3]

/-- Outside of functions nothing is asked of the stack. -/
theorem C81_module {G : Env} {p : List Scope} {st : List Frame} (h : Runs G p st) (hc : ∀ s ∈ p, s.fn = false) (n : String)
    (hn : n ≠ "<locals>") (hp : ∀ s ∈ p, s.name ≠ "<locals>") : define st (qualOf p n) = some [G] := by
  have hs : Live p st ∧ scopeOf p st = [] := by
    induction h with
    | module _ _ _ => exact ⟨.module, rfl⟩
    | cls _ _ _ _ _ ih =>
      have := ih (fun s hs => hc s (List.mem_cons_of_mem _ hs)) (fun s hs => hp s (List.mem_cons_of_mem _ hs))
      exact ⟨.cls this.1, this.2⟩
    | fn _ _ _ _ => exact absurd (hc _ (List.mem_cons_self ..)) (fun h => nomatch h)
  rw [C81_context_partial h hs.1 n hn hp, hs.2]
  rfl

/-- In a function that is not in another nothing is asked of its callers. -/
theorem C81_function {G : Env} {p q : List Scope} {m : String} {f : Frame} {st st' : List Frame}
    (hq : ∀ s ∈ q, s.fn = false) (hc : ∀ s ∈ p, s.fn = false) (h : Runs G (q ++ ⟨true, m⟩ :: p) (st' ++ f :: st))
    (hl : st'.length = q.length) (hf : f.closure = []) (n : String) (hn : n ≠ "<locals>")
    (hp : ∀ s ∈ q ++ ⟨true, m⟩ :: p, s.name ≠ "<locals>") :
    define (st' ++ f :: st) (qualOf (q ++ ⟨true, m⟩ :: p) n) = some [f.vars, G] := by
  have hs : ∀ (q : List Scope) (st' : List Frame), (∀ s ∈ q, s.fn = false) → st'.length = q.length →
      Live (q ++ ⟨true, m⟩ :: p) (st' ++ f :: st) ∧ scopeOf (q ++ ⟨true, m⟩ :: p) (st' ++ f :: st) = [f.vars] := by
    intro q
    induction q with
    | nil =>
      intro st' _ hl
      obtain rfl := List.length_eq_zero_iff.mp hl
      exact ⟨.last hc hf, by show f.vars :: f.closure = _; rw [hf]⟩
    | cons s q ih =>
      intro st' hq hl
      cases st' with
      | nil => cases hl
      | cons g st' =>
        obtain ⟨k1, k2⟩ := ih st' (fun t ht => hq t (List.mem_cons_of_mem _ ht)) (Nat.succ.inj hl)
        obtain ⟨b, k⟩ := s
        obtain rfl : b = false := hq _ (List.mem_cons_self ..)
        exact ⟨.cls k1, k2⟩
  obtain ⟨k1, k2⟩ := hs q st' hq hl
  rw [C81_context_partial h k1 n hn hp, k2]
  rfl

/-! ## Examples -/

def mod (g : Env) : Frame := ⟨"<module>", true, none, g, g, []⟩

def fn (n : String) (vars globals : Env) (closure : List Env) : Frame := ⟨n, false, none, vars, globals, closure⟩

/-- A template in a class in a function `g` in a function `f`; `f` calls `g` through `helper`. -/
example : define [⟨"C", false, some ["f", "<locals>", "g", "<locals>", "C"], [("k", 9)], [("x", 0)], []⟩,
    fn "g" [("y", 2)] [("x", 0)] [[("x", 1)]], fn "helper" [("x", 7)] [] [], fn "f" [("x", 1)] [("x", 0)] [], mod [("x", 0)]]
    (qualOf [⟨false, "C"⟩, ⟨true, "g"⟩, ⟨true, "f"⟩] "t") = some [[("y", 2)], [("x", 1)], [("x", 0)]] := rfl

example : qualOf [⟨false, "C"⟩, ⟨true, "g"⟩, ⟨true, "f"⟩] "t" = ["f", "<locals>", "g", "<locals>", "C", "t"] := rfl

/-- It satisfies the hypotheses. -/
example : Live [⟨false, "C"⟩, ⟨true, "g"⟩, ⟨true, "f"⟩]
    [⟨"C", false, some ["f", "<locals>", "g", "<locals>", "C"], [("k", 9)], [("x", 0)], []⟩,
    fn "g" [("y", 2)] [("x", 0)] [[("x", 1)]], fn "helper" [("x", 7)] [] [], fn "f" [("x", 1)] [("x", 0)] [], mod [("x", 0)]] := by
  refine .cls (.next (cs := []) (between := [fn "helper" [("x", 7)] [] []]) (fun s hs => nomatch hs) ?_ rfl rfl rfl
    (.last (fun s hs => nomatch hs) rfl))
  intro h hh
  cases hh with
  | head => exact ⟨rfl, by decide⟩
  | tail _ hh => cases hh

theorem search_boundary (n : String) {g : Frame} (hg : g.module = true) : ∀ a : List Frame,
    ∃ o a', ∀ st, search n (a ++ g :: st) = (o, a' ++ g :: st)
  | [] => ⟨none, [], fun st => by rw [List.nil_append, search, if_pos hg]⟩
  | f :: a => by
    by_cases hf : f.module = true
    · exact ⟨none, f :: a, fun st => by rw [List.cons_append, search, if_pos hf]⟩
    · by_cases hn : f.name = n
      · exact ⟨some f.vars, a, fun st => by rw [List.cons_append, search, if_neg hf, if_pos hn]⟩
      · obtain ⟨o, a', h⟩ := search_boundary n hg a
        exact ⟨o, a', fun st => by rw [List.cons_append, search, if_neg hf, if_neg hn, h st]⟩

theorem walk_boundary {g : Frame} (hg : g.module = true) (st st' : List Frame) : ∀ (ns : List String) (a : List Frame),
    walk ns (a ++ g :: st) = walk ns (a ++ g :: st')
  | [], _ => by rw [walk, walk]
  | n :: ns, a => by
    obtain ⟨o, a', h⟩ := search_boundary n hg a
    rw [walk, walk, h st, h st']
    cases o with
    | none => exact walk_boundary hg st st' ns a'
    | some e => exact congrArg (e :: ·) (walk_boundary hg st st' ns a')

/-- The modules that import the module of a template, and their callers, do not matter: frames beyond the first one of a module are not
looked at. -/
theorem C81_boundary (a st st' : List Frame) (g : Frame) (hg : g.module = true) (parts : List String)
    (hq : ∀ f, (a ++ [g]).head? = some f → f.qualname = none) : define (a ++ g :: st) parts = define (a ++ g :: st') parts := by
  have hs : ∀ u, skipClasses (a ++ g :: u) = a ++ g :: u := fun u => by
    cases a with
    | nil => rw [List.nil_append, skipClasses, hq g rfl]
    | cons f a => rw [List.cons_append, skipClasses, hq f rfl]
  unfold define
  rw [hs st, hs st']
  cases a with
  | nil =>
    have := walk_boundary hg st st' (enclosing parts).reverse []
    simp only [List.nil_append] at this ⊢
    rw [this]
  | cons f a =>
    have := walk_boundary hg st st' (enclosing parts).reverse (f :: a)
    simp only [List.cons_append] at this ⊢
    rw [this]

/-- If the function around has returned, its variables are missing: the name is taken from the module. -/
theorem C81_returned_fails : ∃ (p : List Scope) (st : List Frame) (G : Env) (es : List Env), Runs G p st ∧
    define st (qualOf p "t") = some es ∧ lookup "x" (scopeOf p st ++ [G]) = some 1 ∧ lookup "x" es = some 0 :=
  ⟨[⟨true, "g"⟩, ⟨true, "f"⟩], [fn "g" [] [("x", 0)] [[("x", 1)]], mod [("x", 0)]], [("x", 0)], [[], [("x", 0)]],
    .fn rfl rfl rfl rfl, rfl, rfl, rfl⟩

/-- If one function around has returned, the variables of those around it are missing too, though their calls are on the stack. -/
theorem C81_lost_fails : ∃ (p : List Scope) (st : List Frame) (G : Env) (es : List Env), Runs G p st ∧
    (∃ f ∈ st, f.name = "f" ∧ f.vars = [("x", 1)]) ∧
    define st (qualOf p "t") = some es ∧ lookup "x" (scopeOf p st ++ [G]) = some 1 ∧ lookup "x" es = some 0 :=
  ⟨[⟨true, "h"⟩, ⟨true, "g"⟩, ⟨true, "f"⟩],
    [fn "h" [] [("x", 0)] [[], [("x", 1)]], fn "f" [("x", 1)] [("x", 0)] [], mod [("x", 0)]], [("x", 0)], [[], [("x", 0)]],
    .fn rfl rfl rfl rfl, ⟨_, .tail _ (.head _), rfl, rfl⟩, rfl, rfl, rfl⟩

/-- A caller with the name of the function around is taken for it. -/
theorem C81_name_fails : ∃ (p : List Scope) (st : List Frame) (G : Env) (es : List Env), Runs G p st ∧
    define st (qualOf p "t") = some es ∧ lookup "x" (scopeOf p st ++ [G]) = some 1 ∧ lookup "x" es = some 7 :=
  ⟨[⟨true, "g"⟩, ⟨true, "f"⟩],
    [fn "g" [] [] [[("x", 1)]], fn "f" [("x", 7)] [] [], fn "f" [("x", 1)] [] [], mod []], [], [[], [("x", 7)], []],
    .fn rfl rfl rfl rfl, rfl, rfl, rfl⟩

/-- If `define` is called through a function of another module, the variables of that module are taken for the template's. -/
theorem C81_helper_fails : ∃ (p : List Scope) (st : List Frame) (G : Env) (h : Frame) (es : List Env), Runs G p st ∧ Live p st ∧
    define (h :: st) (qualOf p "t") = some es ∧ lookup "x" (scopeOf p st ++ [G]) = some 0 ∧ lookup "x" es = some 7 :=
  ⟨[], [mod [("x", 0)]], [("x", 0)], fn "decorate" [] [("x", 7)] [], [[("x", 7)]], .module rfl rfl rfl, .module, rfl, rfl, rfl⟩

/-- The context of a static method has the globals of the library's module in place of its own. `k` is the frame of
`_define_staticmethod`, with these globals. -/
theorem C81_static_fails {G : Env} {p : List Scope} {st : List Frame} (h : Runs G p st) (hl : Live p st) (n : String)
    (hn : n ≠ "<locals>") (hp : ∀ s ∈ p, s.name ≠ "<locals>") (k : Frame) (hk : k.qualname = none) (ms : List Frame)
    (hms : ∀ m, (fns p).head? = some m →
      (∀ h ∈ k :: ms, h.module = false ∧ h.name ≠ m) ∧ ∀ s ∈ p.takeWhile (fun s => !s.fn), s.name ≠ m) :
    defineThrough (k :: ms) st (qualOf p n) = some (scopeOf p st ++ [k.globals]) := by
  rw [defineThrough, define, skip_through ms st hk, enclosing_qual n hn p hp, List.reverse_reverse]
  show some (walk (fns p) (k :: ms ++ st) ++ [k.globals]) = _
  rw [walk_further h hl (k :: ms) hms]

/-- So a static method of a class at module level has none of the names of its module, only those of the library's. -/
theorem C81_static_module_fails (p : List Scope) (st : List Frame) (hc : ∀ s ∈ p, s.fn = false)
    (n : String) (hn : n ≠ "<locals>") (hp : ∀ s ∈ p, s.name ≠ "<locals>") (k : Frame) (hk : k.qualname = none) (ms : List Frame) :
    defineThrough (k :: ms) st (qualOf p n) = some [k.globals] := by
  rw [defineThrough, define, skip_through ms st hk, enclosing_qual n hn p hp, List.reverse_reverse, fns_classes hc]
  rfl

/-- Of class methods the enclosing functions are looked for among the callers of what reads the attribute first, and the globals are
the library's, whatever the callers are; at module level that is all. -/
theorem C81_class_fails (p : List Scope) (n : String) (hn : n ≠ "<locals>") (hp : ∀ s ∈ p, s.name ≠ "<locals>") (k : Frame)
    (hk : k.qualname = none) (callers : List Frame) :
    defineThrough [k] callers (qualOf p n) = some (walk (fns p) (k :: callers) ++ [k.globals]) ∧
      ((∀ s ∈ p, s.fn = false) → defineThrough [k] callers (qualOf p n) = some [k.globals]) := by
  have e : defineThrough [k] callers (qualOf p n) = some (walk (fns p) (k :: callers) ++ [k.globals]) := by
    rw [defineThrough, define, skip_through [] callers hk, enclosing_qual n hn p hp, List.reverse_reverse]
    rfl
  exact ⟨e, fun hc => by rw [e, fns_classes hc]; rfl⟩

/-- The frames of the library. -/
def machinery : List Frame :=
  [fn "_define_staticmethod" [] [("Operation", 50)] [], fn "_method" [] [("singledispatch", 51)] [], fn "define" [] [("Agent", 52)] [],
    fn "define" [] [("Agent", 52)] []]

/-- A static method in a class in a function `f`: `limit` of the module is missing, `y` of the function is there. -/
example : defineThrough machinery [⟨"C", false, some ["f", "<locals>", "C"], [], [("limit", 3)], []⟩, fn "f" [("y", 2)] [("limit", 3)] [],
    mod [("limit", 3)]] (qualOf [⟨false, "C"⟩, ⟨true, "f"⟩] "t") = some [[("y", 2)], [("Operation", 50)]] :=
  C81_static_fails (G := [("limit", 3)]) (.cls (.fn rfl rfl rfl rfl) rfl rfl rfl rfl) (.cls (.last (p := []) (fun _ h => nomatch h) rfl)) "t" (by decide)
    (by decide) _ rfl _ (fun m hm => by cases hm; exact ⟨by decide, by decide⟩)

/-- Without the decorator `staticmethod` it is there. -/
example : define [⟨"C", false, some ["f", "<locals>", "C"], [], [("limit", 3)], []⟩, fn "f" [("y", 2)] [("limit", 3)] [],
    mod [("limit", 3)]] (qualOf [⟨false, "C"⟩, ⟨true, "f"⟩] "t") = some [[("y", 2)], [("limit", 3)]] := rfl

/-- A class method of that class, read after `f` has returned. -/
example : defineThrough [fn "__get__" [] [("Operation", 50)] []] [mod [("limit", 3)]] (qualOf [⟨false, "C"⟩, ⟨true, "f"⟩] "t") =
    some [[("Operation", 50)]] := rfl

end Verif.Llm.Capture
