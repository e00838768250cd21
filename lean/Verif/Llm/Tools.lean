import Mathlib.Data.List.Nodup

/-!
# C44, C52, C58: which tools are offered to the model

Model of `collect_tools` (`handlers/llm/completions.py` 225-258), of the environment a template runs in
(`LiteLLMProvider._call` 665-668), of `Template.tools` (`handlers/llm/template.py` 217-231) and of `LexicalReaders`
(`completions.py` 261-292).

* Tools (and templates, which are tools) are compared by identity (`Operation.__eq__`, `ops/types.py` 110-113): they are
  numbers here.
* An agent is given by the attribute names of the classes of its MRO and by the outcome of `getattr` for each.
* An environment (a `ChainMap`) is given by its items in order.
-/

namespace Verif.Llm

/-- A name: its characters, by code point. -/
abbrev Name := List Nat

/-- Comparing names. -/
def Name.le : Name → Name → Bool
  | [], _ => true
  | _ :: _, [] => false
  | a :: as, b :: bs => decide (a < b) || (decide (a = b) && Name.le as bs)

/-- `"__"`. -/
def dunder : Name := [95, 95]

/-- A tool, by identity. -/
abbrev ToolId := Nat

/-- An instance of `Agent`: `vars(cls)` for the classes of the MRO, and `getattr`: raising, a tool, or something else. -/
structure AgentObj where
  mro : List (List Name)
  getattr : Name → Except Nat (Option ToolId)

/-- A value in an environment. -/
inductive EnvVal where
  | tool (t : ToolId)
  | agent (o : AgentObj)
  | other (n : Nat)

/-- The items of an environment. -/
abbrev Env := List (Name × EnvVal)

/-- `d[k] = v` for a `dict`: in place if the key is there. -/
def dictSet {V : Type} (d : List (Name × V)) (k : Name) (v : V) : List (Name × V) :=
  if d.any (·.1 == k) then d.map (fun x => if x.1 == k then (k, v) else x) else d ++ [(k, v)]

/-- The inner loop over the attributes of a class (246-248). -/
def collectAttrs (name : Name) (o : AgentObj) :
    List Name → List (Name × ToolId) → Except Nat (List (Name × ToolId))
  | [], d => .ok d
  | a :: as, d =>
    match o.getattr a with
    | .error e => .error e
    | .ok none => collectAttrs name o as d
    | .ok (some t) => collectAttrs name o as (dictSet d (name ++ dunder ++ a) t)

/-- The loop over the classes (245). -/
def collectClasses (name : Name) (o : AgentObj) :
    List (List Name) → List (Name × ToolId) → Except Nat (List (Name × ToolId))
  | [], d => .ok d
  | c :: cs, d =>
    match collectAttrs name o c d with
    | .error e => .error e
    | .ok d => collectClasses name o cs d

/-- The loop over the environment (241-248). -/
def collectRaw : Env → List (Name × ToolId) → Except Nat (List (Name × ToolId))
  | [], d => .ok d
  | (n, .tool t) :: env, d => collectRaw env (dictSet d n t)
  | (n, .agent o) :: env, d =>
    match collectClasses n o o.mro d with
    | .error e => .error e
    | .ok d => collectRaw env d
  | (_, .other _) :: env, d => collectRaw env d

/-- `sorted(items)`; the names are distinct. -/
def sortItems (d : List (Name × ToolId)) : List (Name × ToolId) :=
  d.foldr ins []
where
  /-- Insertion at the right place. -/
  ins (x : Name × ToolId) : List (Name × ToolId) → List (Name × ToolId)
    | [] => [x]
    | y :: l => if Name.le x.1 y.1 then x :: y :: l else y :: ins x l

/-- `tool2name[tool]` (253): the last name in the order of names. -/
def tool2name (d : List (Name × ToolId)) (t : ToolId) : Option Name :=
  ((sortItems d).reverse.find? (fun x => x.2 == t)).map Prod.fst

/-- The loop that removes the other names (254-256). -/
def dedupe (d : List (Name × ToolId)) : List (Name × ToolId) :=
  d.filter (fun x => tool2name d x.2 == some x.1)

/-- `collect_tools(env)`. -/
def collectTools (env : Env) : Except Nat (List (Name × ToolId)) :=
  match collectRaw env [] with
  | .error e => .error e
  | .ok d => .ok (dedupe d)

/-- The environment of a running template: `env.new_child({k: None for k, v in env.items() if v is template})`, unless it
is recursive (667-668). -/
def runEnv (env : Env) (t : ToolId) (recursive : Bool) : Env :=
  if recursive then env else env.map (fun x =>
    match x.2 with
    | .tool t' => if t' = t then (x.1, .other 0) else x
    | _ => x)

/-- `Template.tools`: without the template itself unless it is recursive. -/
def templateTools (env : Env) (t : ToolId) (recursive : Bool) : Except Nat (List (Name × ToolId)) :=
  match collectTools env with
  | .error e => .error e
  | .ok d => .ok (if recursive then d else d.filter (fun x => x.2 != t))

/-! ## What is stated -/

/-- The documented rule: a tool is reachable under the name it is bound to, and tool methods of agents under
`name__method`. -/
inductive Reach (env : Env) : Name → ToolId → Prop where
  | bound (n : Name) (t : ToolId) : (n, EnvVal.tool t) ∈ env → Reach env n t
  | method (n a : Name) (o : AgentObj) (c : List Name) (t : ToolId) : (n, EnvVal.agent o) ∈ env → c ∈ o.mro →
      a ∈ c → o.getattr a = .ok (some t) → Reach env (n ++ dunder ++ a) t

/-- No name stands for two tools. -/
def NoCollision (env : Env) : Prop := ∀ n t t', Reach env n t → Reach env n t' → t = t'

/-- No attribute of an agent raises. -/
def NoRaise (env : Env) : Prop :=
  ∀ n o, (n, EnvVal.agent o) ∈ env → ∀ c ∈ o.mro, ∀ a ∈ c, ∃ r, o.getattr a = .ok r

/-! ## Dicts -/

section Dict
variable {V : Type}

theorem dictSet_keys_nodup {d : List (Name × V)} (k : Name) (v : V) (h : (d.map Prod.fst).Nodup) :
    ((dictSet d k v).map Prod.fst).Nodup := by
  unfold dictSet
  split
  · have : (d.map (fun x => if x.1 == k then (k, v) else x)).map Prod.fst = d.map Prod.fst := by
      rw [List.map_map]
      apply List.map_congr_left
      intro x _
      simp only [Function.comp]
      split
      · rename_i hx; exact (by simpa using hx : x.1 = k).symm
      · rfl
    rw [this]; exact h
  · rename_i hk
    rw [List.map_append, List.nodup_append]
    refine ⟨h, by simp, ?_⟩
    intro a ha b hb
    simp only [List.map_cons, List.map_nil, List.mem_singleton] at hb
    subst hb
    rintro rfl
    apply hk
    obtain ⟨x, hx, rfl⟩ := List.mem_map.1 ha
    exact List.any_eq_true.2 ⟨x, hx, by simp⟩

theorem mem_dictSet {d : List (Name × V)} {k : Name} {v : V} {x : Name × V} (hx : x ∈ dictSet d k v) :
    x = (k, v) ∨ (x ∈ d ∧ x.1 ≠ k) := by
  unfold dictSet at hx
  split at hx
  · obtain ⟨y, hy, rfl⟩ := List.mem_map.1 hx
    by_cases hk : y.1 = k
    · left; simp [hk]
    · right
      rw [if_neg (by simpa using hk)]
      exact ⟨hy, hk⟩
  · rename_i hk
    rcases List.mem_append.1 hx with hx | hx
    · right
      refine ⟨hx, ?_⟩
      intro e
      apply hk
      exact List.any_eq_true.2 ⟨x, hx, by simp [e]⟩
    · left; simpa using hx

theorem dictSet_mem (d : List (Name × V)) (k : Name) (v : V) : (k, v) ∈ dictSet d k v := by
  unfold dictSet
  split
  · rename_i hk
    obtain ⟨x, hx, e⟩ := List.any_eq_true.1 hk
    exact List.mem_map.2 ⟨x, hx, by simp at e; simp [e]⟩
  · simp

theorem dictSet_mem_old {d : List (Name × V)} {k : Name} {v : V} {x : Name × V} (hx : x ∈ d) (hk : x.1 ≠ k) :
    x ∈ dictSet d k v := by
  unfold dictSet
  split
  · exact List.mem_map.2 ⟨x, hx, by simp [hk]⟩
  · exact List.mem_append.2 (.inl hx)

end Dict

/-! ## The loops -/

/-- What the loops keep: distinct names, all reachable. -/
structure Inv (P : Name → ToolId → Prop) (d : List (Name × ToolId)) : Prop where
  nodup : (d.map Prod.fst).Nodup
  sound : ∀ n t, (n, t) ∈ d → P n t

theorem Inv.set {P : Name → ToolId → Prop} {d : List (Name × ToolId)} (h : Inv P d) {k : Name} {t : ToolId}
    (hp : P k t) : Inv P (dictSet d k t) := by
  refine ⟨dictSet_keys_nodup k t h.nodup, ?_⟩
  intro n t' hx
  rcases mem_dictSet hx with e | ⟨e, -⟩
  · cases e; exact hp
  · exact h.sound n t' e

/-- If names do not collide, nothing is lost. -/
theorem set_keeps {P : Name → ToolId → Prop} (hP : ∀ n t t', P n t → P n t' → t = t') {d : List (Name × ToolId)}
    (h : Inv P d) {k : Name} {t : ToolId} (hp : P k t) {x : Name × ToolId} (hx : x ∈ d) : x ∈ dictSet d k t := by
  by_cases hk : x.1 = k
  · have := h.sound x.1 x.2 hx
    rw [hk] at this
    have e := hP k x.2 t this hp
    have : x = (k, t) := by rw [← hk, ← e]
    rw [this]; exact dictSet_mem d k t
  · exact dictSet_mem_old hx hk

theorem collectAttrs_inv {P : Name → ToolId → Prop} {name : Name} {o : AgentObj} {as : List Name}
    (hP : ∀ a ∈ as, ∀ t, o.getattr a = .ok (some t) → P (name ++ dunder ++ a) t) {d d' : List (Name × ToolId)}
    (h : Inv P d) (hr : collectAttrs name o as d = .ok d') :
    Inv P d' ∧ ((∀ n t t', P n t → P n t' → t = t') → (∀ x ∈ d, x ∈ d') ∧
      ∀ a ∈ as, ∀ t, o.getattr a = .ok (some t) → (name ++ dunder ++ a, t) ∈ d') := by
  induction as generalizing d with
  | nil =>
    rw [collectAttrs] at hr
    cases hr
    exact ⟨h, fun _ => ⟨fun x hx => hx, by simp⟩⟩
  | cons a as ih =>
    rw [collectAttrs] at hr
    have hP' := fun b hb => hP b (List.mem_cons_of_mem _ hb)
    cases hg : o.getattr a with
    | error e => rw [hg] at hr; cases hr
    | ok r =>
      rw [hg] at hr
      cases r with
      | none =>
        obtain ⟨i1, i2⟩ := ih hP' h hr
        refine ⟨i1, fun nc => ⟨(i2 nc).1, ?_⟩⟩
        intro b hb t ht
        rcases List.mem_cons.1 hb with rfl | hb
        · rw [hg] at ht; cases ht
        · exact (i2 nc).2 b hb t ht
      | some t =>
        have hp := hP a (by simp) t hg
        obtain ⟨i1, i2⟩ := ih hP' (h.set hp) hr
        refine ⟨i1, fun nc => ⟨fun x hx => (i2 nc).1 x (set_keeps nc h hp hx), ?_⟩⟩
        intro b hb t' ht
        rcases List.mem_cons.1 hb with rfl | hb
        · rw [hg] at ht; cases ht
          exact (i2 nc).1 _ (dictSet_mem d _ t)
        · exact (i2 nc).2 b hb t' ht

theorem collectClasses_inv {P : Name → ToolId → Prop} {name : Name} {o : AgentObj} {cs : List (List Name)}
    (hP : ∀ c ∈ cs, ∀ a ∈ c, ∀ t, o.getattr a = .ok (some t) → P (name ++ dunder ++ a) t) {d d' : List (Name × ToolId)}
    (h : Inv P d) (hr : collectClasses name o cs d = .ok d') :
    Inv P d' ∧ ((∀ n t t', P n t → P n t' → t = t') → (∀ x ∈ d, x ∈ d') ∧
      ∀ c ∈ cs, ∀ a ∈ c, ∀ t, o.getattr a = .ok (some t) → (name ++ dunder ++ a, t) ∈ d') := by
  induction cs generalizing d with
  | nil =>
    rw [collectClasses] at hr
    cases hr
    exact ⟨h, fun _ => ⟨fun x hx => hx, by simp⟩⟩
  | cons c cs ih =>
    rw [collectClasses] at hr
    cases hc : collectAttrs name o c d with
    | error e => rw [hc] at hr; cases hr
    | ok d₁ =>
      rw [hc] at hr
      obtain ⟨j1, j2⟩ := collectAttrs_inv (hP c (by simp)) h hc
      obtain ⟨i1, i2⟩ := ih (fun c' hc' => hP c' (List.mem_cons_of_mem _ hc')) j1 hr
      refine ⟨i1, fun nc => ⟨fun x hx => (i2 nc).1 x ((j2 nc).1 x hx), ?_⟩⟩
      intro b hb
      rcases List.mem_cons.1 hb with rfl | hb
      · intro a ha t ht; exact (i2 nc).1 _ ((j2 nc).2 a ha t ht)
      · exact (i2 nc).2 b hb

theorem collectRaw_inv {P : Name → ToolId → Prop} {env : Env} (hP : ∀ n t, Reach env n t → P n t)
    {d d' : List (Name × ToolId)} (h : Inv P d) (hr : collectRaw env d = .ok d') :
    Inv P d' ∧ ((∀ n t t', P n t → P n t' → t = t') → (∀ x ∈ d, x ∈ d') ∧ ∀ n t, Reach env n t → (n, t) ∈ d') := by
  induction env generalizing d with
  | nil =>
    rw [collectRaw] at hr
    cases hr
    refine ⟨h, fun _ => ⟨fun x hx => hx, ?_⟩⟩
    intro n t hr
    cases hr with
    | bound n t hm => simp at hm
    | method n a o c t hm => simp at hm
  | cons x env ih =>
    obtain ⟨n, v⟩ := x
    have hP' : ∀ m t, Reach env m t → P m t := by
      intro m t hm
      apply hP
      cases hm with
      | bound m t h1 => exact .bound _ _ (List.mem_cons_of_mem _ h1)
      | method m a o c t h1 h2 h3 h4 => exact .method _ _ _ _ _ (List.mem_cons_of_mem _ h1) h2 h3 h4
    cases v with
    | tool t =>
      rw [collectRaw] at hr
      have hp : P n t := hP n t (.bound _ _ (by simp))
      obtain ⟨i1, i2⟩ := ih hP' (h.set hp) hr
      refine ⟨i1, fun nc => ⟨fun y hy => (i2 nc).1 y (set_keeps nc h hp hy), ?_⟩⟩
      intro m t' hm
      cases hm with
      | bound m t' h1 =>
        rcases List.mem_cons.1 h1 with e | h1
        · cases e; exact (i2 nc).1 _ (dictSet_mem d n t)
        · exact (i2 nc).2 _ _ (.bound _ _ h1)
      | method m a o c t' h1 h2 h3 h4 =>
        rcases List.mem_cons.1 h1 with e | h1
        · cases e
        · exact (i2 nc).2 _ _ (.method _ _ _ _ _ h1 h2 h3 h4)
    | agent o =>
      rw [collectRaw] at hr
      cases hc : collectClasses n o o.mro d with
      | error e => rw [hc] at hr; cases hr
      | ok d₁ =>
        rw [hc] at hr
        obtain ⟨j1, j2⟩ := collectClasses_inv
          (fun c hc a ha t ht => hP _ _ (.method n a o c t (by simp) hc ha ht)) h hc
        obtain ⟨i1, i2⟩ := ih hP' j1 hr
        refine ⟨i1, fun nc => ⟨fun y hy => (i2 nc).1 y ((j2 nc).1 y hy), ?_⟩⟩
        intro m t' hm
        cases hm with
        | bound m t' h1 =>
          rcases List.mem_cons.1 h1 with e | h1
          · cases e
          · exact (i2 nc).2 _ _ (.bound _ _ h1)
        | method m a o' c t' h1 h2 h3 h4 =>
          rcases List.mem_cons.1 h1 with e | h1
          · cases e; exact (i2 nc).1 _ ((j2 nc).2 c h2 a h3 t' h4)
          · exact (i2 nc).2 _ _ (.method _ _ _ _ _ h1 h2 h3 h4)
    | other k =>
      rw [collectRaw] at hr
      obtain ⟨i1, i2⟩ := ih hP' h hr
      refine ⟨i1, fun nc => ⟨(i2 nc).1, ?_⟩⟩
      intro m t' hm
      cases hm with
      | bound m t' h1 =>
        rcases List.mem_cons.1 h1 with e | h1
        · cases e
        · exact (i2 nc).2 _ _ (.bound _ _ h1)
      | method m a o' c t' h1 h2 h3 h4 =>
        rcases List.mem_cons.1 h1 with e | h1
        · cases e
        · exact (i2 nc).2 _ _ (.method _ _ _ _ _ h1 h2 h3 h4)

/-! ## One name per tool -/

theorem Name.le_refl' (a : Name) : Name.le a a = true := by
  induction a with
  | nil => rfl
  | cons a as ih => simp [Name.le, ih]

theorem Name.le_trans' {a b c : Name} (h : Name.le a b = true) (k : Name.le b c = true) : Name.le a c = true := by
  induction a generalizing b c with
  | nil => rfl
  | cons x a ih =>
    cases b with
    | nil => simp [Name.le] at h
    | cons y b =>
      cases c with
      | nil => simp [Name.le] at k
      | cons z c =>
        simp only [Name.le, Bool.or_eq_true, Bool.and_eq_true, decide_eq_true_eq] at *
        rcases h with h | ⟨rfl, h⟩
        · rcases k with k | ⟨rfl, k⟩
          · left; omega
          · left; exact h
        · rcases k with k | ⟨rfl, k⟩
          · left; exact k
          · right; exact ⟨rfl, ih h k⟩

theorem Name.le_total' (a b : Name) : Name.le a b = true ∨ Name.le b a = true := by
  induction a generalizing b with
  | nil => left; rfl
  | cons x a ih =>
    cases b with
    | nil => right; rfl
    | cons y b =>
      simp only [Name.le, Bool.or_eq_true, Bool.and_eq_true, decide_eq_true_eq]
      rcases Nat.lt_trichotomy x y with h | rfl | h
      · left; left; exact h
      · rcases ih b with h | h
        · left; right; exact ⟨rfl, h⟩
        · right; right; exact ⟨rfl, h⟩
      · right; left; exact h

theorem mem_ins {x y : Name × ToolId} {l : List (Name × ToolId)} : y ∈ sortItems.ins x l ↔ y = x ∨ y ∈ l := by
  induction l with
  | nil => simp [sortItems.ins]
  | cons z l ih =>
    rw [sortItems.ins]
    split
    · simp
    · rw [List.mem_cons, ih, List.mem_cons]
      constructor
      · rintro (h | h | h)
        · exact .inr (.inl h)
        · exact .inl h
        · exact .inr (.inr h)
      · rintro (h | h | h)
        · exact .inr (.inl h)
        · exact .inl h
        · exact .inr (.inr h)

theorem mem_sortItems {y : Name × ToolId} {d : List (Name × ToolId)} : y ∈ sortItems d ↔ y ∈ d := by
  induction d with
  | nil => simp [sortItems]
  | cons x d ih =>
    show y ∈ sortItems.ins x (sortItems d) ↔ _
    rw [mem_ins, ih, List.mem_cons]

theorem ins_sorted (x : Name × ToolId) {l : List (Name × ToolId)} (h : l.Pairwise (fun x y => Name.le x.1 y.1)) :
    (sortItems.ins x l).Pairwise (fun x y => Name.le x.1 y.1) := by
  induction l with
  | nil => simp [sortItems.ins]
  | cons z l ih =>
    rw [List.pairwise_cons] at h
    rw [sortItems.ins]
    split
    · rename_i hx
      rw [List.pairwise_cons, List.pairwise_cons]
      refine ⟨?_, h⟩
      intro y hy
      rcases List.mem_cons.1 hy with rfl | hy
      · exact hx
      · exact Name.le_trans' hx (h.1 y hy)
    · rename_i hx
      rw [List.pairwise_cons]
      refine ⟨?_, ih h.2⟩
      intro y hy
      rcases mem_ins.1 hy with rfl | hy
      · exact (Name.le_total' _ _).resolve_left hx
      · exact h.1 y hy

theorem sortItems_sorted (d : List (Name × ToolId)) : (sortItems d).Pairwise (fun x y => Name.le x.1 y.1) := by
  induction d with
  | nil => exact List.Pairwise.nil
  | cons x d ih => exact ins_sorted x ih

theorem tool2name_mem {d : List (Name × ToolId)} {t : ToolId} {n : Name} (h : tool2name d t = some n) :
    (n, t) ∈ d := by
  unfold tool2name at h
  rw [Option.map_eq_some_iff] at h
  obtain ⟨x, hx, rfl⟩ := h
  have h1 := List.mem_of_find?_eq_some hx
  have h2 := List.find?_some hx
  rw [List.mem_reverse, mem_sortItems] at h1
  have : x.2 = t := by simpa using h2
  rw [← this]; exact h1

theorem find?_last {l : List (Name × ToolId)} (hl : l.Pairwise (fun x y => Name.le x.1 y.1)) {t : ToolId}
    {x y : Name × ToolId} (hx : l.reverse.find? (fun x => x.2 == t) = some x) (hy : y ∈ l) (ht : y.2 = t) :
    Name.le y.1 x.1 := by
  induction l with
  | nil => simp at hy
  | cons z l ih =>
    rw [List.pairwise_cons] at hl
    rw [List.reverse_cons, List.find?_append] at hx
    cases hf : l.reverse.find? (fun x => x.2 == t) with
    | some w =>
      rw [hf] at hx
      simp only [Option.some_or, Option.some.injEq] at hx
      subst hx
      rcases List.mem_cons.1 hy with rfl | hy
      · have hw := List.mem_of_find?_eq_some hf
        rw [List.mem_reverse] at hw
        exact hl.1 w hw
      · exact ih hl.2 hf hy
    | none =>
      rw [hf] at hx
      rw [List.find?_eq_none] at hf
      rcases List.mem_cons.1 hy with rfl | hy
      · simp only [Option.none_or, List.find?_cons, List.find?_nil] at hx
        split at hx
        · cases hx; exact Name.le_refl' _
        · cases hx
      · exact absurd (by simpa using ht) (hf y (List.mem_reverse.2 hy))

theorem tool2name_last {d : List (Name × ToolId)} {t : ToolId} {n n' : Name} (h : tool2name d t = some n)
    (hn : (n', t) ∈ d) : Name.le n' n := by
  unfold tool2name at h
  rw [Option.map_eq_some_iff] at h
  obtain ⟨x, hx, rfl⟩ := h
  have hs := sortItems_sorted d
  exact find?_last hs hx (mem_sortItems.2 hn) rfl

theorem tool2name_some {d : List (Name × ToolId)} {t : ToolId} {n : Name} (h : (n, t) ∈ d) :
    ∃ n', tool2name d t = some n' := by
  unfold tool2name
  cases hf : (sortItems d).reverse.find? (fun x => x.2 == t) with
  | some x => exact ⟨x.1, rfl⟩
  | none =>
    rw [List.find?_eq_none] at hf
    exact absurd (by simp) (hf (n, t) (List.mem_reverse.2 (mem_sortItems.2 h)))

theorem mem_dedupe {d : List (Name × ToolId)} {n : Name} {t : ToolId} :
    (n, t) ∈ dedupe d ↔ tool2name d t = some n := by
  unfold dedupe
  rw [List.mem_filter]
  constructor
  · rintro ⟨-, h⟩; simpa using h
  · intro h; exact ⟨tool2name_mem h, by simpa using h⟩

theorem dedupe_tools_nodup {d : List (Name × ToolId)} (h : (d.map Prod.fst).Nodup) :
    ((dedupe d).map Prod.snd).Nodup := by
  have hn : (dedupe d).Nodup := (List.Nodup.of_map _ h).filter _
  refine List.Nodup.map_on ?_ hn
  rintro ⟨n, t⟩ hx ⟨n', t'⟩ hy e
  simp only at e
  subst e
  rw [mem_dedupe] at hx hy
  rw [hx] at hy
  cases hy; rfl

/-! ## C44 -/

theorem collectTools_raw {env : Env} {r : List (Name × ToolId)} (h : collectTools env = .ok r) :
    ∃ d, collectRaw env [] = .ok d ∧ r = dedupe d := by
  unfold collectTools at h
  cases hc : collectRaw env [] with
  | error e => rw [hc] at h; cases h
  | ok d => rw [hc] at h; cases h; exact ⟨d, rfl, rfl⟩

theorem inv_nil (P : Name → ToolId → Prop) : Inv P [] := ⟨by simp, by simp⟩

/-- Distinct tools have distinct names, and every tool has one name. -/
theorem C44_once (env : Env) (r : List (Name × ToolId)) (h : collectTools env = .ok r) :
    (r.map Prod.fst).Nodup ∧ (r.map Prod.snd).Nodup := by
  obtain ⟨d, hd, rfl⟩ := collectTools_raw h
  obtain ⟨i, -⟩ := collectRaw_inv (P := Reach env) (fun _ _ h => h) (inv_nil _) hd
  exact ⟨(i.nodup.sublist (List.Sublist.map _ List.filter_sublist)), dedupe_tools_nodup i.nodup⟩

/-- Looking up an offered name in the tools gives back the tool, and the name is one that stands for it. -/
theorem C44_resolves (env : Env) (r : List (Name × ToolId)) (h : collectTools env = .ok r) (n : Name) (t : ToolId)
    (hm : (n, t) ∈ r) : r.lookup n = some t ∧ Reach env n t := by
  have hn := (C44_once env r h).1
  refine ⟨?_, ?_⟩
  · clear h
    induction r with
    | nil => simp at hm
    | cons x r ih =>
      obtain ⟨n', t'⟩ := x
      rw [List.map_cons, List.nodup_cons] at hn
      rw [List.lookup_cons]
      rcases List.mem_cons.1 hm with e | hm'
      · cases e; simp
      · have : n ≠ n' := by
          intro e
          rw [← e] at hn
          exact hn.1 (List.mem_map.2 ⟨(n, t), hm', rfl⟩)
        rw [beq_eq_false_iff_ne.2 this]
        exact ih hm' hn.2
  · obtain ⟨d, hd, rfl⟩ := collectTools_raw h
    obtain ⟨i, -⟩ := collectRaw_inv (P := Reach env) (fun _ _ h => h) (inv_nil _) hd
    exact i.sound n t (List.mem_of_mem_filter hm)

/-- If no name stands for two tools, every reachable tool is offered, under the last of its names. -/
theorem C44_complete_partial (env : Env) (hnc : NoCollision env) (r : List (Name × ToolId))
    (h : collectTools env = .ok r) (n : Name) (t : ToolId) (hr : Reach env n t) : ∃ n', (n', t) ∈ r ∧ Name.le n n' := by
  obtain ⟨d, hd, rfl⟩ := collectTools_raw h
  obtain ⟨-, i⟩ := collectRaw_inv (P := Reach env) (fun _ _ h => h) (inv_nil _) hd
  have hm := (i hnc).2 n t hr
  obtain ⟨n', hn'⟩ := tool2name_some hm
  exact ⟨n', mem_dedupe.2 hn', tool2name_last hn' hm⟩

theorem collectAttrs_ok {name : Name} {o : AgentObj} {as : List Name} (h : ∀ a ∈ as, ∃ r, o.getattr a = .ok r)
    (d : List (Name × ToolId)) : ∃ d', collectAttrs name o as d = .ok d' := by
  induction as generalizing d with
  | nil => exact ⟨d, by rw [collectAttrs]⟩
  | cons a as ih =>
    have h' := fun b hb => h b (List.mem_cons_of_mem _ hb)
    obtain ⟨r, hr⟩ := h a (by simp)
    rw [collectAttrs, hr]
    cases r with
    | none => exact ih h' d
    | some t => exact ih h' _

theorem collectClasses_ok {name : Name} {o : AgentObj} {cs : List (List Name)}
    (h : ∀ c ∈ cs, ∀ a ∈ c, ∃ r, o.getattr a = .ok r) (d : List (Name × ToolId)) :
    ∃ d', collectClasses name o cs d = .ok d' := by
  induction cs generalizing d with
  | nil => exact ⟨d, by rw [collectClasses]⟩
  | cons c cs ih =>
    obtain ⟨d₁, h₁⟩ := collectAttrs_ok (name := name) (h c (by simp)) d
    rw [collectClasses, h₁]
    exact ih (fun c' hc' => h c' (List.mem_cons_of_mem _ hc')) d₁

/-- Collecting succeeds if no attribute of an agent raises. -/
theorem C44_defined_partial (env : Env) (hn : NoRaise env) : ∃ r, collectTools env = .ok r := by
  have : ∀ d, ∃ d', collectRaw env d = .ok d' := by
    induction env with
    | nil => intro d; exact ⟨d, by rw [collectRaw]⟩
    | cons x env ih =>
      obtain ⟨n, v⟩ := x
      have ih := ih (fun m o hm => hn m o (List.mem_cons_of_mem _ hm))
      intro d
      cases v with
      | tool t => rw [collectRaw]; exact ih _
      | agent o =>
        obtain ⟨d₁, h₁⟩ := collectClasses_ok (name := n) (hn n o (by simp)) d
        rw [collectRaw, h₁]; exact ih _
      | other k => rw [collectRaw]; exact ih _
  obtain ⟨d, hd⟩ := this []
  exact ⟨dedupe d, by rw [collectTools, hd]⟩

namespace ToolsExample

/-! The names in the examples. -/
def nAbc : Name := [97, 98, 99]
def nAl : Name := [97, 108]
def nBot : Name := [98, 111, 116]
def nBotF : Name := [98, 111, 116, 95, 95, 102]
def nCities : Name := [99, 105, 116, 105, 101, 115]
def nF : Name := [102]
def nG : Name := [103]
def nN : Name := [110]
def nP : Name := [112]
def nSelf : Name := [115, 101, 108, 102]
def nSelfF : Name := [115, 101, 108, 102, 95, 95, 102]
def nWeather : Name := [119, 101, 97, 116, 104, 101, 114]
def nX : Name := [120]
def nZed : Name := [122, 101, 100]

/-- An agent with the tool method `f` (tool 7), inherited from a base class that has it too, and a plain attribute. -/
def bot : AgentObj := ⟨[[nF], [nF, nX]], fun a => if a = nF then .ok (some 7) else .ok none⟩

/-- An agent with a property that raises. -/
def broken : AgentObj := ⟨[[nP]], fun _ => .error 1⟩

example : collectTools [(nWeather, .tool 1), (nCities, .tool 2), (nN, .other 0), (nSelf, .agent bot)] =
    .ok [(nWeather, 1), (nCities, 2), (nSelfF, 7)] := by decide

/-- A tool with two names keeps the last one. -/
example : collectTools [(nZed, .tool 1), (nAbc, .tool 1), (nBot, .agent bot), (nAl, .agent bot)] =
    .ok [(nZed, 1), (nBotF, 7)] := by decide

end ToolsExample

open ToolsExample

/-- Two names that coincide: a tool bound to `bot__f` and the method `f` of the agent `bot`. One of them is lost. -/
theorem C44_collision_fails :
    ∃ env r n t, collectTools env = .ok r ∧ Reach env n t ∧ ¬ ∃ n', (n', t) ∈ r := by
  refine ⟨[(nBotF, .tool 1), (nBot, .agent bot)], [(nBotF, 7)], nBotF, 1, rfl,
    .bound _ _ (by simp), ?_⟩
  rintro ⟨n', h⟩
  simp at h

/-- A raising property of an agent makes collecting raise. -/
theorem C44_raising_fails : ∃ env e, collectTools env = .error e :=
  ⟨[(nBot, .agent broken)], 1, rfl⟩

/-! ## C52: a template and itself -/

theorem reach_runEnv {env : Env} {t : ToolId} {n : Name} {t' : ToolId} (h : Reach (runEnv env t false) n t') :
    Reach env n t' ∧ ((n, EnvVal.tool t') ∈ env → (n, EnvVal.tool t') ∈ env ∧
      ∀ m, (m, EnvVal.tool t') ∈ runEnv env t false → t' ≠ t) := by
  have key : ∀ m v, (m, v) ∈ runEnv env t false → v = .other 0 ∨ ((m, v) ∈ env ∧ v ≠ .tool t) := by
    intro m v hm
    simp only [runEnv, Bool.false_eq_true, if_false, List.mem_map] at hm
    obtain ⟨⟨k, w⟩, hw, e⟩ := hm
    cases w with
    | tool u =>
      simp only at e
      split at e
      · cases e; exact .inl rfl
      · cases e
        rename_i hu
        exact .inr ⟨hw, by rintro e; cases e; exact hu rfl⟩
    | agent o => cases e; exact .inr ⟨hw, by rintro e; cases e⟩
    | other o => cases e; exact .inr ⟨hw, by rintro e; cases e⟩
  refine ⟨?_, ?_⟩
  · cases h with
    | bound n t' h1 =>
      rcases key _ _ h1 with e | ⟨h2, -⟩
      · cases e
      · exact .bound _ _ h2
    | method n a o c t' h1 h2 h3 h4 =>
      rcases key _ _ h1 with e | ⟨h5, -⟩
      · cases e
      · exact .method _ _ _ _ _ h5 h2 h3 h4
  · intro hm
    refine ⟨hm, ?_⟩
    intro m hm e
    rcases key _ _ hm with e' | ⟨-, h2⟩
    · cases e'
    · exact h2 (by rw [e])

/-- A template that is not recursive is not offered to itself, if it is not a method of an agent that is visible. -/
theorem C52_not_offered_partial (env : Env) (t : ToolId) (r : List (Name × ToolId))
    (hm : ∀ n o c a, (n, EnvVal.agent o) ∈ env → c ∈ o.mro → a ∈ c → o.getattr a ≠ .ok (some t))
    (h : collectTools (runEnv env t false) = .ok r) : t ∉ r.map Prod.snd := by
  intro ht
  obtain ⟨⟨n, t'⟩, hx, e⟩ := List.mem_map.1 ht
  simp only at e
  subst e
  have hr := (C44_resolves _ r h n t' hx).2
  cases hr with
  | bound n t' h1 =>
    have := reach_runEnv (Reach.bound n t' h1)
    cases this.1 with
    | bound _ _ h2 => exact (this.2 h2).2 _ h1 rfl
    | method n a o c t' h2 h3 h4 h5 => exact hm _ _ _ _ h2 h3 h4 h5
  | method n a o c t' h1 h2 h3 h4 =>
    simp only [runEnv, Bool.false_eq_true, if_false, List.mem_map] at h1
    obtain ⟨⟨k, w⟩, hw, e⟩ := h1
    cases w with
    | tool u => simp only at e; split at e <;> cases e
    | agent o' => cases e; exact hm _ _ _ _ hw h2 h3 h4
    | other o' => cases e

/-- Other tools are still offered. -/
theorem C52_others (env : Env) (t t' : ToolId) (htt : t' ≠ t) (n : Name) :
    Reach (runEnv env t false) n t' ↔ Reach env n t' := by
  constructor
  · intro h; exact (reach_runEnv h).1
  · intro h
    cases h with
    | bound n t' h1 =>
      refine .bound _ _ ?_
      simp only [runEnv, Bool.false_eq_true, if_false, List.mem_map]
      exact ⟨_, h1, by simp [htt]⟩
    | method n a o c t' h1 h2 h3 h4 =>
      refine .method _ _ _ _ _ ?_ h2 h3 h4
      simp only [runEnv, Bool.false_eq_true, if_false, List.mem_map]
      exact ⟨_, h1, rfl⟩

/-- A recursive template runs in the environment as it is. -/
theorem C52_recursive (env : Env) (t : ToolId) : runEnv env t true = env := rfl

/-- `Template.tools`, in contrast, never has a template that is not recursive, and all other tools. -/
theorem C52_property (env : Env) (t : ToolId) (r d : List (Name × ToolId)) (h : templateTools env t false = .ok r)
    (hd : collectTools env = .ok d) : ∀ x, x ∈ r ↔ x ∈ d ∧ x.2 ≠ t := by
  unfold templateTools at h
  rw [hd] at h
  cases h
  intro x
  simp

/-- And a recursive template has itself among its tools if it was collected. -/
theorem C52_property_recursive (env : Env) (t : ToolId) : templateTools env t true = collectTools env := by
  unfold templateTools
  cases collectTools env <;> rfl

/-- The method `f` of an agent is offered to itself while it runs, as `self__f`. -/
theorem C52_agent_fails : ∃ env t r, collectTools (runEnv env t false) = .ok r ∧ t ∈ r.map Prod.snd :=
  ⟨[(nSelf, .agent bot), (nWeather, .tool 1)], 7, [(nSelfF, 7), (nWeather, 1)], rfl, by simp⟩

example : collectTools (runEnv [(nF, .tool 1), (nG, .tool 2)] 1 false) = .ok [(nG, 2)] := by decide
example : collectTools (runEnv [(nF, .tool 1), (nG, .tool 2)] 1 true) = .ok [(nF, 1), (nG, 2)] := by decide

/-! ## C58: readers for the values in scope -/

/-- A tool that is offered: a real one, or a reader that returns the value. -/
inductive Offer where
  | real (t : ToolId)
  | reader (v : EnvVal)

/-- Whether a schema can be made for a value: yes, no (one of the four caught exceptions), or another exception. -/
inductive Enc where
  | ok
  | skip
  | raise (e : Nat)

/-- The error of `assert not isinstance(value, Tool)` (203-205). -/
def assertionError : Nat := 0

/-- `_LexicalVariableTool.define(obj, name=name)` (196-222). -/
def defineReader (enc : EnvVal → Enc) : EnvVal → Enc
  | .tool _ => .raise assertionError
  | v => enc v

/-- The loop of `LexicalReaders._collect` (273-291). -/
def readersLoop (isId : Name → Bool) (enc : EnvVal → Enc) :
    Env → List (Name × Offer) → Except Nat (List (Name × Offer))
  | [], d => .ok d
  | (n, v) :: env, d =>
    if d.any (·.1 == n) || !isId n then readersLoop isId enc env d
    else
      match defineReader enc v with
      | .ok => readersLoop isId enc env (dictSet d n (.reader v))
      | .skip => readersLoop isId enc env d
      | .raise e => .error e

/-- `collect_tools(env)` under `LexicalReaders`. -/
def collectReaders (isId : Name → Bool) (enc : EnvVal → Enc) (env : Env) : Except Nat (List (Name × Offer)) :=
  match collectTools env with
  | .error e => .error e
  | .ok d => readersLoop isId enc env (d.map (fun x => (x.1, Offer.real x.2)))

theorem dictSet_new {V : Type} {d : List (Name × V)} {k : Name} {v : V} (h : d.any (·.1 == k) = false) :
    dictSet d k v = d ++ [(k, v)] := by
  unfold dictSet
  rw [if_neg]
  rw [h]; simp

/-- What is added. -/
def added (isId : Name → Bool) (enc : EnvVal → Enc) (d : List (Name × Offer)) (x : Name × EnvVal) : Prop :=
  x.1 ∉ d.map Prod.fst ∧ isId x.1 = true ∧ enc x.2 = .ok

theorem readersLoop_mem {isId : Name → Bool} {enc : EnvVal → Enc} {env : Env} (hk : (env.map Prod.fst).Nodup)
    {d r : List (Name × Offer)} (h : readersLoop isId enc env d = .ok r) :
    ∀ x, x ∈ r ↔ x ∈ d ∨ ∃ n v, (n, v) ∈ env ∧ added isId enc d (n, v) ∧ x = (n, Offer.reader v) := by
  induction env generalizing d with
  | nil => rw [readersLoop] at h; cases h; intro x; simp
  | cons y env ih =>
    obtain ⟨n, v⟩ := y
    rw [List.map_cons, List.nodup_cons] at hk
    rw [readersLoop] at h
    have hiff : d.any (·.1 == n) = true ↔ n ∈ d.map Prod.fst := by simp
    -- nothing is added for this item
    have skip : readersLoop isId enc env d = .ok r → ¬ added isId enc d (n, v) →
        ∀ x, x ∈ r ↔ x ∈ d ∨ ∃ m w, (m, w) ∈ (n, v) :: env ∧ added isId enc d (m, w) ∧ x = (m, Offer.reader w) := by
      intro h hna x
      rw [ih hk.2 h x]
      constructor
      · rintro (h1 | ⟨m, w, h1, h2, h3⟩)
        · exact .inl h1
        · exact .inr ⟨m, w, List.mem_cons_of_mem _ h1, h2, h3⟩
      · rintro (h1 | ⟨m, w, h1, h2, h3⟩)
        · exact .inl h1
        · rcases List.mem_cons.1 h1 with e | h1
          · cases e; exact absurd h2 hna
          · exact .inr ⟨m, w, h1, h2, h3⟩
    split at h
    · rename_i hc
      refine skip h ?_
      rintro ⟨h1, h2, -⟩
      rw [Bool.or_eq_true] at hc
      rcases hc with hc | hc
      · exact h1 (hiff.1 hc)
      · simp only at h2; rw [h2] at hc; simp at hc
    · rename_i hc
      rw [Bool.or_eq_true, not_or] at hc
      obtain ⟨hc1, hc2⟩ := hc
      cases hd : defineReader enc v with
      | raise e => rw [hd] at h; cases h
      | skip =>
        rw [hd] at h
        refine skip h ?_
        rintro ⟨-, -, h3⟩
        simp only at h3
        cases v with
        | tool t => rw [defineReader] at hd; cases hd
        | agent o => rw [defineReader, h3] at hd; cases hd; simp
        | other o => rw [defineReader, h3] at hd; cases hd; simp
      | ok =>
        rw [hd] at h
        have henc : enc v = .ok := by
          cases v with
          | tool t => rw [defineReader] at hd; cases hd
          | agent o => rw [defineReader] at hd; exact hd; simp
          | other o => rw [defineReader] at hd; exact hd; simp
        simp only at h
        rw [dictSet_new (Bool.eq_false_iff.2 hc1)] at h
        intro x
        rw [ih hk.2 h x]
        have hn : n ∉ d.map Prod.fst := fun hm => hc1 (hiff.2 hm)
        constructor
        · rintro (h1 | ⟨m, w, h1, ⟨h2, h3⟩, h4⟩)
          · rcases List.mem_append.1 h1 with h1 | h1
            · exact .inl h1
            · simp only [List.mem_singleton] at h1
              exact .inr ⟨n, v, by simp, ⟨hn, by simpa using hc2, henc⟩, h1⟩
          · refine .inr ⟨m, w, List.mem_cons_of_mem _ h1, ⟨?_, h3⟩, h4⟩
            intro hm
            apply h2
            rw [List.map_append]
            exact List.mem_append.2 (.inl hm)
        · rintro (h1 | ⟨m, w, h1, ⟨h2, h3⟩, h4⟩)
          · exact .inl (List.mem_append.2 (.inl h1))
          · rcases List.mem_cons.1 h1 with e | h1
            · cases e; subst h4; exact .inl (by simp)
            · refine .inr ⟨m, w, h1, ⟨?_, h3⟩, h4⟩
              simp only [List.map_append, List.map_cons, List.map_nil, List.mem_append, List.mem_singleton, not_or]
              refine ⟨h2, ?_⟩
              intro e
              apply hk.1
              rw [← e]
              exact List.mem_map.2 ⟨(m, w), h1, rfl⟩

/-- Exactly the tools collected otherwise are offered, under the same names, and a reader of the value for every other
name of the environment that is an identifier and whose value has a schema. -/
theorem C58_offered (isId : Name → Bool) (enc : EnvVal → Enc) (env : Env) (hk : (env.map Prod.fst).Nodup)
    (d : List (Name × ToolId)) (hd : collectTools env = .ok d) (r : List (Name × Offer))
    (h : collectReaders isId enc env = .ok r) :
    (∀ n t, (n, Offer.real t) ∈ r ↔ (n, t) ∈ d) ∧
    (∀ n v, (n, Offer.reader v) ∈ r ↔
      (n, v) ∈ env ∧ n ∉ d.map Prod.fst ∧ isId n = true ∧ enc v = .ok) := by
  unfold collectReaders at h
  rw [hd] at h
  have hm := readersLoop_mem hk h
  refine ⟨?_, ?_⟩
  · intro n t
    rw [hm]
    constructor
    · rintro (h1 | ⟨m, w, -, -, e⟩)
      · obtain ⟨x, hx, e⟩ := List.mem_map.1 h1
        cases e; exact hx
      · cases e
    · intro h1; exact .inl (List.mem_map.2 ⟨_, h1, rfl⟩)
  · intro n v
    rw [hm]
    have hkeys : (d.map (fun x => (x.1, Offer.real x.2))).map Prod.fst = d.map Prod.fst := by
      rw [List.map_map]; rfl
    constructor
    · rintro (h1 | ⟨m, w, h1, ⟨h2, h3, h4⟩, e⟩)
      · obtain ⟨x, hx, e⟩ := List.mem_map.1 h1
        cases e
      · cases e
        rw [hkeys] at h2
        exact ⟨h1, h2, h3, h4⟩
    · rintro ⟨h1, h2, h3, h4⟩
      exact .inr ⟨n, v, h1, ⟨by rw [hkeys]; exact h2, h3, h4⟩, rfl⟩

theorem readersLoop_ok {isId : Name → Bool} {enc : EnvVal → Enc} {env : Env} {d : List (Name × Offer)}
    (ht : ∀ n t, (n, EnvVal.tool t) ∈ env → n ∈ d.map Prod.fst)
    (he : ∀ n v, (n, v) ∈ env → ∀ e, enc v ≠ .raise e) : ∃ r, readersLoop isId enc env d = .ok r := by
  induction env generalizing d with
  | nil => exact ⟨d, by rw [readersLoop]⟩
  | cons y env ih =>
    obtain ⟨n, v⟩ := y
    have he' := fun m w hm => he m w (List.mem_cons_of_mem (n, v) hm)
    rw [readersLoop]
    split
    · exact ih (fun m t hm => ht m t (List.mem_cons_of_mem _ hm)) he'
    · rename_i hc
      rw [Bool.or_eq_true, not_or] at hc
      cases hd : defineReader enc v with
      | skip => exact ih (fun m t hm => ht m t (List.mem_cons_of_mem _ hm)) he'
      | ok =>
        refine ih ?_ he'
        intro m t hm
        obtain ⟨x, hx, e⟩ := List.mem_map.1 (ht m t (List.mem_cons_of_mem _ hm))
        rw [dictSet_new (Bool.eq_false_iff.2 hc.1), List.map_append]
        exact List.mem_append.2 (.inl (List.mem_map.2 ⟨x, hx, e⟩))
      | raise e =>
        exfalso
        cases v with
        | tool t =>
          apply hc.1
          simpa using ht n t (by simp)
        | agent o => rw [defineReader] at hd; exact he n _ (by simp) e hd; simp
        | other o => rw [defineReader] at hd; exact he n _ (by simp) e hd; simp

/-- Collecting succeeds if no attribute of an agent raises, making schemas raises none but the expected exceptions, and
no tool is bound to a name that is not kept for it. -/
theorem C58_defined_partial (isId : Name → Bool) (enc : EnvVal → Enc) (env : Env) (hn : NoRaise env)
    (he : ∀ n v, (n, v) ∈ env → ∀ e, enc v ≠ .raise e)
    (ha : ∀ d, collectTools env = .ok d → ∀ n t, (n, EnvVal.tool t) ∈ env → n ∈ d.map Prod.fst) :
    ∃ r, collectReaders isId enc env = .ok r := by
  obtain ⟨d, hd⟩ := C44_defined_partial env hn
  unfold collectReaders
  rw [hd]
  refine readersLoop_ok ?_ he
  intro n t hm
  rw [List.map_map]
  exact ha d hd n t hm

/-- A tool that is bound to two names makes collecting raise: one name is removed as a duplicate, and a reader is made
for it. -/
theorem C58_alias_fails : ∃ env, (∃ r, collectTools env = .ok r) ∧
    collectReaders (fun _ => true) (fun _ => .ok) env = .error assertionError :=
  ⟨[(nF, .tool 1), (nG, .tool 1)], ⟨[(nG, 1)], rfl⟩, rfl⟩

/-- An agent gets a reader if there is a schema for it (it is a dataclass, for instance). -/
theorem C58_agent_fails : ∃ env n o r, collectReaders (fun _ => true) (fun _ => .ok) env = .ok r ∧
    (n, Offer.reader (.agent o)) ∈ r :=
  ⟨[(nSelf, .agent bot)], nSelf, bot, [(nSelfF, .real 7), (nSelf, .reader (.agent bot))], rfl, by simp⟩

example : (collectReaders (fun _ => true) (fun v => match v with | .other 5 => .skip | _ => .ok)
    [(nX, .other 1), (nF, .tool 2), (nN, .other 5)]).toOption.map (fun r => r.map Prod.fst) = some [nF, nX] := by decide

end Verif.Llm
