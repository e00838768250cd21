/-!
# C60, C61: splicing generated code into the source of a template

Model of `_def_nodes`, `_find_def_at_lineno`, `splice_into_source`, `_splice_repl` (`handlers/llm/evaluation.py` 142-170,
196-257, 292-337).

* A module is the tree of its nodes that have lines of their own (statements, `except` and `case` clauses) in source order;
  nodes have identities. Expressions hold no definitions and are left out.
* The positions that `ast.parse` gives are not computed; what is assumed of them is `Laid`: `ast.unparse` puts every
  statement on lines of its own.
* `ast.parse(ast.unparse(m))` has the nodes of `m`, with new positions.
-/

namespace Verif.Splice

/-- A tree of nodes. -/
inductive Tree (α : Type) where
  | node (a : α) (body : List (Tree α))

variable {α β : Type}

def Tree.label : Tree α → α
  | .node a _ => a

def Tree.body : Tree α → List (Tree α)
  | .node _ b => b

mutual

/-- The number of nodes. -/
def Tree.size : Tree α → Nat
  | .node _ b => sizes b + 1
termination_by structural t => t

def sizes : List (Tree α) → Nat
  | [] => 0
  | t :: ts => t.size + sizes ts
termination_by structural l => l

end

mutual

/-- Changing labels. -/
def Tree.map (f : α → β) : Tree α → Tree β
  | .node a b => .node (f a) (mapAll f b)
termination_by structural t => t

def mapAll (f : α → β) : List (Tree α) → List (Tree β)
  | [] => []
  | t :: ts => t.map f :: mapAll f ts
termination_by structural l => l

end

/-- `ast.walk` with a queue: the first is taken, its children are added at the end. -/
def walkFrom : Nat → List (Tree α) → List (Tree α)
  | 0, _ => []
  | _ + 1, [] => []
  | n + 1, t :: q => t :: walkFrom n (q ++ t.body)

/-- `ast.walk(module)`. -/
def walk (m : Tree α) : List (Tree α) := walkFrom m.size [m]

/-- What kind of node, and which. -/
structure Info where
  id : Nat
  isDef : Bool
deriving DecidableEq

/-- Positions: the first decorator (or as `lineno`), `lineno`, the last line before the body, `end_lineno`. -/
structure Pos where
  first : Nat
  lineno : Nat
  headEnd : Nat
  endLineno : Nat
deriving DecidableEq

/-- A parsed node. -/
abbrev Parsed := Tree (Info × Pos)

/-- `_def_nodes(module)` (142-152). -/
def defNodes (info : α → Info) (m : Tree α) : List (Tree α) := (walk m).filter (fun t => (info t.label).isDef)

/-- `_find_def_at_lineno(module, lineno)` (155-170). -/
def findDefAt (m : Parsed) (lineno : Nat) : Option Parsed :=
  (defNodes Prod.fst m).find? (fun t => t.label.2.first == lineno)

mutual

/-- `template_def.body = b`. -/
def setBody (t : Nat) (b : List (Tree Info)) : Tree Info → Tree Info
  | .node a c => if a.id = t then .node a b else .node a (setBodies t b c)
termination_by structural m => m

def setBodies (t : Nat) (b : List (Tree Info)) : List (Tree Info) → List (Tree Info)
  | [] => []
  | m :: ms => setBody t b m :: setBodies t b ms
termination_by structural l => l

end

/-- The definition at the index of `t` in the parsed source (`def_index`, `spliced`). -/
def splicedDef (t : Nat) (m : Tree Info) (parsed : Parsed) : Option Parsed :=
  match (defNodes id m).findIdx? (fun d => d.label.id == t) with
  | none => none
  | some i => (defNodes Prod.fst parsed)[i]?

/-- `splice_into_source` (236-257) for the module with the new body: `lo`, `hi`. -/
def spliceRegion (t : Nat) (m : Tree Info) (parsed : Parsed) : Option (Nat × Nat) :=
  match splicedDef t m parsed with
  | none => none
  | some d =>
    match d.body.head? with
    | none => none
    | some s => some (s.label.2.lineno, d.label.2.endLineno)

/-- `_splice_repl` (328-337): `lo`, `hi`, where `n` is the number of statements of the current snippet. -/
def replRegion (t : Nat) (n : Nat) (m : Tree Info) (parsed : Parsed) : Option (Nat × Nat) :=
  match splicedDef t m parsed with
  | none => none
  | some d =>
    match d.body[d.body.length - n]?, d.body.getLast? with
    | some s, some e => some (s.label.2.lineno, e.label.2.endLineno)
    | _, _ => none

/-! ## What is stated -/

mutual

/-- The labels of a tree in source order. -/
def Tree.labels : Tree α → List α
  | .node a b => a :: labelsOf b
termination_by structural t => t

/-- The labels of trees one after the other. -/
def labelsOf : List (Tree α) → List α
  | [] => []
  | t :: ts => t.labels ++ labelsOf ts
termination_by structural l => l

end

/-- `s` is in `m`. -/
inductive Within (s : Tree α) : Tree α → Prop where
  | self : Within s s
  | child {c : Tree α} {a : α} {b : List (Tree α)} : c ∈ b → Within s c → Within s (.node a b)

/-- Positions of a source in which every node has lines of its own: those of a node come after those of all nodes before it;
a node ends with the last one in it. -/
structure Laid (m : Parsed) : Prop where
  order : m.labels.Pairwise (fun x y => x.2.headEnd < y.2.first)
  own : ∀ x ∈ m.labels, x.2.first ≤ x.2.lineno ∧ x.2.lineno ≤ x.2.headEnd
  ends : ∀ s, Within s m → ∃ x, s.labels.getLast? = some x ∧ s.label.2.endLineno = x.2.headEnd

/-- The identities in trees. -/
def ids (b : List (Tree Info)) : List Nat := (labelsOf b).map (·.id)

/-- `lo` to `hi` are the lines of the nodes in `b`, except for decorators of the first one, and of no others. -/
def Covers (m : Parsed) (b : List (Tree Info)) (lo hi : Nat) : Prop :=
  ∀ x ∈ m.labels,
    (x.1.id ∈ ids b → lo ≤ x.2.lineno ∧ x.2.headEnd ≤ hi ∧ (b.head?.map (·.label.id) = some x.1.id ∨ lo ≤ x.2.first)) ∧
    (x.1.id ∉ ids b → x.2.headEnd < lo ∨ hi < x.2.first)

/-! ## Proofs -/

theorem labelsOf_append (l m : List (Tree α)) : labelsOf (l ++ m) = labelsOf l ++ labelsOf m := by
  induction l with
  | nil => rfl
  | cons t l ih => simp [labelsOf, ih]

theorem sizes_append (l m : List (Tree α)) : sizes (l ++ m) = sizes l + sizes m := by
  induction l with
  | nil => simp [sizes]
  | cons t l ih => simp [sizes, ih]; omega

theorem size_eq (t : Tree α) : t.size = sizes t.body + 1 := by cases t; simp [Tree.size, Tree.body]

theorem mapAll_eq (f : α → β) (l : List (Tree α)) : mapAll f l = l.map (Tree.map f) := by
  induction l with
  | nil => rfl
  | cons t l ih => simp [mapAll, ih]

theorem map_body (f : α → β) (t : Tree α) : (t.map f).body = t.body.map (Tree.map f) := by
  cases t; simp [Tree.map, Tree.body, mapAll_eq]

theorem map_label (f : α → β) (t : Tree α) : (t.map f).label = f t.label := by cases t; rfl

mutual

theorem map_size (f : α → β) : ∀ t : Tree α, (t.map f).size = t.size
  | .node a b => by simp [Tree.map, Tree.size, sizes_map f b]
termination_by structural t => t

theorem sizes_map (f : α → β) : ∀ l : List (Tree α), sizes (mapAll f l) = sizes l
  | [] => rfl
  | t :: l => by simp [mapAll, sizes, map_size f t, sizes_map f l]
termination_by structural l => l

end

mutual

theorem map_labels (f : α → β) : ∀ t : Tree α, (t.map f).labels = t.labels.map f
  | .node a b => by simp [Tree.map, Tree.labels, labelsOf_map f b]
termination_by structural t => t

theorem labelsOf_map (f : α → β) : ∀ l : List (Tree α), labelsOf (mapAll f l) = (labelsOf l).map f
  | [] => rfl
  | t :: l => by simp [mapAll, labelsOf, map_labels f t, labelsOf_map f l]
termination_by structural l => l

end

theorem walkFrom_map (f : α → β) (n : Nat) (q : List (Tree α)) :
    walkFrom n (q.map (Tree.map f)) = (walkFrom n q).map (Tree.map f) := by
  induction n generalizing q with
  | zero => rfl
  | succ n ih =>
    cases q with
    | nil => rfl
    | cons t q =>
      simp only [List.map_cons, walkFrom]
      rw [map_body, ← List.map_append, ih]

theorem walk_map (f : α → β) (m : Tree α) : walk (m.map f) = (walk m).map (Tree.map f) := by
  unfold walk
  rw [map_size, ← walkFrom_map]
  rfl

theorem mem_walkFrom (n : Nat) (q : List (Tree α)) (h : sizes q ≤ n) (s : Tree α) :
    s ∈ walkFrom n q ↔ ∃ t ∈ q, Within s t := by
  induction n generalizing q with
  | zero =>
    cases q with
    | nil => simp [walkFrom]
    | cons t q => rw [sizes, size_eq] at h; omega
  | succ n ih =>
    cases q with
    | nil => simp [walkFrom]
    | cons t q =>
      rw [walkFrom, List.mem_cons, ih (q ++ t.body) (by rw [sizes_append]; rw [sizes, size_eq] at h; omega)]
      constructor
      · rintro (rfl | ⟨c, hc, hw⟩)
        · exact ⟨s, by simp, .self⟩
        · rcases List.mem_append.1 hc with hc | hc
          · exact ⟨c, by simp [hc], hw⟩
          · refine ⟨t, by simp, ?_⟩
            cases t
            exact .child hc hw
      · rintro ⟨c, hc, hw⟩
        rcases List.mem_cons.1 hc with rfl | hc
        · cases hw with
          | self => exact .inl rfl
          | child hb hw => exact .inr ⟨_, List.mem_append_right _ hb, hw⟩
        · exact .inr ⟨c, List.mem_append_left _ hc, hw⟩

/-- The walk reaches all nodes. -/
theorem mem_walk (m s : Tree α) : s ∈ walk m ↔ Within s m := by
  unfold walk
  rw [mem_walkFrom _ _ (by simp [sizes])]
  simp

/-- The nodes in a node are together in the source. -/
theorem labels_of_within {s m : Tree α} (h : Within s m) : ∃ pre post, m.labels = pre ++ s.labels ++ post := by
  induction h with
  | self => exact ⟨[], [], by simp⟩
  | @child c a b hc _ ih =>
    obtain ⟨pre, post, e⟩ := ih
    obtain ⟨l, r, rfl⟩ := List.append_of_mem hc
    refine ⟨a :: labelsOf l ++ pre, post ++ labelsOf r, ?_⟩
    simp [Tree.labels, labelsOf_append, labelsOf, e]

theorem label_mem (s : Tree α) : s.label ∈ s.labels := by cases s; simp [Tree.label, Tree.labels]

theorem mem_labels {s m : Tree α} (h : Within s m) : s.label ∈ m.labels := by
  obtain ⟨pre, post, e⟩ := labels_of_within h
  rw [e]
  simp [label_mem]

theorem mem_labelsOf {s : Tree α} {l : List (Tree α)} (h : s ∈ l) : s.label ∈ labelsOf l := by
  obtain ⟨x, y, rfl⟩ := List.append_of_mem h
  simp [labelsOf_append, labelsOf, label_mem]

theorem within_of_labels {m : Tree α} : ∀ {x}, x ∈ m.labels → ∃ s, Within s m ∧ s.label = x := by
  suffices h : ∀ n (m : Tree α), m.size ≤ n → ∀ x ∈ m.labels, ∃ s, Within s m ∧ s.label = x from
    fun {x} hx => h m.size m (Nat.le_refl _) x hx
  intro n
  induction n with
  | zero => intro m h; rw [size_eq] at h; omega
  | succ n ih =>
    intro m h x hx
    cases m with
    | node a b =>
      rw [Tree.labels, List.mem_cons] at hx
      rcases hx with rfl | hx
      · exact ⟨_, .self, rfl⟩
      · have key : ∀ l : List (Tree α), (∀ c ∈ l, c.size ≤ n) → x ∈ labelsOf l → ∃ c ∈ l, x ∈ c.labels := by
          intro l
          induction l with
          | nil => intro _ hx; simp [labelsOf] at hx
          | cons t l ihl =>
            intro hs hx
            rw [labelsOf, List.mem_append] at hx
            rcases hx with hx | hx
            · exact ⟨t, by simp, hx⟩
            · obtain ⟨c, hc, hx⟩ := ihl (fun c hc => hs c (by simp [hc])) hx
              exact ⟨c, by simp [hc], hx⟩
        have hsz : ∀ c ∈ b, c.size ≤ n := by
          intro c hc
          obtain ⟨l, r, rfl⟩ := List.append_of_mem hc
          rw [Tree.size, sizes_append, sizes] at h
          omega
        obtain ⟨c, hc, hx⟩ := key b hsz hx
        obtain ⟨s, hs, e⟩ := ih c (hsz c hc) x hx
        exact ⟨s, .child hc hs, e⟩

theorem setBodies_eq (t : Nat) (b : List (Tree Info)) (l : List (Tree Info)) : setBodies t b l = l.map (setBody t b) := by
  induction l with
  | nil => rfl
  | cons m l ih => simp [setBodies, ih]

/-- Where the body is set, it is `b`; elsewhere in `b` there is no `t`. -/
theorem body_of_setBody {t : Nat} {b : List (Tree Info)} (hb : t ∉ ids b) :
    ∀ {s r : Tree Info}, Within s r → ∀ m, r = setBody t b m → s.label.id = t → s.body = b := by
  have inB : ∀ {s c : Tree Info}, c ∈ b → Within s c → s.label.id ≠ t := by
    intro s c hc hw e
    apply hb
    obtain ⟨l, r, rfl⟩ := List.append_of_mem hc
    have := mem_labels hw
    simp only [ids, labelsOf_append, labelsOf, List.map_append, List.mem_append, List.mem_map]
    exact .inr (.inl ⟨_, this, e⟩)
  intro s r h
  induction h with
  | self =>
    rintro ⟨a, c⟩ rfl
    rw [setBody]
    split
    · intro _; rfl
    · rename_i hn; intro e; exact absurd e hn
  | @child c a d hc hw ih =>
    rintro ⟨a', c'⟩ e
    rw [setBody] at e
    split at e
    · cases e
      intro e'
      exact absurd e' (inB hc hw)
    · cases e
      rw [setBodies_eq, List.mem_map] at hc
      obtain ⟨m, hm, rfl⟩ := hc
      exact ih m rfl

theorem setBody_within {t : Nat} {b : List (Tree Info)} : ∀ {s m : Tree Info}, Within s m → s.label.id = t →
    (∀ u, Within u m → u.label.id = t → u.label.isDef = true) →
    ∃ r, Within r (setBody t b m) ∧ r.label.id = t ∧ r.label.isDef = true := by
  intro s m h
  induction h with
  | self =>
    intro hs hd
    have := hd s .self hs
    cases s with
    | node a c =>
      have hs' : a.id = t := hs
      rw [setBody, if_pos hs']
      exact ⟨_, .self, hs, this⟩
  | @child c a d hc hw ih =>
    intro hs hd
    rw [setBody]
    split
    · rename_i ha
      exact ⟨.node a b, .self, ha, hd (.node a d) .self ha⟩
    · obtain ⟨r, hr, h1, h2⟩ := ih hs (fun u hu => hd u (.child hc hu))
      refine ⟨r, .child ?_ hr, h1, h2⟩
      rw [setBodies_eq]
      exact List.mem_map_of_mem hc

/-- The definition at that index is the one spliced into. -/
theorem splicedDef_spec {t : Nat} {b : List (Tree Info)} {m : Tree Info} {parsed : Parsed}
    (hp : parsed.map Prod.fst = setBody t b m) (hb : t ∉ ids b) {s : Tree Info} (hs : Within s m) (hst : s.label.id = t)
    (hd : ∀ u, Within u m → u.label.id = t → u.label.isDef = true) :
    ∃ d, splicedDef t (setBody t b m) parsed = some d ∧ Within d parsed ∧ d.body.map (Tree.map Prod.fst) = b := by
  obtain ⟨r, hr, h1, h2⟩ := setBody_within (b := b) hs hst hd
  have hrm : r ∈ defNodes id (setBody t b m) := by
    unfold defNodes
    rw [List.mem_filter]
    exact ⟨(mem_walk _ _).2 hr, h2⟩
  have hmap : (defNodes Prod.fst parsed).map (Tree.map Prod.fst) = defNodes id (setBody t b m) := by
    unfold defNodes
    rw [← hp, walk_map, List.filter_map]
    congr 1
    apply List.filter_congr
    intro x _
    simp [map_label]
  unfold splicedDef
  cases hi : (defNodes id (setBody t b m)).findIdx? (fun d => d.label.id == t) with
  | none =>
    rw [List.findIdx?_eq_none_iff] at hi
    have := hi r hrm
    simp [h1] at this
  | some i =>
    rw [List.findIdx?_eq_some_iff_getElem] at hi
    obtain ⟨hlt, hid, -⟩ := hi
    have hlen : (defNodes Prod.fst parsed).length = (defNodes id (setBody t b m)).length := by
      rw [← hmap, List.length_map]
    have hlt' : i < (defNodes Prod.fst parsed).length := by omega
    refine ⟨(defNodes Prod.fst parsed)[i], List.getElem?_eq_getElem hlt', ?_, ?_⟩
    · have := List.getElem_mem hlt'
      unfold defNodes at this
      rw [List.mem_filter] at this
      exact (mem_walk _ _).1 this.1
    · have he : (defNodes Prod.fst parsed)[i].map Prod.fst = (defNodes id (setBody t b m))[i] := by
        simp only [← hmap, List.getElem_map]
      rw [← map_body, he]
      have hw : Within (defNodes id (setBody t b m))[i] (setBody t b m) := by
        have := List.getElem_mem hlt
        unfold defNodes at this
        rw [List.mem_filter] at this
        exact (mem_walk _ _).1 this.1
      exact body_of_setBody hb hw m rfl (by simpa using hid)

/-- Lines of nodes around and in a part of the source. -/
theorem covers_of_split {m : Parsed} (h : Laid m) {c : List Parsed} {pre post : List (Info × Pos)}
    (hl : m.labels = pre ++ labelsOf c ++ post) {b : List (Tree Info)} (hb : c.map (Tree.map Prod.fst) = b)
    (hn : (m.labels.map (·.1.id)).Nodup) {s e : Parsed} (hs : c.head? = some s) (he : c.getLast? = some e)
    (hw : Within e m) : Covers m b s.label.2.lineno e.label.2.endLineno := by
  have hids : ids b = (labelsOf c).map (·.1.id) := by
    unfold ids
    rw [← hb, ← mapAll_eq, labelsOf_map, List.map_map]
    rfl
  obtain ⟨z, hz, hend⟩ := h.ends e hw
  obtain ⟨c', hc⟩ : ∃ c', c = s :: c' := by
    cases c with
    | nil => simp at hs
    | cons a c' => simp at hs; exact ⟨c', by rw [hs]⟩
  have hfirst : ∃ r, labelsOf c = s.label :: r := by
    rw [hc, labelsOf]
    cases s
    exact ⟨_, rfl⟩
  obtain ⟨r, hr⟩ := hfirst
  have hlast : ∃ q, labelsOf c = q ++ [z] := by
    obtain ⟨c'', hc''⟩ := List.getLast?_eq_some_iff.1 he
    obtain ⟨q, hq⟩ := List.getLast?_eq_some_iff.1 hz
    exact ⟨labelsOf c'' ++ q, by rw [hc'', labelsOf_append]; simp [labelsOf, hq]⟩
  obtain ⟨q, hq⟩ := hlast
  have hord := h.order
  rw [hl] at hord
  have hpc := List.pairwise_append.1 hord
  have hpre := List.pairwise_append.1 hpc.1
  have hown := h.own
  rw [hl] at hown
  rw [hl] at hn
  have hsm : s.label ∈ labelsOf c := by rw [hr]; simp
  have hzm : z ∈ labelsOf c := by rw [hq]; simp
  have hso := hown s.label (by simp [hsm])
  have hzo := hown z (by simp [hzm])
  intro x hx
  rw [hl] at hx
  rw [hids]
  simp only [List.map_append] at hn
  have hn1 := List.nodup_append.1 hn
  have hn2 := List.nodup_append.1 hn1.1
  have hxo := hown x hx
  have hfst : b.head?.map (·.label.id) = some s.label.1.id := by
    rw [← hb, hc]
    simp [map_label]
  rw [hend]
  rcases List.mem_append.1 hx with hx | hx
  · rcases List.mem_append.1 hx with hx | hx
    · refine ⟨?_, fun _ => .inl ?_⟩
      · intro hi
        exact absurd rfl (hn2.2.2 _ (List.mem_map_of_mem hx) _ hi)
      · have := hpre.2.2 x hx s.label hsm
        omega
    · refine ⟨fun _ => ?_, fun hi => absurd (List.mem_map_of_mem hx) hi⟩
      have hin := hpre.2.1
      have h1 : x = s.label ∨ s.label.2.headEnd < x.2.first := by
        rw [hr] at hin hx
        rcases List.mem_cons.1 hx with e | hx
        · exact .inl e
        · exact .inr ((List.pairwise_cons.1 hin).1 x hx)
      have h2 : x = z ∨ x.2.headEnd < z.2.first := by
        rw [hq] at hin hx
        rcases List.mem_append.1 hx with hx | hx
        · exact .inr ((List.pairwise_append.1 hin).2.2 x hx z (by simp))
        · simp at hx; exact .inl hx
      refine ⟨?_, ?_, ?_⟩
      · rcases h1 with rfl | h1 <;> omega
      · rcases h2 with rfl | h2 <;> omega
      · rcases h1 with rfl | h1
        · exact .inl hfst
        · exact .inr (by omega)
  · refine ⟨?_, fun _ => .inr ?_⟩
    · intro hi
      exact absurd rfl (hn1.2.2 _ (List.mem_append_right _ hi) _ (List.mem_map_of_mem hx))
    · exact hpc.2.2 z (by simp [hzm]) x hx

theorem within_trans {a b c : Tree α} (h : Within a b) (h' : Within b c) : Within a c := by
  induction h' with
  | self => exact h
  | child hc _ ih => exact .child hc ih

theorem nodup_parsed {m : Parsed} {r : Tree Info} (hp : m.map Prod.fst = r) (hn : (ids [r]).Nodup) :
    (m.labels.map (·.1.id)).Nodup := by
  rw [← hp] at hn
  simpa [ids, labelsOf, map_labels, List.map_map, Function.comp_def] using hn

/-- What the assumptions on a splice are: `t` is a definition in `m`, the generated nodes are new, the parsed source is that
of the module with the new body. -/
structure Spliced (t : Nat) (b : List (Tree Info)) (m : Tree Info) (parsed : Parsed) : Prop where
  same : parsed.map Prod.fst = setBody t b m
  unique : (ids [setBody t b m]).Nodup
  fresh : t ∉ ids b
  exists_def : ∃ s, Within s m ∧ s.label.id = t
  is_def : ∀ u, Within u m → u.label.id = t → u.label.isDef = true
  laid : Laid parsed

/-- The region of `splice_into_source` is the generated code, except for decorators of its first statement. -/
theorem C60_splice_partial {t : Nat} {b : List (Tree Info)} {m : Tree Info} {parsed : Parsed} (h : Spliced t b m parsed)
    (hne : b ≠ []) : ∃ lo hi, spliceRegion t (setBody t b m) parsed = some (lo, hi) ∧ Covers parsed b lo hi := by
  obtain ⟨s, hs, hst⟩ := h.exists_def
  obtain ⟨d, h1, h2, h3⟩ := splicedDef_spec h.same h.fresh hs hst h.is_def
  cases d with
  | node a c =>
    simp only [Tree.body] at h3
    have hcne : c ≠ [] := by rintro rfl; exact hne (by rw [← h3]; rfl)
    obtain ⟨pre, post, e⟩ := labels_of_within h2
    have hl : parsed.labels = (pre ++ [a]) ++ labelsOf c ++ post := by rw [e]; simp [Tree.labels]
    have hwl : Within (c.getLast hcne) parsed := within_trans (.child (List.getLast_mem hcne) .self) h2
    obtain ⟨z, hz, hend⟩ := h.laid.ends _ hwl
    obtain ⟨z', hz', hend'⟩ := h.laid.ends _ h2
    have hzz : z' = z := by
      have hx : labelsOf c = labelsOf c.dropLast ++ (c.getLast hcne).labels := by
        conv => lhs; rw [← List.dropLast_concat_getLast hcne]
        rw [labelsOf_append]; simp [labelsOf]
      have hne' : (c.getLast hcne).labels ≠ [] := by cases c.getLast hcne; simp [Tree.labels]
      rw [Tree.labels, hx, ← List.cons_append, List.getLast?_append, hz] at hz'
      simpa using hz'.symm
    cases c with
    | nil => exact absurd rfl hcne
    | cons f c' =>
      refine ⟨f.label.2.lineno, a.2.endLineno, ?_, ?_⟩
      · unfold spliceRegion
        rw [h1]
        rfl
      · have := covers_of_split h.laid hl h3 (nodup_parsed h.same h.unique) (s := f) rfl
          (List.getLast?_eq_some_getLast hcne) hwl
        rw [show a.2.endLineno = ((f :: c').getLast hcne).label.2.endLineno from by
          rw [hend, ← hzz]; exact hend']
        exact this

/-- The region of `_splice_repl` is the current snippet `cur`, except for decorators of its first statement; the earlier
snippets are outside of it. -/
theorem C60_repl_partial {t : Nat} {prior cur : List (Tree Info)} {m : Tree Info} {parsed : Parsed}
    (h : Spliced t (prior ++ cur) m parsed) (hne : cur ≠ []) :
    ∃ lo hi, replRegion t cur.length (setBody t (prior ++ cur) m) parsed = some (lo, hi) ∧ Covers parsed cur lo hi := by
  obtain ⟨s, hs, hst⟩ := h.exists_def
  obtain ⟨d, h1, h2, h3⟩ := splicedDef_spec h.same h.fresh hs hst h.is_def
  cases d with
  | node a c =>
    simp only [Tree.body] at h3
    obtain ⟨pre, post, e⟩ := labels_of_within h2
    obtain ⟨cp, cc, rfl, hp, hc⟩ := List.map_eq_append_iff.1 h3
    have hcne : cc ≠ [] := by rintro rfl; exact hne (by rw [← hc]; rfl)
    have hl : parsed.labels = (pre ++ a :: labelsOf cp) ++ labelsOf cc ++ post := by
      rw [e]; simp [Tree.labels, labelsOf_append]
    have hwl : Within (cc.getLast hcne) parsed :=
      within_trans (.child (List.mem_append_right _ (List.getLast_mem hcne)) .self) h2
    have hlen : cur.length = cc.length := by rw [← hc, List.length_map]
    refine ⟨(cc.head hcne).label.2.lineno, (cc.getLast hcne).label.2.endLineno, ?_, ?_⟩
    · unfold replRegion
      rw [h1, hlen]
      simp only [Tree.body, List.length_append, Nat.add_sub_cancel]
      have e1 : (cp ++ cc)[cp.length]? = some (cc.head hcne) := by
        rw [List.getElem?_append_right (Nat.le_refl _), Nat.sub_self, ← List.head?_eq_getElem?,
          List.head?_eq_some_head hcne]
      have e2 : (cp ++ cc).getLast? = some (cc.getLast hcne) := by
        rw [List.getLast?_append, List.getLast?_eq_some_getLast hcne]; rfl
      rw [e1, e2]
    · exact covers_of_split h.laid hl hc (nodup_parsed h.same h.unique) (List.head?_eq_some_head hcne)
        (List.getLast?_eq_some_getLast hcne) hwl

/-- If no two definitions start on one line, each is found by its line. -/
theorem C61_found (m d : Parsed) (hd : Within d m) (hdef : d.label.1.isDef = true)
    (hu : ∀ e, Within e m → e.label.1.isDef = true → e.label.2.first = d.label.2.first → e = d) :
    findDefAt m d.label.2.first = some d := by
  unfold findDefAt
  have hm : d ∈ defNodes Prod.fst m := by
    unfold defNodes
    rw [List.mem_filter]
    exact ⟨(mem_walk _ _).2 hd, hdef⟩
  cases hf : (defNodes Prod.fst m).find? (fun t => t.label.2.first == d.label.2.first) with
  | none =>
    rw [List.find?_eq_none] at hf
    exact absurd (by simp) (hf d hm)
  | some e =>
    have h1 := List.mem_of_find?_eq_some hf
    have h2 := List.find?_some hf
    unfold defNodes at h1
    rw [List.mem_filter] at h1
    rw [hu e ((mem_walk _ _).1 h1.1) h1.2 (by simpa using h2)]

/-- What is found starts on that line; nothing is found only if no definition does. -/
theorem C61_located (m : Parsed) (n : Nat) :
    (∀ d, findDefAt m n = some d → Within d m ∧ d.label.1.isDef = true ∧ d.label.2.first = n) ∧
    (findDefAt m n = none ↔ ∀ d, Within d m → d.label.1.isDef = true → d.label.2.first ≠ n) := by
  unfold findDefAt defNodes
  constructor
  · intro d hd
    have h1 := List.mem_of_find?_eq_some hd
    have h2 := List.find?_some hd
    rw [List.mem_filter] at h1
    exact ⟨(mem_walk _ _).1 h1.1, h1.2, by simpa using h2⟩
  · rw [List.find?_eq_none]
    constructor
    · intro h d hd hdef e
      exact h d (List.mem_filter.2 ⟨(mem_walk _ _).2 hd, hdef⟩) (by simp [e])
    · intro h d hd
      rw [List.mem_filter] at hd
      simpa using h d ((mem_walk _ _).1 hd.1) hd.2

theorem unique_of_nodup {κ : Type} (key : α → κ) {d m : Tree α} (hd : Within d m) :
    ∀ {e}, Within e m → (m.labels.map key).Nodup → key e.label = key d.label → e = d := by
  have up : ∀ {s c : Tree α} {b : List (Tree α)}, c ∈ b → Within s c → key s.label ∈ (labelsOf b).map key := by
    intro s c b hc hw
    obtain ⟨l, r, rfl⟩ := List.append_of_mem hc
    simp only [labelsOf_append, labelsOf, List.map_append, List.mem_append]
    exact .inr (.inl (List.mem_map_of_mem (mem_labels hw)))
  induction hd with
  | self =>
    intro e he hn hk
    cases he with
    | self => rfl
    | child hc hw =>
      rw [Tree.labels, List.map_cons, List.nodup_cons] at hn
      have := up hc hw
      rw [hk] at this
      exact absurd this hn.1
  | @child c a b hc hw ih =>
    intro e he hn hk
    rw [Tree.labels, List.map_cons, List.nodup_cons] at hn
    cases he with
    | self =>
      have := up hc hw
      rw [← hk] at this
      exact absurd this hn.1
    | @child c' _ _ hc' hw' =>
      obtain ⟨l, r, rfl⟩ := List.append_of_mem hc
      have hn' := hn.2
      simp only [labelsOf_append, labelsOf, List.map_append] at hn'
      have h1 := List.nodup_append.1 hn'
      have h2 := List.nodup_append.1 h1.2.1
      have hdm : key d.label ∈ c.labels.map key := List.mem_map_of_mem (mem_labels hw)
      rcases List.mem_append.1 hc' with hc' | hc'
      · exact absurd hk (h1.2.2 _ (up hc' hw') _ (List.mem_append_left _ hdm))
      · rcases List.mem_cons.1 hc' with e' | hc'
        · rw [e'] at hw'
          exact ih hw' h2.1 hk
        · exact absurd hk.symm (h2.2.2 _ hdm _ (up hc' hw'))

/-- In a source where every node has lines of its own, each definition is found by its line. -/
theorem C61_laid (m d : Parsed) (hm : Laid m) (hd : Within d m) (hdef : d.label.1.isDef = true) :
    findDefAt m d.label.2.first = some d := by
  refine C61_found m d hd hdef (fun e he _ hk => ?_)
  refine unique_of_nodup (fun x => x.2.first) hd he ?_ hk
  rw [List.Nodup, List.pairwise_map]
  refine hm.order.imp_of_mem ?_
  intro x y hx _ h
  have := hm.own x hx
  omega

/-! ## Examples -/

namespace SpliceExample

/-- A module (0) with a function (1) before and a template (2) with its body (3), inside a function (4) -/
def before : Tree Info :=
  .node ⟨0, false⟩ [.node ⟨1, true⟩ [.node ⟨10, false⟩ []], .node ⟨4, true⟩ [.node ⟨2, true⟩ [.node ⟨3, false⟩ []]],
    .node ⟨11, false⟩ []]

/-- Generated: a statement and a function, and the `return`. -/
def code : List (Tree Info) := [.node ⟨20, false⟩ [], .node ⟨21, true⟩ [.node ⟨22, false⟩ []], .node ⟨23, false⟩ []]

def after : Parsed :=
  .node (⟨0, false⟩, ⟨0, 0, 0, 13⟩) [.node (⟨1, true⟩, ⟨1, 1, 1, 2⟩) [.node (⟨10, false⟩, ⟨2, 2, 2, 2⟩) []],
    .node (⟨4, true⟩, ⟨4, 4, 4, 12⟩) [.node (⟨2, true⟩, ⟨5, 6, 7, 12⟩) [.node (⟨20, false⟩, ⟨8, 8, 8, 8⟩) [],
      .node (⟨21, true⟩, ⟨9, 10, 10, 11⟩) [.node (⟨22, false⟩, ⟨11, 11, 11, 11⟩) []], .node (⟨23, false⟩, ⟨12, 12, 12, 12⟩) []]],
    .node (⟨11, false⟩, ⟨13, 13, 13, 13⟩) []]

example : after.map Prod.fst = setBody 2 code before := rfl
example : spliceRegion 2 (setBody 2 code before) after = some (8, 12) := by rfl
example : replRegion 2 2 (setBody 2 code before) after = some (10, 12) := by rfl
example : (findDefAt after 5).map (·.label.1.id) = some 2 := by rfl
example : (ids [setBody 2 code before]).Nodup := by decide

/-- A module with a template (1); generated is one decorated function (2), whose decorator is on line 3. -/
def small : Tree Info := .node ⟨0, false⟩ [.node ⟨1, true⟩ []]
def deco : List (Tree Info) := [.node ⟨2, true⟩ []]
def smallAfter : Parsed :=
  .node (⟨0, false⟩, ⟨0, 0, 0, 4⟩) [.node (⟨1, true⟩, ⟨2, 2, 2, 4⟩) [.node (⟨2, true⟩, ⟨3, 4, 4, 4⟩) []]]

theorem small_laid : Laid smallAfter := by
  refine ⟨by decide, by decide, ?_⟩
  intro s hs
  have : s ∈ walk smallAfter := (mem_walk _ _).2 hs
  have hw : walk smallAfter = [smallAfter, .node (⟨1, true⟩, ⟨2, 2, 2, 4⟩) [.node (⟨2, true⟩, ⟨3, 4, 4, 4⟩) []],
    .node (⟨2, true⟩, ⟨3, 4, 4, 4⟩) []] := rfl
  rw [hw] at this
  simp only [List.mem_cons, List.not_mem_nil, or_false] at this
  rcases this with rfl | rfl | rfl <;> exact ⟨_, rfl, rfl⟩

theorem small_spliced : Spliced 1 deco small smallAfter := by
  have hwalk : walk small = [small, .node ⟨1, true⟩ []] := rfl
  refine ⟨rfl, by decide, by decide, ⟨.node ⟨1, true⟩ [], (mem_walk _ _).1 (by rw [hwalk]; simp), rfl⟩, ?_, small_laid⟩
  intro u hu
  have := (mem_walk _ _).2 hu
  rw [hwalk] at this
  simp only [List.mem_cons, List.not_mem_nil, or_false] at this
  rcases this with rfl | rfl
  · intro h; simp [small, Tree.label] at h
  · intro _; rfl

end SpliceExample

/-- A line of a decorator of the first generated statement is not in the region. -/
theorem C60_decorator_fails : ∃ (t : Nat) (b : List (Tree Info)) (m : Tree Info) (parsed : Parsed) (lo hi : Nat)
    (x : Info × Pos), Spliced t b m parsed ∧ spliceRegion t (setBody t b m) parsed = some (lo, hi) ∧
    x ∈ parsed.labels ∧ x.1.id ∈ ids b ∧ x.2.first < lo :=
  ⟨1, SpliceExample.deco, SpliceExample.small, SpliceExample.smallAfter, 4, 4, (⟨2, true⟩, ⟨3, 4, 4, 4⟩),
    SpliceExample.small_spliced, rfl, by decide, by decide, by decide⟩

/-- Likewise for a snippet. -/
theorem C60_repl_decorator_fails : ∃ (t : Nat) (b : List (Tree Info)) (m : Tree Info) (parsed : Parsed) (lo hi : Nat)
    (x : Info × Pos), Spliced t b m parsed ∧ replRegion t b.length (setBody t b m) parsed = some (lo, hi) ∧
    x ∈ parsed.labels ∧ x.1.id ∈ ids b ∧ x.2.first < lo :=
  ⟨1, SpliceExample.deco, SpliceExample.small, SpliceExample.smallAfter, 4, 4, (⟨2, true⟩, ⟨3, 4, 4, 4⟩),
    SpliceExample.small_spliced, rfl, by decide, by decide, by decide⟩

/-- If the source has changed, another definition may be found without an error: a source in which the definition `2` was on
line 3, and one in which another is. -/
theorem C61_drift_fails : ∃ (old new d e : Parsed), Laid old ∧ Laid new ∧ Within d old ∧ d.label.1.isDef = true ∧
    (∀ x ∈ new.labels, x.1.id ≠ d.label.1.id) ∧ findDefAt new d.label.2.first = some e := by
  refine ⟨SpliceExample.smallAfter, .node (⟨0, false⟩, ⟨0, 0, 0, 3⟩) [.node (⟨7, true⟩, ⟨3, 3, 3, 3⟩) []],
    .node (⟨2, true⟩, ⟨3, 4, 4, 4⟩) [], .node (⟨7, true⟩, ⟨3, 3, 3, 3⟩) [], SpliceExample.small_laid, ⟨by decide, by decide, ?_⟩,
    (mem_walk _ _).1 (by simp [walk, walkFrom, SpliceExample.smallAfter, Tree.size, sizes, Tree.body]), rfl, by decide, rfl⟩
  intro s hs
  have := (mem_walk _ _).2 hs
  simp [walk, walkFrom, Tree.size, sizes, Tree.body] at this
  rcases this with rfl | rfl <;> exact ⟨_, rfl, rfl⟩

end Verif.Splice
