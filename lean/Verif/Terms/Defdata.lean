import Verif.Terms.Rename

/-!
# Building terms, free variables
-/

namespace Verif.Terms

open Verif.Scoped (Sig Err TyVar Ext)

/-! ## Specification -/

/-- `v` occurs free in an expression: as operation of a term or as a value, outside the arguments
in which it is bound. -/
inductive FreeOp (G : Sigs) (v : Op) : Expr → Prop where
  | value : FreeOp G v (.op v)
  | head {sl xs} : FreeOp G v (.node (.term v sl) xs)
  | arg {o sl xs Bs B} {k : Nat} {x : Expr} : G.bounds o sl xs = .ok Bs → xs[k]? = some x →
      Bs[k]? = some B → v ∉ B → FreeOp G v x → FreeOp G v (.node (.term o sl) xs)
  | part {t xs} {x : Expr} : Tag.isTerm t = false → x ∈ xs → FreeOp G v x → FreeOp G v (.node t xs)

/-- Replace the operations in `B` by new ones. -/
def renameIn (ρ : Op → Op) (x : Expr) (B : List Op) : Expr :=
  rename (fun o => if o ∈ B then ρ o else o) x

/-! ## The result of defdata -/

theorem renameArgs_ok {G : Sigs} {ρ : Renaming} {lo hi : Nat} (hf : Fresh ρ lo hi)
    {xs : List Expr} {Bs : List (List Op)} (n : Nat) (hl : xs.length = Bs.length)
    (hw : ∀ x ∈ xs, Wf G x) (hid : ∀ x ∈ xs, ∀ o ∈ x.ops, o.id < lo) :
    renameArgs ρ xs Bs n = .ok (List.zipWith (renameIn (ren ρ)) xs Bs) := by
  induction xs generalizing Bs with
  | nil => cases Bs <;> rfl
  | cons x xs ih =>
    cases Bs with
    | nil => simp at hl
    | cons B Bs =>
      have h1 := evaluate_ren (ρ := ρ.filter (fun e => B.contains e.1)) (hw x List.mem_cons_self) n
        ((hf.filter B).injOn.mono (fun o ho => hid x List.mem_cons_self o ho))
      rw [renameArgs, h1, ih (by simpa using hl) (fun x hx => hw x (List.mem_cons_of_mem _ hx))
        (fun x hx => hid x (List.mem_cons_of_mem _ hx))]
      simp only [List.zipWith, Except.ok.injEq, List.cons.injEq, and_true]
      unfold renameIn
      exact rename_congr x (fun o _ => ren_filter ρ B o)

/-- What `defdata` builds. -/
theorem defdata_spec {G : Sigs} {o : Op} {sl : List Slot} {xs : List Expr} {n : Nat}
    {Bs : List (List Op)} (hb : G.bounds o sl xs = .ok Bs) (hl : sl.length = xs.length)
    (hw : ∀ x ∈ xs, Wf G x) (hid : ∀ x ∈ xs, ∀ o ∈ x.ops, o.id < n) :
    ∃ (ρ : Op → Op) (n' : Nat), n ≤ n' ∧
      defdata G o sl xs n = .ok (.node (.term o sl) (List.zipWith (renameIn ρ) xs Bs), n') ∧
      (∀ v ∈ Bs.flatten, n ≤ (ρ v).id ∧ (ρ v).id < n') ∧ KindPres ρ ∧
      InjOn ρ (fun o => o.id < n) := by
  have hlen : xs.length = Bs.length := by rw [← hl, Verif.Scoped.fvsRule_length hb]
  obtain ⟨hf, hn, hd⟩ := fresh_freshen (vs := Bs.flatten) (ρ := []) (Nat.le_refl n)
    ⟨fun v w h => by simp at h, fun v v' w h => by simp at h⟩
  refine ⟨ren (freshen Bs.flatten [] n).1, (freshen Bs.flatten [] n).2, hn, ?_, ?_, hf.kind,
    hf.injOn⟩
  · unfold defdata
    rw [hb]
    simp only
    rw [renameArgs_ok hf _ hlen hw hid]
  · intro v hv
    have hs := (hd v).2 (.inl hv)
    unfold ren
    cases e : (freshen Bs.flatten [] n).1.lookup v with
    | none => rw [e] at hs; cases hs
    | some w =>
      obtain ⟨a, b, _⟩ := hf.range v w e
      exact ⟨a, b⟩

/-- The renaming of one argument. -/
def renB (ρ : Op → Op) (B : List Op) (o : Op) : Op := if o ∈ B then ρ o else o

theorem renB_kind {ρ : Op → Op} (h : KindPres ρ) (B : List Op) : KindPres (renB ρ B) := by
  intro o
  unfold renB
  split
  · exact h o
  · rfl

theorem renB_inj {ρ : Op → Op} {n : Nat} (h : InjOn ρ (fun o => o.id < n)) {B : List Op}
    (hB : ∀ v ∈ B, n ≤ (ρ v).id) : InjOn (renB ρ B) (fun o => o.id < n) := by
  intro a b ha hb e
  unfold renB at e
  by_cases h1 : a ∈ B <;> by_cases h2 : b ∈ B
  · rw [if_pos h1, if_pos h2] at e; exact h a b ha hb e
  · rw [if_pos h1, if_neg h2] at e
    have := hB a h1
    rw [e] at this
    omega
  · rw [if_neg h1, if_pos h2] at e
    have := hB b h2
    rw [← e] at this
    omega
  · rw [if_neg h1, if_neg h2] at e; exact e

/-- All facts about the term that is built. -/
structure Built (G : Sigs) (o : Op) (sl : List Slot) (xs : List Expr) (n n' : Nat) (t : Expr) :
    Prop where
  le : n ≤ n'
  wf : Wf G t
  ids : ∀ v ∈ t.ops, v = o ∨ v.id < n'
  db : ∀ E, toDB G E t = toDB G E (.node (.term o sl) xs)

theorem zipWith_getElem? {α β γ : Type} (f : α → β → γ) (xs : List α) (ys : List β) (k : Nat) :
    (List.zipWith f xs ys)[k]? = (xs[k]?).bind (fun x => (ys[k]?).map (f x)) := by
  rw [List.getElem?_zipWith]
  cases xs[k]? <;> cases ys[k]? <;> rfl

theorem built {G : Sigs} {o : Op} {sl : List Slot} {xs : List Expr} {n n' : Nat}
    {Bs : List (List Op)} {ρ : Op → Op} (hb : G.bounds o sl xs = .ok Bs)
    (hl : sl.length = xs.length)
    (hw : ∀ x ∈ xs, Wf G x) (hid : ∀ x ∈ xs, ∀ o ∈ x.ops, o.id < n) (hn : n ≤ n')
    (hf : ∀ v ∈ Bs.flatten, n ≤ (ρ v).id ∧ (ρ v).id < n') (hk : KindPres ρ)
    (hi : InjOn ρ (fun o => o.id < n)) :
    Built G o sl xs n n' (.node (.term o sl) (List.zipWith (renameIn ρ) xs Bs)) := by
  have hlen : xs.length = Bs.length := by rw [← hl, Verif.Scoped.fvsRule_length hb]
  have hfB : ∀ B ∈ Bs, ∀ v ∈ B, n ≤ (ρ v).id ∧ (ρ v).id < n' :=
    fun B hB v hv => hf v (List.mem_flatten.2 ⟨B, hB, hv⟩)
  have src := bounds_source hb
  have hget : ∀ (k : Nat) (x : Expr) (B : List Op), xs[k]? = some x → Bs[k]? = some B →
      (List.zipWith (renameIn ρ) xs Bs)[k]? = some (renameIn ρ x B) := by
    intro k x B hx hB
    rw [zipWith_getElem?, hx, hB]
    rfl
  have hbs : G.bounds o sl (List.zipWith (renameIn ρ) xs Bs) = .ok (Bs.map (List.map ρ)) := by
    refine Verif.Scoped.fvsRule_map hb (by simp [hlen]) ?_ ?_
    · intro k x y B hx hy hB hsub
      rw [hget k x B hx hB] at hy
      cases hy
      constructor
      · unfold renameIn
        rw [extract_rename]
        exact List.map_congr_left (fun v hv => by rw [if_pos (hsub v hv)])
      · intro v e
        subst e
        unfold renameIn
        simp only [rename]
        rw [if_pos (hsub v (by simp [Expr.extract]))]
    · rintro a b ⟨B, hB, ha⟩ ⟨B', hB', hb'⟩ e
      obtain ⟨x, hx, hax⟩ := src B hB a ha
      obtain ⟨x', hx', hbx⟩ := src B' hB' b hb'
      exact hi a b (hid x hx a hax) (hid x' hx' b hbx) e
  have hmem : ∀ y ∈ List.zipWith (renameIn ρ) xs Bs, ∃ x ∈ xs, ∃ B ∈ Bs, y = renameIn ρ x B := by
    intro y hy
    obtain ⟨k, hk⟩ := List.mem_iff_getElem?.1 hy
    rw [zipWith_getElem?] at hk
    cases hx : xs[k]? with
    | none => rw [hx] at hk; cases hk
    | some x =>
      cases hB : Bs[k]? with
      | none => rw [hx, hB] at hk; cases hk
      | some B =>
        rw [hx, hB] at hk
        cases hk
        exact ⟨x, List.mem_of_getElem? hx, B, List.mem_of_getElem? hB, rfl⟩
  refine ⟨hn, ?_, ?_, ?_⟩
  · refine .term hbs (by simp [hl, hlen]) ?_
    intro y hy
    obtain ⟨x, hx, B, hB, rfl⟩ := hmem y hy
    exact wf_rename (hw x hx) (renB_kind hk B)
      ((renB_inj hi (fun v hv => (hfB B hB v hv).1)).mono (fun o ho => hid x hx o ho))
  · intro v hv
    rw [Expr.mem_ops_node] at hv
    rcases hv with ⟨_, h⟩ | ⟨y, hy, hv⟩
    · cases h; exact .inl rfl
    · right
      obtain ⟨x, hx, B, hB, rfl⟩ := hmem y hy
      unfold renameIn at hv
      obtain ⟨w, hw', rfl⟩ := mem_ops_rename.1 hv
      split
      · rename_i h; exact (hfB B hB w h).2
      · have := hid x hx w hw'; omega
  · intro E
    rw [toDB_term, toDB_term, bound_ok hbs, bound_ok hb]
    congr 1
    apply List.ext_getElem?
    intro k
    simp only [List.getElem?_map, List.getElem?_zipIdx, Nat.zero_add]
    rw [zipWith_getElem?]
    cases hx : xs[k]? with
    | none => rfl
    | some x =>
      have hkl : k < xs.length := by
        rw [List.getElem?_eq_some_iff] at hx; exact hx.1
      have hB : Bs[k]? = some Bs[k] := List.getElem?_eq_getElem (by omega)
      generalize Bs[k] = B at hB
      simp only [hB, Option.bind_some, Option.map_some, List.getD_eq_getElem?_getD,
        List.getElem?_map, Option.getD_some, Option.some.injEq]
      have hxm := List.mem_of_getElem? hx
      have hBm := List.mem_of_getElem? hB
      unfold renameIn
      apply toDB_rename (renB_kind hk B) (hw x hxm)
      · exact (renB_inj hi (fun v hv => (hfB B hBm v hv).1)).mono (fun o ho => hid x hxm o ho)
      · intro v hv
        have hvn := hid x hxm v hv
        simp only [look]
        by_cases hvB : v ∈ B
        · have e : renB ρ B v = ρ v := if_pos hvB
          rw [e, if_pos (List.mem_map.2 ⟨v, hvB, rfl⟩), if_pos hvB, hk v, idxOf_map]
          intro w hw' e'
          obtain ⟨x', hx', hwx⟩ := src B hBm w hw'
          exact hi w v (hid x' hx' w hwx) hvn e'
        · have e : renB ρ B v = v := if_neg hvB
          rw [e, if_neg hvB, if_neg]
          intro hc
          obtain ⟨w, hw', e⟩ := List.mem_map.1 hc
          have := (hfB B hBm w hw').1
          rw [e] at this
          omega

/-! ## Free variables in nameless form -/

mutual

/-- `free v` occurs. -/
def DExpr.has (v : Op) : DExpr → Bool
  | .atom _ => false
  | .op w => w = .free v
  | .term w _ xs => w = .free v || DExpr.hasL v xs
  | .node _ xs => DExpr.hasL v xs

def DExpr.hasL (v : Op) : List DExpr → Bool
  | [] => false
  | x :: xs => x.has v || DExpr.hasL v xs

end

theorem hasL_iff (v : Op) (xs : List DExpr) : DExpr.hasL v xs = true ↔ ∃ x ∈ xs, x.has v = true := by
  induction xs with
  | nil => simp [DExpr.hasL]
  | cons x xs ih => simp [DExpr.hasL, ih]

theorem look_free {E : List (List Op)} {o v : Op} (h : look E o = .free v) : o = v := by
  induction E with
  | nil => simpa [look] using h
  | cons B E ih =>
    simp only [look] at h
    split at h
    · cases h
    · cases h' : look E o with
      | bound i j k => rw [h'] at h; cases h
      | free w => rw [h'] at h; cases h; exact ih h'

theorem look_cons_free {B : List Op} {E : List (List Op)} {v : Op} :
    look (B :: E) v = .free v ↔ v ∉ B ∧ look E v = .free v := by
  simp only [look]
  by_cases h : v ∈ B
  · simp [h]
  · simp only [h, not_false_eq_true, true_and]
    cases look E v with
    | bound i j k => simp [DVar.shift]
    | free w => simp [DVar.shift]

theorem look_nil_append (v : Op) : look [] v = .free v := rfl

theorem has_toDB {G : Sigs} {v : Op} {e : Expr} (h : Wf G e) : ∀ (E : List (List Op)),
    (toDB G E e).has v = true ↔ FreeOp G v e ∧ look E v = .free v := by
  have head_iff : ∀ (E : List (List Op)) (o : Op),
      look E o = .free v ↔ o = v ∧ look E v = .free v := by
    intro E o
    constructor
    · intro h; have := look_free h; subst this; exact ⟨rfl, h⟩
    · rintro ⟨rfl, h⟩; exact h
  induction h with
  | atom a =>
    intro E
    simp only [toDB, DExpr.has, Bool.false_eq_true, false_iff]
    rintro ⟨h, _⟩; cases h
  | op o =>
    intro E
    simp only [toDB, DExpr.has, decide_eq_true_eq]
    rw [head_iff]
    constructor
    · rintro ⟨rfl, h⟩; exact ⟨.value, h⟩
    · rintro ⟨h, h'⟩; cases h; exact ⟨rfl, h'⟩
  | @term o sl xs Bs hb hl hw ih =>
    intro E
    have hlen : xs.length = Bs.length := by rw [← hl, Verif.Scoped.fvsRule_length hb]
    rw [toDB_term, bound_ok hb]
    simp only [DExpr.has, Bool.or_eq_true, decide_eq_true_eq, hasL_iff]
    rw [head_iff]
    constructor
    · rintro (⟨rfl, h⟩ | ⟨d, hd, hv⟩)
      · exact ⟨.head, h⟩
      · obtain ⟨⟨x, k⟩, hx, rfl⟩ := List.mem_map.1 hd
        rw [List.mem_zipIdx_iff_getElem?] at hx
        simp only at hx hv
        have hkl : k < xs.length := by
          rw [List.getElem?_eq_some_iff] at hx; exact hx.1
        have hB : Bs[k]? = some Bs[k] := List.getElem?_eq_getElem (by omega)
        generalize Bs[k] = B at hB
        rw [List.getD_eq_getElem?_getD, hB, Option.getD_some,
          ih x (List.mem_of_getElem? hx), look_cons_free] at hv
        exact ⟨.arg hb hx hB hv.2.1 hv.1, hv.2.2⟩
    · rintro ⟨h, he⟩
      cases h with
      | head => exact .inl ⟨rfl, he⟩
      | @arg _ _ _ Bs' B k x hb' hx hB hvB hfx =>
        rw [hb] at hb'
        cases hb'
        right
        refine ⟨_, List.mem_map.2 ⟨(x, k), List.mem_zipIdx_iff_getElem?.2 hx, rfl⟩, ?_⟩
        simp only
        rw [List.getD_eq_getElem?_getD, hB, Option.getD_some,
          ih x (List.mem_of_getElem? hx), look_cons_free]
        exact ⟨hfx, hvB, he⟩
      | part ht => simp [Tag.isTerm] at ht
  | @node t xs ht hs hw ih =>
    intro E
    rw [toDB_node _ _ _ _ ht]
    simp only [DExpr.has, hasL_iff]
    constructor
    · rintro ⟨d, hd, hv⟩
      obtain ⟨x, hx, rfl⟩ := List.mem_map.1 hd
      rw [ih x hx] at hv
      exact ⟨.part ht hx hv.1, hv.2⟩
    · rintro ⟨h, he⟩
      cases h with
      | head => simp [Tag.isTerm] at ht
      | arg => simp [Tag.isTerm] at ht
      | @part _ _ x _ hx hf => exact ⟨_, List.mem_map.2 ⟨x, hx, rfl⟩, (ih x hx E).2 ⟨hf, he⟩⟩

/-- Alpha-equivalent expressions have the same free variables. -/
theorem alpha_free {G : Sigs} {a b : Expr} (ha : Wf G a) (hb : Wf G b) (h : Alpha G a b) (v : Op) :
    FreeOp G v a ↔ FreeOp G v b := by
  have h1 := has_toDB (v := v) ha []
  have h2 := has_toDB (v := v) hb []
  unfold Alpha at h
  rw [h] at h1
  simp only [look, and_true] at h1 h2
  exact h1.symm.trans h2

/-- Nameless forms depend only on the positions of the free variables. -/
theorem toDB_congr {G : Sigs} {e : Expr} (h : Wf G e) : ∀ {E E' : List (List Op)},
    (∀ v, FreeOp G v e → look E v = look E' v) → toDB G E e = toDB G E' e := by
  induction h with
  | atom a => intros; simp [toDB]
  | op o => intro E E' h; simp only [toDB]; rw [h o .value]
  | @term o sl xs Bs hb hl hw ih =>
    intro E E' h
    have hlen : xs.length = Bs.length := by rw [← hl, Verif.Scoped.fvsRule_length hb]
    rw [toDB_term, toDB_term, bound_ok hb, h o .head]
    congr 1
    apply List.map_congr_left
    rintro ⟨x, k⟩ hx
    rw [List.mem_zipIdx_iff_getElem?] at hx
    simp only at hx ⊢
    have hkl : k < xs.length := by
      rw [List.getElem?_eq_some_iff] at hx; exact hx.1
    have hB : Bs[k]? = some Bs[k] := List.getElem?_eq_getElem (by omega)
    generalize Bs[k] = B at hB
    rw [List.getD_eq_getElem?_getD, hB, Option.getD_some]
    apply ih x (List.mem_of_getElem? hx)
    intro v hv
    simp only [look]
    by_cases hvB : v ∈ B
    · simp [hvB]
    · rw [if_neg hvB, if_neg hvB, h v (.arg hb hx hB hvB hv)]
  | @node t xs ht hs hw ih =>
    intro E E' h
    rw [toDB_node _ _ _ _ ht, toDB_node _ _ _ _ ht]
    congr 1
    exact List.map_congr_left (fun x hx => ih x hx (fun v hv => h v (.part ht hx hv)))

end Verif.Terms
