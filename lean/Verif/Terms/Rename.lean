import Verif.Scoped.Equivariance
import Verif.Terms.Alpha

/-!
# Renaming, well-formed expressions and nameless forms
-/

namespace Verif.Terms

open Verif.Scoped (Sig Err TyVar Ext)

/-! ## Well-formed expressions -/

mutual

/-- No terms inside. -/
def Expr.plain : Expr → Bool
  | .atom _ => true
  | .op _ => true
  | .node t xs => !Tag.isTerm t && Expr.plainL xs

def Expr.plainL : List Expr → Bool
  | [] => true
  | x :: xs => x.plain && Expr.plainL xs

end

theorem plainL_iff (xs : List Expr) : Expr.plainL xs = true ↔ ∀ x ∈ xs, x.plain = true := by
  induction xs with
  | nil => simp [Expr.plainL]
  | cons x xs ih => simp [Expr.plainL, ih]

/-- The containers to which C14 applies in full: the container can be rebuilt, sets hold no
operations, keys of mappings are different and hold no terms. -/
def Tag.Sane (t : Tag) (xs : List Expr) : Prop :=
  match t with
  | .term _ _ => True
  | .seq (.other _ b) => b = true
  | .seq _ => True
  | .set => Expr.opsL xs = []
  | .map _ => Pairs xs ∧ (keys xs).Nodup ∧ ∀ k ∈ keys xs, k.plain = true
  | .named _ _ => True
  | .data _ fs => ∀ f ∈ fs, f.2 = true

/-- Expressions in which every container is sane and every term is accepted by the scope analysis
of its operation. -/
inductive Wf (G : Sigs) : Expr → Prop where
  | atom (a : Atom) : Wf G (.atom a)
  | op (o : Op) : Wf G (.op o)
  | term {o sl xs Bs} : G.bounds o sl xs = .ok Bs → sl.length = xs.length → (∀ x ∈ xs, Wf G x) →
      Wf G (.node (.term o sl) xs)
  | node {t xs} : Tag.isTerm t = false → Tag.Sane t xs → (∀ x ∈ xs, Wf G x) → Wf G (.node t xs)

theorem Wf.sub {G : Sigs} {t : Tag} {xs : List Expr} (h : Wf G (.node t xs)) :
    ∀ x ∈ xs, Wf G x := by
  cases h with
  | term _ _ h => exact h
  | node _ _ h => exact h

theorem keys_map (g : Expr → Expr) : ∀ xs : List Expr, keys (xs.map g) = (keys xs).map g
  | [] => rfl
  | [_] => rfl
  | k :: _ :: rest => by simp [keys, keys_map g rest]

theorem pairs_map {g : Expr → Expr} {xs : List Expr} (h : Pairs xs) : Pairs (xs.map g) := by
  induction h with
  | nil => exact .nil
  | cons _ ih => exact .cons ih

theorem mem_keys : ∀ {xs : List Expr} {k : Expr}, k ∈ keys xs → k ∈ xs
  | [], _, h => by simp [keys] at h
  | [_], _, h => by simp [keys] at h
  | k' :: v :: rest, k, h => by
    simp only [keys, List.mem_cons] at h
    rcases h with rfl | h
    · exact List.mem_cons_self
    · exact List.mem_cons_of_mem _ (List.mem_cons_of_mem _ (mem_keys h))

theorem plain_rename (r : Op → Op) (e : Expr) : (rename r e).plain = e.plain := by
  induction e using Expr.ind with
  | atom a => simp [rename]
  | op o => simp [rename, Expr.plain]
  | node t xs ih =>
    cases ht : Tag.isTerm t with
    | false =>
      rw [rename_node _ _ _ ht]
      simp only [Expr.plain, ht]
      congr 1
      rw [Bool.eq_iff_iff, plainL_iff, plainL_iff]
      simp only [List.mem_map, forall_exists_index, and_imp, forall_apply_eq_imp_iff₂]
      exact forall₂_congr (fun x hx => by rw [ih x hx])
    | true =>
      cases t <;> simp [Tag.isTerm] at ht
      rw [rename_term]
      simp [Expr.plain, Tag.isTerm]

theorem nodup_map_rename {r : Op → Op} {l : List Expr} (hn : l.Nodup)
    (h : InjOn r (fun o => ∃ x ∈ l, o ∈ x.ops)) : (l.map (rename r)).Nodup := by
  induction l with
  | nil => simp
  | cons x l ih =>
    rw [List.nodup_cons] at hn
    rw [List.map_cons, List.nodup_cons]
    refine ⟨?_, ih hn.2 (h.mono (fun o ⟨y, hy, ho⟩ => ⟨y, List.mem_cons_of_mem _ hy, ho⟩))⟩
    intro hm
    obtain ⟨y, hy, e⟩ := List.mem_map.1 hm
    have : y = x := rename_inj (h.mono (fun o ho => ho.elim
      (fun ho => ⟨y, List.mem_cons_of_mem _ hy, ho⟩) (fun ho => ⟨x, List.mem_cons_self, ho⟩))) e
    exact hn.1 (this ▸ hy)

theorem sane_rename {r : Op → Op} {t : Tag} {xs : List Expr} (ht : Tag.isTerm t = false)
    (hs : Tag.Sane t xs) (h : InjOn r (fun o => ∃ x ∈ xs, o ∈ x.ops)) :
    Tag.Sane t (xs.map (rename r)) := by
  cases t with
  | term o sl => simp [Tag.isTerm] at ht
  | seq k => cases k <;> exact hs
  | set =>
    have : xs.map (rename r) = xs := by
      conv_rhs => rw [← List.map_id xs]
      apply List.map_congr_left
      intro x hx
      apply rename_self
      intro o ho
      have : o ∈ Expr.opsL xs := Expr.mem_opsL.2 ⟨x, hx, ho⟩
      rw [show Expr.opsL xs = [] from hs] at this
      cases this
    rw [this]; exact hs
  | map k =>
    obtain ⟨h1, h2, h3⟩ := hs
    refine ⟨pairs_map h1, ?_, ?_⟩
    · rw [keys_map]
      exact nodup_map_rename h2 (h.mono (fun o ⟨x, hx, ho⟩ => ⟨x, mem_keys hx, ho⟩))
    · rw [keys_map]
      intro k hk
      obtain ⟨k', hk', rfl⟩ := List.mem_map.1 hk
      rw [plain_rename]
      exact h3 k' hk'
  | named c fs => trivial
  | data c fs => exact hs

/-! ## Renaming and the analysis of scopes -/

/-- A renaming keeps the signatures. -/
def KindPres (r : Op → Op) : Prop := ∀ o, (r o).kind = o.kind

theorem ext_rename (r : Op → Op) (x : Expr) : Ext r x (rename r x) :=
  ⟨extract_rename r x, fun o e => by rw [e]; simp [rename]⟩

theorem bounds_kind (G : Sigs) {o o' : Op} (h : o.kind = o'.kind) (sl : List Slot)
    (xs : List Expr) : G.bounds o sl xs = G.bounds o' sl xs := by
  unfold Sigs.bounds; rw [h]

theorem bounds_source {G : Sigs} {o : Op} {sl : List Slot} {xs : List Expr}
    {Bs : List (List Op)} (h : G.bounds o sl xs = .ok Bs) :
    ∀ B ∈ Bs, ∀ v ∈ B, ∃ x ∈ xs, v ∈ x.ops := by
  intro B hB v hv
  obtain ⟨x, hx, hvx⟩ := Verif.Scoped.fvsRule_source h B hB v hv
  exact ⟨x, hx, Expr.extract_sub_ops x v hvx⟩

theorem bounds_rename {G : Sigs} {o : Op} {sl : List Slot} {xs : List Expr}
    {Bs : List (List Op)} {r : Op → Op} (h : G.bounds o sl xs = .ok Bs) (hk : KindPres r)
    (hi : InjOn r (fun o => ∃ x ∈ xs, o ∈ x.ops)) :
    G.bounds (r o) sl (xs.map (rename r)) = .ok (Bs.map (List.map r)) := by
  rw [bounds_kind G (hk o)]
  have src := bounds_source h
  refine Verif.Scoped.fvsRule_map h (by simp) ?_ ?_
  · intro k x y B hx hy _ _
    rw [List.getElem?_map, hx] at hy
    simp only [Option.map_some, Option.some.injEq] at hy
    subst hy
    exact ext_rename r x
  · rintro a b ⟨B, hB, ha⟩ ⟨B', hB', hb⟩ e
    exact hi a b (src B hB a ha) (src B' hB' b hb) e

theorem wf_rename {G : Sigs} {r : Op → Op} {e : Expr} (h : Wf G e) (hk : KindPres r)
    (hi : InjOn r (fun o => o ∈ e.ops)) : Wf G (rename r e) := by
  induction h with
  | atom a => simp only [rename]; exact .atom a
  | op o => simp only [rename]; exact .op _
  | @term o sl xs Bs hb hl _ ih =>
    rw [rename_term]
    have hi' : InjOn r (fun o => ∃ x ∈ xs, o ∈ x.ops) :=
      hi.mono (fun o ho => Expr.mem_ops_node.2 (.inr ho))
    refine .term (bounds_rename hb hk hi') (by simpa using hl) ?_
    intro y hy
    obtain ⟨x, hx, rfl⟩ := List.mem_map.1 hy
    exact ih x hx (hi'.mono (fun o ho => ⟨x, hx, ho⟩))
  | @node t xs ht hs _ ih =>
    rw [rename_node _ _ _ ht]
    have hi' : InjOn r (fun o => ∃ x ∈ xs, o ∈ x.ops) :=
      hi.mono (fun o ho => Expr.mem_ops_node.2 (.inr ho))
    refine .node ht (sane_rename ht hs hi') ?_
    intro y hy
    obtain ⟨x, hx, rfl⟩ := List.mem_map.1 hy
    exact ih x hx (hi'.mono (fun o ho => ⟨x, hx, ho⟩))

/-! ## Renaming and nameless forms -/

theorem idxOf_map {r : Op → Op} {B : List Op} {o : Op}
    (h : ∀ v ∈ B, r v = r o → v = o) : (B.map r).idxOf (r o) = B.idxOf o := by
  induction B with
  | nil => rfl
  | cons v B ih =>
    rw [List.map_cons, List.idxOf_cons, List.idxOf_cons]
    by_cases e : v = o
    · simp [e]
    · have e' : r v ≠ r o := fun e' => e (h v List.mem_cons_self e')
      have ih' := ih (fun v hv => h v (List.mem_cons_of_mem _ hv))
      have h1 : (r v == r o) = false := by simpa using e'
      have h2 : (v == o) = false := by simpa using e
      rw [h1, h2]
      simp only [cond_false, ih']

theorem look_map {r : Op → Op} {B : List Op} {E E' : List (List Op)} {o : Op}
    (hi : ∀ v ∈ B, r v = r o → v = o) (hk : (r o).kind = o.kind)
    (h : o ∉ B → look E' (r o) = look E o) : look (B.map r :: E') (r o) = look (B :: E) o := by
  simp only [look]
  by_cases hm : o ∈ B
  · rw [if_pos hm, if_pos (List.mem_map.2 ⟨o, hm, rfl⟩), idxOf_map hi, hk]
  · have : r o ∉ B.map r := by
      intro hc
      obtain ⟨v, hv, e⟩ := List.mem_map.1 hc
      exact hm (hi v hv e ▸ hv)
    rw [if_neg hm, if_neg this, h hm]

theorem bound_ok {G : Sigs} {o : Op} {sl : List Slot} {xs : List Expr} {Bs : List (List Op)}
    (h : G.bounds o sl xs = .ok Bs) : G.bound o sl xs = Bs := by
  unfold Sigs.bound; rw [h]

/-- Renaming everything, including the scopes, keeps the nameless form. -/
theorem toDB_rename {G : Sigs} {r : Op → Op} (hk : KindPres r) {e : Expr} (h : Wf G e) :
    ∀ {E E' : List (List Op)}, InjOn r (fun o => o ∈ e.ops) →
      (∀ o ∈ e.ops, look E' (r o) = look E o) → toDB G E' (rename r e) = toDB G E e := by
  induction h with
  | atom a => intros; simp [rename, toDB]
  | op o =>
    intro E E' _ hl
    simp only [rename, toDB]
    rw [hl o (by simp [Expr.ops])]
  | @term o sl xs Bs hb hlen _ ih =>
    intro E E' hi hl
    have hi' : InjOn r (fun o => ∃ x ∈ xs, o ∈ x.ops) :=
      hi.mono (fun o ho => Expr.mem_ops_node.2 (.inr ho))
    rw [rename_term, toDB_term, toDB_term, bound_ok hb, bound_ok (bounds_rename hb hk hi'),
      hl o (Expr.mem_ops_node.2 (.inl ⟨_, rfl⟩))]
    congr 1
    rw [List.zipIdx_map, List.map_map]
    apply List.map_congr_left
    rintro ⟨x, k⟩ hx
    have hxm : x ∈ xs := by
      have := List.mem_zipIdx hx
      rw [this.2.2]; exact List.getElem_mem _
    simp only [Function.comp, Prod.map, id]
    have hB : (Bs.map (List.map r)).getD k [] = (Bs.getD k []).map r := by
      simp only [List.getD_eq_getElem?_getD, List.getElem?_map]
      cases Bs[k]? <;> rfl
    rw [hB]
    apply ih x hxm (hi'.mono (fun o ho => ⟨x, hxm, ho⟩))
    intro o' ho'
    apply look_map
    · intro v hv e
      rw [List.getD_eq_getElem?_getD] at hv
      cases hk : Bs[k]? with
      | none => rw [hk] at hv; cases hv
      | some B =>
        rw [hk] at hv
        exact hi' v o' (bounds_source hb B (List.mem_of_getElem? hk) v hv) ⟨x, hxm, ho'⟩ e
    · exact hk o'
    · intro _
      exact hl o' (Expr.mem_ops_node.2 (.inr ⟨x, hxm, ho'⟩))
  | @node t xs ht _ _ ih =>
    intro E E' hi hl
    rw [rename_node _ _ _ ht, toDB_node _ _ _ _ ht, toDB_node _ _ _ _ ht, List.map_map]
    congr 1
    apply List.map_congr_left
    intro x hx
    exact ih x hx (hi.mono (fun o ho => Expr.mem_ops_node.2 (.inr ⟨x, hx, ho⟩)))
      (fun o ho => hl o (Expr.mem_ops_node.2 (.inr ⟨x, hx, ho⟩)))

/-! ## Evaluation that renames -/

theorem evaluates_map {c : Ctx Nat} {g : Expr → Expr} {xs : List Expr} {n : Nat}
    (h : ∀ x ∈ xs, evaluate c x n = (.ok (g x), n)) :
    evaluates c xs n = (.ok (xs.map g), n) := by
  induction xs with
  | nil => rfl
  | cons x xs ih =>
    rw [evaluates, h x List.mem_cons_self]
    simp only
    rw [ih (fun x hx => h x (List.mem_cons_of_mem _ hx))]
    rfl

theorem build_sane {t : Tag} {xs : List Expr} (ht : Tag.isTerm t = false)
    (hs : Tag.Sane t xs) : build t xs = .ok (.node t xs) := by
  cases t with
  | term o sl => simp [Tag.isTerm] at ht
  | map k =>
    obtain ⟨h1, h2, _⟩ := hs
    simp only [build]
    rw [dictLoop_nodup .nil h1 (by simpa [keys] using h2)]
    rfl
  | data c fs =>
    simp only [build]
    rw [if_neg]
    intro h
    rw [List.any_eq_true] at h
    obtain ⟨f, hf, h2⟩ := h
    rw [hs f hf] at h2
    cases h2
  | _ => rfl

theorem evaluate_ren {G : Sigs} {ρ : Renaming} {e : Expr} (h : Wf G e) (n : Nat)
    (hi : InjOn (ren ρ) (fun o => o ∈ e.ops)) :
    evaluate (renCtx ρ) e n = (.ok (rename (ren ρ) e), n) := by
  induction h with
  | atom a => simp [evaluate, rename]
  | op o => simp [evaluate, rename, renCtx]
  | @term o sl xs Bs hb hlen _ ih =>
    have := evaluates_map (c := renCtx ρ) (g := rename (ren ρ)) (xs := xs) (n := n)
      (fun x hx => ih x hx (hi.mono (fun o ho => Expr.mem_ops_node.2 (.inr ⟨x, hx, ho⟩))))
    rw [evaluate, this, rename_term]
    rfl
  | @node t xs ht hs hx ih =>
    have hev := evaluates_map (c := renCtx ρ) (g := rename (ren ρ)) (xs := xs) (n := n)
      (fun x hx => ih x hx (hi.mono (fun o ho => Expr.mem_ops_node.2 (.inr ⟨x, hx, ho⟩))))
    have hi' : InjOn (ren ρ) (fun o => ∃ x ∈ xs, o ∈ x.ops) :=
      hi.mono (fun o ho => Expr.mem_ops_node.2 (.inr ho))
    rw [rename_node _ _ _ ht]
    by_cases hp : Tag.plain t = true
    · rw [evaluate_plain _ _ _ _ hp, hev]
      simp only
      rw [build_sane ht (sane_rename ht hs hi')]
    · rcases not_plain (by simpa using hp) with ⟨o, sl, rfl⟩ | rfl | ⟨m, rfl⟩
      · simp [Tag.isTerm] at ht
      · have : xs.map (rename (ren ρ)) = xs := by
          conv_rhs => rw [← List.map_id xs]
          apply List.map_congr_left
          intro x hx
          apply rename_self
          intro o ho
          have : o ∈ Expr.opsL xs := Expr.mem_opsL.2 ⟨x, hx, ho⟩
          rw [show Expr.opsL xs = [] from hs] at this
          cases this
        rw [evaluate, this]
      · cases hs

/-! ## New operations -/

theorem lookup_set (v w : Op) (ρ : Renaming) (o : Op) :
    (Renaming.set v w ρ).lookup o = if o = v then some w else ρ.lookup o := by
  induction ρ with
  | nil =>
    simp only [Renaming.set, List.lookup]
    by_cases h : o = v
    · simp [h]
    · have : (o == v) = false := by simpa using h
      simp [this, h]
  | cons e ρ ih =>
    obtain ⟨v', w'⟩ := e
    simp only [Renaming.set]
    by_cases h : v' = v
    · rw [if_pos h]
      subst h
      by_cases h2 : o = v'
      · simp [h2]
      · have : (o == v') = false := by simpa using h2
        simp [List.lookup, this, h2]
    · rw [if_neg h]
      simp only [List.lookup]
      by_cases h2 : o = v'
      · subst h2
        simp [h]
      · have : (o == v') = false := by simpa using h2
        simp only [this, ih]

/-- A renaming to operations created between `lo` and `n`. -/
structure Fresh (ρ : Renaming) (lo n : Nat) : Prop where
  range : ∀ v w, ρ.lookup v = some w → lo ≤ w.id ∧ w.id < n ∧ w.kind = v.kind
  inj : ∀ v v' w, ρ.lookup v = some w → ρ.lookup v' = some w → v = v'

theorem fresh_freshen {vs : List Op} {ρ : Renaming} {lo n : Nat} (hlo : lo ≤ n)
    (h : Fresh ρ lo n) : Fresh (freshen vs ρ n).1 lo (freshen vs ρ n).2 ∧
      n ≤ (freshen vs ρ n).2 ∧
      ∀ v, ((freshen vs ρ n).1.lookup v).isSome ↔ v ∈ vs ∨ (ρ.lookup v).isSome := by
  induction vs generalizing ρ n with
  | nil => simp [freshen, h]
  | cons v vs ih =>
    rw [freshen]
    have h' : Fresh (Renaming.set v ⟨n, v.kind⟩ ρ) lo (n + 1) := by
      constructor
      · intro u w hu
        rw [lookup_set] at hu
        split at hu
        · rename_i e
          subst e
          cases hu
          exact ⟨hlo, Nat.lt_succ_self _, rfl⟩
        · obtain ⟨a, b, c⟩ := h.range u w hu
          exact ⟨a, by omega, c⟩
      · intro u u' w hu hu'
        rw [lookup_set] at hu hu'
        by_cases e : u = v <;> by_cases e' : u' = v
        · rw [e, e']
        · rw [if_pos e] at hu
          rw [if_neg e'] at hu'
          cases hu
          have := (h.range _ _ hu').2.1
          simp at this
        · rw [if_neg e] at hu
          rw [if_pos e'] at hu'
          cases hu'
          have := (h.range _ _ hu).2.1
          simp at this
        · rw [if_neg e] at hu
          rw [if_neg e'] at hu'
          exact h.inj u u' w hu hu'
    obtain ⟨a, b, c⟩ := ih (by omega : lo ≤ n + 1) h'
    refine ⟨a, by omega, fun u => ?_⟩
    rw [c u, lookup_set]
    by_cases e : u = v <;> simp [e]

theorem lookup_filter (ρ : Renaming) (B : List Op) (o : Op) :
    (ρ.filter (fun e => B.contains e.1)).lookup o = if o ∈ B then ρ.lookup o else none := by
  induction ρ with
  | nil => simp
  | cons e ρ ih =>
    obtain ⟨v, w⟩ := e
    by_cases hv : v ∈ B
    · rw [List.filter_cons_of_pos (by simpa using hv)]
      simp only [List.lookup]
      by_cases e : o = v
      · subst e; simp [hv]
      · have : (o == v) = false := by simpa using e
        simp only [this, ih]
    · rw [List.filter_cons_of_neg (by simpa using hv), ih]
      by_cases e : o = v
      · subst e; simp [hv]
      · have : (o == v) = false := by simpa using e
        simp only [List.lookup, this]

theorem ren_filter (ρ : Renaming) (B : List Op) (o : Op) :
    ren (ρ.filter (fun e => B.contains e.1)) o = if o ∈ B then ren ρ o else o := by
  unfold ren
  rw [lookup_filter]
  split <;> rfl

theorem Fresh.kind {ρ : Renaming} {lo n : Nat} (h : Fresh ρ lo n) : KindPres (ren ρ) := by
  intro o
  unfold ren
  cases e : ρ.lookup o with
  | none => rfl
  | some w => exact (h.range o w e).2.2

theorem Fresh.filter {ρ : Renaming} {lo n : Nat} (h : Fresh ρ lo n) (B : List Op) :
    Fresh (ρ.filter (fun e => B.contains e.1)) lo n := by
  constructor
  · intro v w hv
    rw [lookup_filter] at hv
    split at hv
    · exact h.range v w hv
    · cases hv
  · intro v v' w hv hv'
    rw [lookup_filter] at hv hv'
    split at hv
    · split at hv'
      · exact h.inj v v' w hv hv'
      · cases hv'
    · cases hv

theorem Fresh.injOn {ρ : Renaming} {lo n : Nat} (h : Fresh ρ lo n) :
    InjOn (ren ρ) (fun o => o.id < lo) := by
  intro a b ha hb e
  unfold ren at e
  cases ea : ρ.lookup a with
  | none =>
    cases eb : ρ.lookup b with
    | none => rw [ea, eb] at e; exact e
    | some w =>
      rw [ea, eb] at e
      simp only [Option.getD_none, Option.getD_some] at e
      have := (h.range b w eb).1
      subst e
      omega
  | some w =>
    cases eb : ρ.lookup b with
    | none =>
      rw [ea, eb] at e
      simp only [Option.getD_none, Option.getD_some] at e
      have := (h.range a w ea).1
      subst e
      omega
    | some w' =>
      rw [ea, eb] at e
      simp only [Option.getD_some] at e
      subst e
      exact h.inj a b w ea eb

end Verif.Terms
