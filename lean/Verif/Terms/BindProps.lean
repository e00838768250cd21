import Verif.Terms.Subst

/-!
# Binding: properties C15, C17, C18 and C19
-/

namespace Verif.Terms

open Verif.Scoped (Sig Err TyVar Ext)

/-! ## Signatures for the examples -/

/-- Signatures: kind 0 is `deffn`, kind 1 a variable without parameters, kind 2 a function of two
parameters. -/
def exSigs : Sigs where
  sig
    | 0 => Verif.Scoped.deffnSig
    | 1 => ⟨[], ⟨[], [], ∅⟩⟩
    | _ => ⟨[⟨.pos, false, ⟨[], [], ∅⟩⟩, ⟨.pos, false, ⟨[], [], ∅⟩⟩], ⟨[], [], ∅⟩⟩
  root := 9

def dfn : Op := ⟨0, 0⟩
def vx : Op := ⟨1, 1⟩
def vy : Op := ⟨2, 1⟩
def vz : Op := ⟨3, 1⟩
def fn : Op := ⟨4, 2⟩

/-- `v()`. -/
def call0 (v : Op) : Expr := .node (.term v []) []

/-- `fn(a, b)`. -/
def call2 (a b : Expr) : Expr := .node (.term fn [.pos, .pos]) [a, b]

/-- `deffn(body, v)`, before renaming. -/
def lam (body : Expr) (v : Op) : Expr := .node (.term dfn [.pos, .pos]) [body, .op v]

theorem wf_call0 (v : Op) (h : v.kind = 1) : Wf exSigs (call0 v) := by
  refine .term (Bs := []) ?_ rfl (by simp)
  unfold Sigs.bounds exSigs
  rw [h]
  rfl

theorem wf_call2 {a b : Expr} (ha : Wf exSigs a) (hb : Wf exSigs b)
    (h : exSigs.bounds fn [.pos, .pos] [a, b] = .ok [[], []]) : Wf exSigs (call2 a b) :=
  .term h rfl (by simp [ha, hb])

theorem wf_lam {b : Expr} {v : Op} {Bs : List (List Op)} (hb : Wf exSigs b)
    (h : exSigs.bounds dfn [.pos, .pos] [b, .op v] = .ok Bs) : Wf exSigs (lam b v) :=
  .term h rfl (by simp [hb, Wf.op])

/-! ## C15 -/

theorem freeCtx_eq (G : Sigs) : subCtx G [] = freeCtx G := rfl

/-- C15: evaluating a well-formed expression when nothing is handled and operations have no default
gives an alpha-equivalent expression, with the same free variables, from which the same holds again.
`n` is the number of operations created so far. -/
theorem C15_evaluate_alpha_partial (G : Sigs) (e : Expr) (n : Nat) (h : Wf G e)
    (hid : ∀ o ∈ e.ops, o.id < n) :
    ∃ r n', evaluate (freeCtx G) e n = (.ok r, n') ∧ n ≤ n' ∧ Wf G r ∧ (∀ o ∈ r.ops, o.id < n') ∧
      Alpha G r e ∧ ∀ v, FreeOp G v r ↔ FreeOp G v e := by
  have hn : Nullary [] e := by
    clear hid
    induction h with
    | atom a => exact .atom a
    | op o => exact .op o
    | term _ _ _ ih => exact .term (fun h => absurd rfl h) ih
    | node ht _ _ ih => exact .node ht ih
  obtain ⟨r, n', h1, h2, hr⟩ := evaluate_subst (σ := [])
    ⟨fun v a h => by simp at h, fun v a h => by simp at h, fun v a h => by simp at h⟩ h hn hid
    (fun v _ => ⟨rfl, fun u a h => by simp at h⟩) n (Nat.le_refl _)
  have ha : Alpha G r e := by
    unfold Alpha
    rw [hr.db [] (fun v ⟨B, hB, _⟩ => by cases hB)]
    have : (Subs.db G [] : Op → Option DExpr) = fun _ => none := by
      funext v; simp [Subs.db]
    rw [this, subst_none]
  exact ⟨r, n', h1, h2, hr.wf, hr.ids, ha, alpha_free hr.wf h ha⟩

/-- C15: evaluation is idempotent up to renaming of bound variables. -/
theorem C15_idempotent_partial (G : Sigs) (e : Expr) (n : Nat) (h : Wf G e)
    (hid : ∀ o ∈ e.ops, o.id < n) :
    ∃ r r' n' n'', evaluate (freeCtx G) e n = (.ok r, n') ∧
      evaluate (freeCtx G) r n' = (.ok r', n'') ∧ Alpha G r r' := by
  obtain ⟨r, n', h1, _, hw, hi, ha, _⟩ := C15_evaluate_alpha_partial G e n h hid
  obtain ⟨r', n'', k1, _, _, _, ka, _⟩ := C15_evaluate_alpha_partial G r n' hw hi
  exact ⟨r, r', n', n'', h1, k1, ka.symm⟩

/-- C15, example: `λx. fn(x, y)` evaluates to itself with a new bound variable. -/
example : Wf exSigs (lam (call2 (call0 vx) (call0 vy)) vx) ∧
    evaluate (freeCtx exSigs) (lam (call2 (call0 vx) (call0 vy)) vx) 10 =
      (.ok (lam (call2 (call0 ⟨11, 1⟩) (call0 vy)) ⟨11, 1⟩), 12) := by
  refine ⟨wf_lam (Bs := [[vx], [vx]]) (wf_call2 (wf_call0 _ rfl) (wf_call0 _ rfl) ?_) ?_, ?_⟩ <;> decide

/-! ## C17 -/

/-- C17: constructing a term renames each bound variable, in exactly the arguments in whose scope it
is, to one operation that did not exist before; everything else is unchanged. -/
theorem C17_defdata_renames_partial (G : Sigs) (o : Op) (sl : List Slot) (xs : List Expr) (n : Nat)
    (Bs : List (List Op)) (hb : G.bounds o sl xs = .ok Bs) (hl : sl.length = xs.length)
    (hw : ∀ x ∈ xs, Wf G x) (hid : ∀ x ∈ xs, ∀ o ∈ x.ops, o.id < n) :
    ∃ (ρ : Op → Op) (n' : Nat),
      defdata G o sl xs n = .ok (.node (.term o sl) (List.zipWith (renameIn ρ) xs Bs), n') ∧
      (∀ v ∈ Bs.flatten, n ≤ (ρ v).id ∧ (ρ v).kind = v.kind) ∧
      (∀ v ∈ Bs.flatten, ∀ w ∈ Bs.flatten, ρ v = ρ w → v = w) := by
  obtain ⟨ρ, n', h1, h2, h3, h4, h5⟩ := defdata_spec hb hl hw hid
  refine ⟨ρ, n', h2, fun v hv => ⟨(h3 v hv).1, h4 v⟩, ?_⟩
  have src : ∀ v ∈ Bs.flatten, v.id < n := by
    intro v hv
    obtain ⟨B, hB, hvB⟩ := List.mem_flatten.1 hv
    obtain ⟨x, hx, hvx⟩ := bounds_source hb B hB v hvB
    exact hid x hx v hvx
  intro v hv w hw' e
  exact h5 v w (src v hv) (src w hw') e

/-- C17: the term that is built is alpha-equivalent to the term with the arguments as given, its free
variables are the operation and those of the arguments minus the variables bound in each. -/
theorem C17_defdata_alpha_partial (G : Sigs) (o : Op) (sl : List Slot) (xs : List Expr) (n : Nat)
    (Bs : List (List Op)) (hb : G.bounds o sl xs = .ok Bs) (hl : sl.length = xs.length)
    (hw : ∀ x ∈ xs, Wf G x) (hid : ∀ x ∈ xs, ∀ o ∈ x.ops, o.id < n) :
    ∃ t n', defdata G o sl xs n = .ok (t, n') ∧ Wf G t ∧ Alpha G t (.node (.term o sl) xs) ∧
      ∀ v, FreeOp G v t ↔ v = o ∨ ∃ (k : Nat) (x : Expr) (B : List Op),
        xs[k]? = some x ∧ Bs[k]? = some B ∧ v ∉ B ∧ FreeOp G v x := by
  obtain ⟨ρ, n', h1, h2, h3, h4, h5⟩ := defdata_spec hb hl hw hid
  have bt := built hb hl hw hid h1 h3 h4 h5
  refine ⟨_, n', h2, bt.wf, bt.db [], fun v => ?_⟩
  rw [alpha_free bt.wf (.term hb hl hw) (bt.db [])]
  constructor
  · intro h
    cases h with
    | head => exact .inl rfl
    | arg hb' hx hB hv hf =>
      rw [hb] at hb'
      cases hb'
      exact .inr ⟨_, _, _, hx, hB, hv, hf⟩
    | part ht => simp [Tag.isTerm] at ht
  · rintro (rfl | ⟨k, x, B, hx, hB, hv, hf⟩)
    · exact .head
    · exact .arg hb hx hB hv hf

/-- C17: terms built from arguments that are alpha-equivalent inside their scopes are
alpha-equivalent. -/
theorem C17_alpha_congruence_partial (G : Sigs) (o : Op) (sl : List Slot) (xs ys : List Expr)
    (n m : Nat) (Bs Cs : List (List Op))
    (hbx : G.bounds o sl xs = .ok Bs) (hby : G.bounds o sl ys = .ok Cs)
    (hlx : sl.length = xs.length) (hly : sl.length = ys.length)
    (hwx : ∀ x ∈ xs, Wf G x) (hwy : ∀ x ∈ ys, Wf G x)
    (hix : ∀ x ∈ xs, ∀ o ∈ x.ops, o.id < n) (hiy : ∀ x ∈ ys, ∀ o ∈ x.ops, o.id < m)
    (h : ∀ (k : Nat) (x y : Expr) (B C : List Op), xs[k]? = some x → ys[k]? = some y →
      Bs[k]? = some B → Cs[k]? = some C → toDB G [B] x = toDB G [C] y) :
    ∃ t u n' m', defdata G o sl xs n = .ok (t, n') ∧ defdata G o sl ys m = .ok (u, m') ∧
      Alpha G t u := by
  obtain ⟨t, n', h1, _, h2, _⟩ := C17_defdata_alpha_partial G o sl xs n Bs hbx hlx hwx hix
  obtain ⟨u, m', k1, _, k2, _⟩ := C17_defdata_alpha_partial G o sl ys m Cs hby hly hwy hiy
  refine ⟨t, u, n', m', h1, k1, h2.trans (Eq.trans ?_ k2.symm)⟩
  rw [toDB_term, toDB_term, bound_ok hbx, bound_ok hby]
  congr 1
  have lB := Verif.Scoped.fvsRule_length hbx
  have lC := Verif.Scoped.fvsRule_length hby
  apply List.ext_getElem?
  intro k
  simp only [List.getElem?_map, List.getElem?_zipIdx, Nat.zero_add]
  by_cases hk : k < sl.length
  · have e1 : xs[k]? = some (xs[k]'(by omega)) := List.getElem?_eq_getElem _
    have e2 : ys[k]? = some (ys[k]'(by omega)) := List.getElem?_eq_getElem _
    have e3 : Bs[k]? = some (Bs[k]'(by omega)) := List.getElem?_eq_getElem _
    have e4 : Cs[k]? = some (Cs[k]'(by omega)) := List.getElem?_eq_getElem _
    have := h k _ _ _ _ e1 e2 e3 e4
    rw [e1, e2]
    simp only [Option.map_some, Option.some.injEq, List.getD_eq_getElem?_getD, e3, e4,
      Option.getD_some]
    exact this
  · have e1 : xs[k]? = none := List.getElem?_eq_none (by omega)
    have e2 : ys[k]? = none := List.getElem?_eq_none (by omega)
    rw [e1, e2]; rfl

/-- C17, example: `deffn(fn(x(), y()), x)`. -/
example : exSigs.bounds dfn [.pos, .pos] [call2 (call0 vx) (call0 vy), .op vx] =
      .ok [[vx], [vx]] ∧
    defdata exSigs dfn [.pos, .pos] [call2 (call0 vx) (call0 vy), .op vx] 10 =
      .ok (lam (call2 (call0 ⟨11, 1⟩) (call0 vy)) ⟨11, 1⟩, 12) := by
  decide

/-- C17 fails for bodies with operations as data: in `deffn((fn, x()), x)` the operation `fn` is
renamed although it is not passed as a variable. -/
theorem C17_operations_as_data_fails :
    ∃ n', defdata exSigs dfn [.pos, .pos] [.node (.seq .tuple) [.op fn, call0 vx], .op vx] 10 =
      .ok (.node (.term dfn [.pos, .pos])
        [.node (.seq .tuple) [.op ⟨10, 2⟩, call0 ⟨12, 1⟩], .op ⟨12, 1⟩], n') :=
  ⟨13, by decide⟩

/-- Signature of an operation whose first parameter is a container of variables bound in the
second. -/
def setSigs : Sigs where
  sig
    | 0 => ⟨[⟨.pos, false, ⟨[{1}], [], ∅⟩⟩, ⟨.pos, false, ⟨[{1, 2}], [], ∅⟩⟩], ⟨[{2}], [], ∅⟩⟩
    | _ => ⟨[], ⟨[], [], ∅⟩⟩
  root := 9

/-- C17 fails for variables passed in a set: `g({x}, x())` becomes `g({x}, x'())`, so the new
variable is free in the result. -/
theorem C17_set_of_variables_fails :
    defdata setSigs dfn [.pos, .pos] [.node .set [.op vx], call0 vx] 10 =
      .ok (.node (.term dfn [.pos, .pos]) [.node .set [.op vx], call0 ⟨11, 1⟩], 12) ∧
    FreeOp setSigs ⟨11, 1⟩
      (.node (.term dfn [.pos, .pos]) [.node .set [.op vx], call0 ⟨11, 1⟩]) := by
  constructor
  · decide
  · refine .arg (k := 1) (x := call0 ⟨11, 1⟩) (Bs := [[vx], [vx]]) (B := [vx]) ?_ rfl rfl ?_ .head
      <;> decide

/-! ## C18 -/

/-- The argument for a variable: by position or by keyword. -/
def Assigned (vars : List Op) (kvars : List (String × Op)) (args : List Expr)
    (kwargs : List (String × Expr)) (v : Op) (a : Expr) : Prop :=
  (∃ i : Nat, vars[i]? = some v ∧ args[i]? = some a) ∨ ∃ k, (k, v) ∈ kvars ∧ (k, a) ∈ kwargs

theorem lookup_mem {α β : Type} [DecidableEq α] {l : List (α × β)} {k : α} {b : β}
    (h : l.lookup k = some b) : (k, b) ∈ l := by
  induction l with
  | nil => simp at h
  | cons e l ih =>
    obtain ⟨k', b'⟩ := e
    simp only [List.lookup] at h
    by_cases hk : k = k'
    · subst hk
      simp only [beq_self_eq_true, Option.some.injEq] at h
      subst h; exact List.mem_cons_self
    · have : (k == k') = false := by simpa using hk
      simp only [this] at h
      exact List.mem_cons_of_mem _ (ih h)

theorem mem_lookup {α β : Type} [DecidableEq α] {l : List (α × β)} {k : α} {b : β}
    (hn : (l.map (·.1)).Nodup) (h : (k, b) ∈ l) : l.lookup k = some b := by
  induction l with
  | nil => cases h
  | cons e l ih =>
    obtain ⟨k', b'⟩ := e
    simp only [List.map_cons, List.nodup_cons] at hn
    simp only [List.lookup]
    rcases List.mem_cons.1 h with h | h
    · cases h; simp
    · have : k ≠ k' := by
        intro e
        exact hn.1 (List.mem_map.2 ⟨(k, b), h, e⟩)
      have : (k == k') = false := by simpa using this
      simp only [this]
      exact ih hn.2 h

theorem zip_keys_nodup {vars : List Op} {args : List Expr} (h : vars.Nodup) :
    ((vars.zip args).map (·.1)).Nodup := by
  induction vars generalizing args with
  | nil => simp
  | cons v vars ih =>
    cases args with
    | nil => simp
    | cons a args =>
      rw [List.nodup_cons] at h
      simp only [List.zip_cons_cons, List.map_cons, List.nodup_cons]
      refine ⟨?_, ih h.2⟩
      intro hm
      obtain ⟨⟨v', a'⟩, hm', rfl⟩ := List.mem_map.1 hm
      exact h.1 (List.of_mem_zip hm').1

theorem snd_inj {l : List (String × Op)} (hn : (l.map (·.2)).Nodup) {k k' : String} {v : Op}
    (h : (k, v) ∈ l) (h' : (k', v) ∈ l) : k = k' := by
  induction l with
  | nil => cases h
  | cons e l ih =>
    simp only [List.map_cons, List.nodup_cons] at hn
    rcases List.mem_cons.1 h with e1 | m1
    · rcases List.mem_cons.1 h' with e2 | m2
      · rw [← e1] at e2; cases e2; rfl
      · exact absurd (List.mem_map.2 ⟨(k', v), m2, by rw [← e1]⟩) hn.1
    · rcases List.mem_cons.1 h' with e2 | m2
      · exact absurd (List.mem_map.2 ⟨(k, v), m1, by rw [← e2]⟩) hn.1
      · exact ih hn.2 m1 m2

theorem mkSubs_source {vars : List Op} {kvars : List (String × Op)} {args : List Expr}
    {kwargs : List (String × Expr)} {σ : Subs} {w : Op} {a : Expr}
    (h : mkSubs vars kvars args kwargs = .ok σ) (hm : (w, a) ∈ σ) :
    w ∈ vars ∨ ∃ k', kvars.lookup k' = some w ∧ k' ∈ kwargs.map (·.1) := by
  induction kwargs generalizing σ with
  | nil =>
    simp only [mkSubs, Except.ok.injEq] at h
    subst h
    exact .inl (List.of_mem_zip hm).1
  | cons e kwargs ih =>
    obtain ⟨k, b⟩ := e
    simp only [mkSubs] at h
    cases hl : kvars.lookup k with
    | none => rw [hl] at h; cases h
    | some u =>
      rw [hl] at h
      cases hr : mkSubs vars kvars args kwargs with
      | error e => rw [hr] at h; cases h
      | ok σ' =>
        rw [hr] at h
        simp only [Except.map, Except.ok.injEq] at h
        subst h
        rcases List.mem_cons.1 hm with h | h
        · cases h; exact .inr ⟨k, hl, by simp⟩
        · rcases ih hr h with h | ⟨k', h1, h2⟩
          · exact .inl h
          · exact .inr ⟨k', h1, by simp only [List.map_cons, List.mem_cons]; exact .inr h2⟩

/-- The dict of a call assigns the arguments to the variables. -/
theorem mkSubs_lookup {vars : List Op} {kvars : List (String × Op)} {args : List Expr}
    {kwargs : List (String × Expr)} {σ : Subs} (h : mkSubs vars kvars args kwargs = .ok σ)
    (hv : (vars ++ kvars.map (·.2)).Nodup) (hk : (kvars.map (·.1)).Nodup)
    (hkw : (kwargs.map (·.1)).Nodup) (v : Op) (a : Expr) :
    σ.lookup v = some a ↔ Assigned vars kvars args kwargs v a := by
  have hmem : ∀ (v : Op) (a : Expr), (v, a) ∈ σ ↔ Assigned vars kvars args kwargs v a := by
    clear hkw
    induction kwargs generalizing σ with
    | nil =>
      simp only [mkSubs, Except.ok.injEq] at h
      subst h
      intro v a
      unfold Assigned
      simp only [List.not_mem_nil, and_false, exists_false, or_false]
      constructor
      · intro h
        obtain ⟨i, hi⟩ := List.mem_iff_getElem?.1 h
        rw [List.getElem?_zip_eq_some] at hi
        exact ⟨i, hi⟩
      · rintro ⟨i, h1, h2⟩
        exact List.mem_iff_getElem?.2 ⟨i, List.getElem?_zip_eq_some.2 ⟨h1, h2⟩⟩
    | cons e kwargs ih =>
      obtain ⟨k, b⟩ := e
      simp only [mkSubs] at h
      cases hl : kvars.lookup k with
      | none => rw [hl] at h; cases h
      | some w =>
        rw [hl] at h
        cases hr : mkSubs vars kvars args kwargs with
        | error e => rw [hr] at h; cases h
        | ok σ' =>
          rw [hr] at h
          simp only [Except.map, Except.ok.injEq] at h
          subst h
          intro v a
          rw [List.mem_cons, ih hr]
          unfold Assigned
          constructor
          · rintro (h | h | ⟨k', h1, h2⟩)
            · cases h; exact .inr ⟨k, lookup_mem hl, List.mem_cons_self⟩
            · exact .inl h
            · exact .inr ⟨k', h1, List.mem_cons_of_mem _ h2⟩
          · rintro (h | ⟨k', h1, h2⟩)
            · exact .inr (.inl h)
            · rcases List.mem_cons.1 h2 with h | h
              · cases h
                rw [mem_lookup hk h1] at hl
                cases hl
                exact .inl rfl
              · exact .inr (.inr ⟨k', h1, h⟩)
  have hnd : (σ.map (·.1)).Nodup := by
    clear hmem
    induction kwargs generalizing σ with
    | nil =>
      simp only [mkSubs, Except.ok.injEq] at h
      subst h
      exact zip_keys_nodup (List.nodup_append.1 hv).1
    | cons e kwargs ih =>
      obtain ⟨k, b⟩ := e
      simp only [mkSubs] at h
      cases hl : kvars.lookup k with
      | none => rw [hl] at h; cases h
      | some w =>
        rw [hl] at h
        cases hr : mkSubs vars kvars args kwargs with
        | error e => rw [hr] at h; cases h
        | ok σ' =>
          rw [hr] at h
          simp only [Except.map, Except.ok.injEq] at h
          subst h
          simp only [List.map_cons, List.nodup_cons] at hkw ⊢
          refine ⟨?_, ih hr hkw.2⟩
          intro hm
          obtain ⟨⟨w', a⟩, hm', e⟩ := List.mem_map.1 hm
          simp only at e
          subst e
          rcases mkSubs_source hr hm' with h | ⟨k', h1, h2⟩
          · exact (List.nodup_append.1 hv).2.2 w' h w'
              (List.mem_map.2 ⟨_, lookup_mem hl, rfl⟩) rfl
          · have e : k' = k :=
              snd_inj (List.nodup_append.1 hv).2.1 (lookup_mem h1) (lookup_mem hl)
            subst e
            exact hkw.1 h2
  constructor
  · intro h; exact (hmem v a).1 (lookup_mem h)
  · intro h; exact mem_lookup hnd ((hmem v a).2 h)

/-- C18: calling a deffn term replaces each variable in the body by the argument for it, without
capture, provided that no binder inside the body binds one of the variables or a free variable of an
argument. The arguments are no operations or containers of operations, and the variables are used
without arguments. -/
theorem C18_beta_partial (G : Sigs) (dfn : Op) (sl : List Slot) (s0 : Slot) (body : Expr)
    (vars : List Expr) (args : List Expr) (kwargs : List (String × Expr)) (n : Nat) (σ : Subs)
    (hσ : mkSubs (argVars sl vars) (kwVars sl vars) args kwargs = .ok σ)
    (hv : (argVars sl vars ++ (kwVars sl vars).map (·.2)).Nodup)
    (hk : ((kwVars sl vars).map (·.1)).Nodup) (hkw : (kwargs.map (·.1)).Nodup)
    (hw : Wf G body) (hid : ∀ o ∈ body.ops, o.id < n)
    (hargs : ∀ a, a ∈ args ∨ a ∈ kwargs.map (·.2) →
      Wf G a ∧ a.extract = [] ∧ ∀ o ∈ a.ops, o.id < n)
    (hnull : Nullary σ body)
    (hcap : ∀ v, BoundIn G v body → v ∉ argVars sl vars ∧ v ∉ (kwVars sl vars).map (·.2) ∧
      ∀ a, a ∈ args ∨ a ∈ kwargs.map (·.2) → ¬ FreeOp G v a) :
    ∃ (r : Expr) (τ : Op → Option DExpr),
      callFn G dfn (.node (.term dfn (s0 :: sl)) (body :: vars)) args kwargs n = .ok r ∧
      (∀ v d, τ v = some d ↔
        ∃ a, Assigned (argVars sl vars) (kwVars sl vars) args kwargs v a ∧ d = toDB G [] a) ∧
      toDB G [] r = (toDB G [] body).subst τ := by
  have key := mkSubs_lookup hσ hv hk hkw
  have harg : ∀ v a, σ.lookup v = some a → a ∈ args ∨ a ∈ kwargs.map (·.2) := by
    intro v a h
    rcases (key v a).1 h with ⟨i, _, h⟩ | ⟨k, _, h⟩
    · exact .inl (List.mem_of_getElem? h)
    · exact .inr (List.mem_map.2 ⟨_, h, rfl⟩)
  have ok : σ.Ok G n :=
    ⟨fun v a h => (hargs a (harg v a h)).1, fun v a h => (hargs a (harg v a h)).2.2,
      fun v a h => (hargs a (harg v a h)).2.1⟩
  have av : σ.Avoids G (fun v => BoundIn G v body) := by
    intro v hb
    obtain ⟨h1, h2, h3⟩ := hcap v hb
    refine ⟨?_, fun u a h => h3 a (harg u a h)⟩
    cases h : σ.lookup v with
    | none => rfl
    | some a =>
      rcases (key v a).1 h with ⟨i, hi, _⟩ | ⟨k, hk, _⟩
      · exact absurd (List.mem_of_getElem? hi) h1
      · exact absurd (List.mem_map.2 ⟨_, hk, rfl⟩) h2
  obtain ⟨r, n', h1, _, hr⟩ := evaluate_subst ok hw hnull hid av n (Nat.le_refl _)
  refine ⟨r, σ.db G, ?_, ?_, hr.db [] (fun v ⟨B, hB, _⟩ => by cases hB)⟩
  · simp only [callFn, if_true, hσ, h1]
  · intro v d
    unfold Subs.db
    rw [Option.map_eq_some_iff]
    constructor
    · rintro ⟨a, h, rfl⟩; exact ⟨a, (key v a).1 h, rfl⟩
    · rintro ⟨a, h, rfl⟩; exact ⟨a, (key v a).2 h, rfl⟩

/-- C18, example: `deffn(fn(x(), y()), x)(z())` is `fn(z(), y())`. -/
example : callFn exSigs dfn (lam (call2 (call0 vx) (call0 vy)) vx) [call0 vz] [] 10 =
    .ok (call2 (call0 vz) (call0 vy)) := by decide

/-- C18, example: with a binder in the body, `deffn(deffn(fn(x(), y()), y), x)(z())` is
`deffn(fn(z(), y'()), y')`. -/
example : callFn exSigs dfn (lam (lam (call2 (call0 vx) (call0 vy)) vy) vx) [call0 vz] [] 10 =
    .ok (lam (call2 (call0 vz) (call0 ⟨11, 1⟩)) ⟨11, 1⟩) := by decide

/-- C18: the variables of `deffn(body, *vars, **kwvars)`: the positional ones in order, and for each
keyword the one passed under it. -/
theorem C18_variables (sl : List Slot) (vs : List Op) :
    argVars sl (vs.map .op) = ((sl.zip vs).filter (fun e => e.1 = .pos)).map (·.2) ∧
    ∀ k v, (k, v) ∈ kwVars sl (vs.map .op) ↔ (Slot.kw k, v) ∈ sl.zip vs := by
  induction sl generalizing vs with
  | nil => cases vs <;> simp [argVars, kwVars]
  | cons a sl ih =>
    cases vs with
    | nil => cases a <;> simp [argVars, kwVars]
    | cons v vs =>
      obtain ⟨h1, h2⟩ := ih vs
      cases a with
      | pos =>
        refine ⟨by simp [argVars, h1], ?_⟩
        intro k w
        simp [kwVars, h2]
      | kw name =>
        refine ⟨by simp [argVars, h1], ?_⟩
        intro k w
        simp [kwVars, h2]

/-- C18, example: `deffn(fn(x(), y()), x, k=y)(z(), k=x())`. -/
example : callFn exSigs dfn (.node (.term dfn [.pos, .pos, .kw "k"])
      [call2 (call0 vx) (call0 vy), .op vx, .op vy]) [call0 vz] [("k", call0 vx)] 10 =
    .ok (call2 (call0 vz) (call0 vx)) := by decide

/-- C18 fails if a binder in the body binds a free variable of the argument: the term
`deffn(deffn(fn(x(), y()), y), x)` called with `y()` gives `deffn(fn(y'(), y'()), y')`, in which the
free variable `y` of the argument is bound. (The operation `y` that is bound in a term can be
read off its `args`.) -/
theorem C18_capture_fails :
    callFn exSigs dfn (lam (lam (call2 (call0 vx) (call0 vy)) vy) vx) [call0 vy] [] 10 =
      .ok (lam (call2 (call0 ⟨11, 1⟩) (call0 ⟨11, 1⟩)) ⟨11, 1⟩) ∧
    ((toDB exSigs [] (lam (call2 (call0 vx) (call0 vy)) vy)).subst
      (fun v => if v = vx then some (toDB exSigs [] (call0 vy)) else none)).has vy = true ∧
    (toDB exSigs [] (lam (call2 (call0 ⟨11, 1⟩) (call0 ⟨11, 1⟩)) ⟨11, 1⟩)).has vy = false := by
  decide

/-! ## C19 -/

/-- C19 fails for too few arguments: `deffn(fn(x(), y()), x, y)(z())` returns a term in which the
parameter `y` is free. -/
theorem C19_too_few_fails :
    callFn exSigs dfn (.node (.term dfn [.pos, .pos, .pos])
      [call2 (call0 vx) (call0 vy), .op vx, .op vy]) [call0 vz] [] 10 =
      .ok (call2 (call0 vz) (call0 vy)) := by
  decide

theorem zip_append_extra {α β : Type} {vars : List α} {args extra : List β}
    (h : vars.length ≤ args.length) : vars.zip (args ++ extra) = vars.zip args := by
  induction vars generalizing args with
  | nil => simp
  | cons v vars ih =>
    cases args with
    | nil => simp at h
    | cons a args =>
      simp only [List.cons_append, List.zip_cons_cons]
      rw [ih (by simpa using h)]

theorem mkSubs_extra {vars : List Op} {kvars : List (String × Op)} {args extra : List Expr}
    (kwargs : List (String × Expr)) (h : vars.length ≤ args.length) :
    mkSubs vars kvars (args ++ extra) kwargs = mkSubs vars kvars args kwargs := by
  induction kwargs with
  | nil => simp only [mkSubs, zip_append_extra h]
  | cons e kwargs ih =>
    obtain ⟨k, b⟩ := e
    simp only [mkSubs, ih]

/-- C19 fails for too many arguments: they are ignored. -/
theorem C19_too_many_fails (G : Sigs) (dfn : Op) (s0 : Slot) (sl : List Slot) (body : Expr)
    (vars args extra : List Expr) (kwargs : List (String × Expr)) (n : Nat)
    (h : (argVars sl vars).length ≤ args.length) :
    callFn G dfn (.node (.term dfn (s0 :: sl)) (body :: vars)) (args ++ extra) kwargs n =
      callFn G dfn (.node (.term dfn (s0 :: sl)) (body :: vars)) args kwargs n := by
  simp only [callFn, if_true, mkSubs_extra kwargs h]

/-- C19: an unknown keyword raises. -/
theorem C19_unknown_keyword_partial (G : Sigs) (dfn : Op) (s0 : Slot) (sl : List Slot) (body : Expr)
    (vars args : List Expr) (kwargs : List (String × Expr)) (n : Nat)
    (h : ∃ e ∈ kwargs, (kwVars sl vars).lookup e.1 = none) :
    callFn G dfn (.node (.term dfn (s0 :: sl)) (body :: vars)) args kwargs n = .error .key := by
  have : mkSubs (argVars sl vars) (kwVars sl vars) args kwargs = .error .key := by
    induction kwargs with
    | nil => obtain ⟨e, he, _⟩ := h; cases he
    | cons e kwargs ih =>
      obtain ⟨k, b⟩ := e
      simp only [mkSubs]
      cases hl : (kwVars sl vars).lookup k with
      | none => rfl
      | some w =>
        simp only
        rw [ih]
        · rfl
        · obtain ⟨e, he, h'⟩ := h
          rcases List.mem_cons.1 he with rfl | he
          · simp only [hl] at h'; cases h'
          · exact ⟨e, he, h'⟩
  simp only [callFn, if_true, this]

/-- C19, example: an unknown keyword. -/
example : callFn exSigs dfn (lam (call0 vx) vx) [] [("k", call0 vy)] 10 = .error .key := by
  decide

end Verif.Terms
