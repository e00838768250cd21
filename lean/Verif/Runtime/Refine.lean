import Verif.Runtime.Lemmas

/-! # The runtime refines the handler-stack machine -/

namespace Verif.Runtime

variable {W : Type}

/-- Closure `c` implements the handler stack `s`; the flag says that calling `c` does not
record the arguments. -/
inductive CRel : Bool → Clo W → List (Fn W) → Prop where
  | raw (f) : CRel true (.fn f) [f]
  | save {b c s} : CRel b c s → CRel false (saveArgs c) s
  | prompt {b c s b' d t} : CRel b c s → CRel b' d t →
      CRel false (.prompt (restoreArgs (saveArgs c)) (saveArgs d)) (t ++ s)

/-- Closure bound to `fwd` implements the rest of a chain. -/
inductive KRel : Clo W → Kont W → Prop where
  | dflt (o) : KRel (restoreArgs (.dflt o)) ⟨o, []⟩
  | chain {D o rest b c s} : KRel D ⟨o, rest⟩ → CRel b c s →
      KRel (.withFwd D (restoreArgs (saveArgs c))) ⟨o, s ++ rest⟩

inductive OptC : Option (Clo W) → Option (Entry W) → Prop where
  | none : OptC none none
  | some {c e} : CRel e.raw c (e.top :: e.rest) → OptC (some c) (some e)

inductive OptK : Option (Clo W) → Option (Kont W) → Prop where
  | none : OptK none none
  | some {c k} : KRel c k → OptK (some c) (some k)

/-- The dict `I` represents the handler stacks `E`. -/
def EnvRel (I : Intp W) (E : Env W) : Prop := ∀ u, OptC (I.get (.usr u)) (E u)

/-- The dict `I` represents the context `Γ`. -/
structure Rel (I : Intp W) (Γ : Ctx W) : Prop where
  env : EnvRel I Γ.env
  kont : OptK (I.get .fwd) Γ.kont
  args : I.get .getArgs = Γ.args.map .const

theorem nullary_saveArgs (c : Clo W) : (saveArgs c).nullary = c.nullary := by
  unfold saveArgs; split <;> simp [Clo.nullary]

theorem CRel.nonempty {b : Bool} {c : Clo W} {s : List (Fn W)} (h : CRel b c s) :
    ∃ f t, s = f :: t := by
  induction h with
  | raw f => exact ⟨f, [], rfl⟩
  | save _ ih => exact ih
  | prompt _ _ _ ih2 =>
    obtain ⟨f, t, e⟩ := ih2
    exact ⟨f, t ++ _, by rw [e]; rfl⟩

theorem CRel.nullary {b : Bool} {c : Clo W} {s : List (Fn W)} (h : CRel b c s) :
    ∀ {f t}, s = f :: t → c.nullary = f.nullary := by
  induction h with
  | raw f => intro f' t e; cases e; rfl
  | save _ ih => intro f t e; rw [nullary_saveArgs]; exact ih e
  | prompt h1 h2 _ ih2 =>
    intro f t e
    obtain ⟨f', t', e'⟩ := h2.nonempty
    subst e'
    have := ih2 rfl
    simp at e
    rw [← e.1]
    simp [Clo.nullary, nullary_saveArgs, this]

theorem EnvRel.setFwd {I : Intp W} {E : Env W} (h : EnvRel I E) (d : Clo W) :
    EnvRel (coproduct I [(.fwd, d)]) E := by
  intro u; rw [get_coproduct_fwd]; simpa using h u

theorem EnvRel.setArgs {I : Intp W} {E : Env W} (h : EnvRel I E) (d : Clo W) :
    EnvRel (coproduct I [(.getArgs, d)]) E := by
  intro u; rw [get_coproduct_getArgs]; simpa using h u

theorem OptC.over {i : Option (Clo W)} {e : Option (Entry W)} {d : Clo W} {e' : Entry W}
    {u : UOp} (h : OptC i e) (h' : CRel e'.raw d (e'.top :: e'.rest)) :
    OptC (Option.some (combine i (.usr u) d)) (stackOver e (Option.some e')) := by
  cases h with
  | none =>
    simp only [combine, stackOver]
    simp only [reduceCtorEq, or_self, if_false]
    exact OptC.some (CRel.save h')
  | some hc =>
    simp only [combine, stackOver]
    simp only [reduceCtorEq, or_self, if_false]
    refine OptC.some ?_
    have := CRel.prompt hc h'
    simpa using this

theorem OptC.coproduct {I J : Intp W} {u : UOp} {e e' : Option (Entry W)}
    (hJ : (J.map Prod.fst).Nodup)
    (h : OptC (I.get (.usr u)) e) (h' : OptC (J.get (.usr u)) e') :
    OptC ((coproduct I J).get (.usr u)) (stackOver e e') := by
  rw [get_coproduct _ _ _ hJ]
  cases hj : J.get (.usr u) with
  | none =>
    rw [hj] at h'
    cases h'
    exact h
  | some d =>
    rw [hj] at h'
    cases h' with
    | some hc => exact OptC.over h hc

theorem compile_rel (i : IExpr W) : EnvRel i.compile i.stacks := by
  induction i using IExpr.rec (motive_1 := fun _ => True) (motive_3 := fun _ => True) with
  | nil => intro u; exact OptC.none
  | bind i o f ih _ =>
    intro u
    simp only [IExpr.compile, get_set, IExpr.stacks, Op.usr.injEq]
    by_cases h : o = u
    · simp only [h, if_true]; exact OptC.some (CRel.raw f)
    · simp only [h, if_false]; exact ih u
  | coprod a b iha ihb =>
    intro u
    exact OptC.coproduct (nodup_compile b) (iha u) (ihb u)
  | _ => trivial

theorem EnvRel.handle {I : Intp W} {E : Env W} (h : EnvRel I E) (i : IExpr W) :
    EnvRel (coproduct I i.compile) (fun u => stackOver (E u) (i.stacks u)) := fun u =>
  OptC.coproduct (nodup_compile i) (h u) (compile_rel i u)

theorem Rel.handle {I : Intp W} {Γ : Ctx W} (h : Rel I Γ) (i : IExpr W) :
    Rel (coproduct I i.compile)
      { Γ with env := fun u => stackOver (Γ.env u) (i.stacks u) } where
  env := h.env.handle i
  kont := by rw [get_coproduct _ _ _ (nodup_compile i), (compile_special i).1]; exact h.kont
  args := by rw [get_coproduct _ _ _ (nodup_compile i), (compile_special i).2]; exact h.args

theorem Rel.interp (i : IExpr W) : Rel i.compile ⟨i.stacks, none, none⟩ where
  env := compile_rel i
  kont := by rw [(compile_special i).1]; exact OptK.none
  args := by rw [(compile_special i).2]; rfl

theorem Rel.init : Rel ([] : Intp W) ⟨fun _ => none, none, none⟩ :=
  ⟨fun _ => OptC.none, OptK.none, rfl⟩

theorem Rel.setFwd {I : Intp W} {Γ : Ctx W} (h : Rel I Γ) {D : Clo W} {k : Kont W}
    (hk : KRel D k) : Rel (coproduct I [(.fwd, D)]) { Γ with kont := some k } where
  env := h.env.setFwd D
  kont := by rw [get_coproduct_fwd]; simpa using OptK.some hk
  args := by rw [get_coproduct_fwd]; simpa using h.args

/-! ## Running closures that implement stacks -/

theorem saveArgs_eq {c : Clo W} (h : c.nullary = false) : saveArgs c = .save c := by
  simp [saveArgs, h]
theorem saveArgs_nullary {c : Clo W} (h : c.nullary = true) : saveArgs c = c := by
  simp [saveArgs, h]
theorem restoreArgs_eq {c : Clo W} (h : c.nullary = false) : restoreArgs c = .restore c := by
  simp [restoreArgs, h]
theorem restoreArgs_nullary {c : Clo W} (h : c.nullary = true) : restoreArgs c = c := by
  simp [restoreArgs, h]

theorem run_intp {Δ : Defaults W} {n t} {s : St W} {r s'} (h : run Δ n t s = some (r, s')) :
    s' = ⟨s.intp, s'.world⟩ := by
  have := run_restores Δ n t s r s' h
  rw [← this]

/-- What a context looks like when the innermost handler `f` of a stack starts. -/
structure At (E : Env W) (o : Op) (R : List (Fn W)) (tgt : Option (List Val)) (I : Intp W) :
    Prop where
  env : EnvRel I E
  kont : ∃ D, I.get .fwd = some D ∧ KRel D ⟨o, R⟩
  args : I.get .getArgs = tgt.map .const

theorem clo_inv {Δ : Defaults W} {E : Env W} {o : Op} {f : Fn W} {args : List Val}
    {tgt : Option (List Val)} {b : Bool} {c : Clo W} {s : List (Fn W)} (h : CRel b c s) :
    ∀ {t rest : List (Fn W)} {n : Nat} {I : Intp W} {w : W} {r : Out} {s' : St W} {D : Clo W},
      s = f :: t → run Δ n (.clo c args) ⟨I, w⟩ = some (r, s') →
      EnvRel I E → I.get .fwd = some D → KRel D ⟨o, rest⟩ →
      (b = true ∨ f.nullary = true → I.get .getArgs = tgt.map .const) →
      (b = false → f.nullary = false → tgt = some args) →
      ∃ m I' s'', m ≤ n ∧ run Δ m (.clo (.fn f) args) ⟨I', w⟩ = some (r, s'') ∧
        s''.world = s'.world ∧ At E o (t ++ rest) tgt I' := by
  induction h with
  | raw f' =>
    intro t rest n I w r s' D hs hr hE hD hK hA hT
    cases hs
    exact ⟨n, I, s', Nat.le_refl _, hr, rfl, hE, ⟨D, hD, hK⟩, hA (Or.inl rfl)⟩
  | @save b c s hc ih =>
    intro t rest n I w r s' D hs hr hE hD hK hA hT
    by_cases hn : c.nullary = true
    · rw [saveArgs_nullary hn] at hr
      have hf : f.nullary = true := by rw [← hc.nullary hs]; exact hn
      exact ih hs hr hE hD hK (fun _ => hA (Or.inr hf)) (fun _ h2 => by rw [hf] at h2; cases h2)
    · have hn : c.nullary = false := by simpa using hn
      have hf : f.nullary = false := by rw [← hc.nullary hs]; exact hn
      rw [saveArgs_eq hn] at hr
      cases n with
      | zero => simp [run] at hr
      | succ n =>
        rw [run] at hr
        obtain ⟨s1, h1, e⟩ := withInterp_some hr
        have hT' := hT rfl hf
        obtain ⟨m, I', s'', hm, hr', hw, hat⟩ := ih hs h1 (hE.setArgs _)
          (by rw [get_coproduct_getArgs]; simpa using hD) hK
          (fun _ => by rw [get_coproduct_getArgs]; simp [hT'])
          (fun _ _ => hT')
        exact ⟨m, I', s'', Nat.le_succ_of_le hm, hr', by rw [hw, e], hat⟩
  | @prompt b c s b' d t0 hc hd ihc ihd =>
    intro t rest n I w r s' D hs hr hE hD hK hA hT
    obtain ⟨f', t', e'⟩ := hd.nonempty
    subst e'
    simp at hs
    obtain ⟨rfl, rfl⟩ := hs
    cases n with
    | zero => simp [run] at hr
    | succ n =>
      rw [run] at hr
      obtain ⟨s1, h1, e⟩ := withInterp_some hr
      simp only [hD, Option.getD_some] at h1
      have hK' := KRel.chain hK hc
      -- run the saved body
      have key : ∃ m I' s'', m ≤ n ∧ run Δ m (.clo (.fn f') args) ⟨I', w⟩ = some (r, s'') ∧
          s''.world = s1.world ∧ At E o (t' ++ (s ++ rest)) tgt I' := by
        by_cases hn : d.nullary = true
        · rw [saveArgs_nullary hn] at h1
          have hf : f'.nullary = true := by rw [← hd.nullary rfl]; exact hn
          exact ihd rfl h1 (hE.setFwd _) (by rw [get_coproduct_fwd]; simp) hK'
            (fun _ => by rw [get_coproduct_fwd]; simpa using hA (Or.inr hf))
            (fun _ h2 => by rw [hf] at h2; cases h2)
        · have hn : d.nullary = false := by simpa using hn
          have hf : f'.nullary = false := by rw [← hd.nullary rfl]; exact hn
          rw [saveArgs_eq hn] at h1
          cases n with
          | zero => simp [run] at h1
          | succ n =>
            rw [run] at h1
            obtain ⟨s2, h2, e2⟩ := withInterp_some h1
            have hT' := hT rfl hf
            obtain ⟨m, I', s'', hm, hr', hw, hat⟩ := ihd rfl h2
              ((hE.setFwd _).setArgs _)
              (by rw [get_coproduct_getArgs, get_coproduct_fwd]; simp) hK'
              (fun _ => by rw [get_coproduct_getArgs]; simp [hT'])
              (fun _ _ => hT')
            exact ⟨m, I', s'', Nat.le_succ_of_le hm, hr', by rw [hw, e2], hat⟩
      obtain ⟨m, I', s'', hm, hr', hw, hat⟩ := key
      exact ⟨m, I', s'', Nat.le_succ_of_le hm, hr', by rw [hw, e],
        by simpa [List.append_assoc] using hat⟩

theorem clo_run {Δ : Defaults W} {E : Env W} {o : Op} {f : Fn W} {args : List Val}
    {tgt : Option (List Val)} {w w' : W} {r : Out} {R : List (Fn W)}
    (H : ∀ I, At E o R tgt I → ∃ m, run Δ m (.clo (.fn f) args) ⟨I, w⟩ = some (r, ⟨I, w'⟩))
    {b : Bool} {c : Clo W} {s : List (Fn W)} (h : CRel b c s) :
    ∀ {t rest : List (Fn W)} {I : Intp W} {D : Clo W},
      s = f :: t → R = t ++ rest → EnvRel I E → I.get .fwd = some D → KRel D ⟨o, rest⟩ →
      (b = true ∨ f.nullary = true → I.get .getArgs = tgt.map .const) →
      (b = false → f.nullary = false → tgt = some args) →
      ∃ n, run Δ n (.clo c args) ⟨I, w⟩ = some (r, ⟨I, w'⟩) := by
  induction h with
  | raw f' =>
    intro t rest I D hs hR hE hD hK hA hT
    cases hs
    subst hR
    exact H I ⟨hE, ⟨D, hD, hK⟩, hA (Or.inl rfl)⟩
  | @save b c s hc ih =>
    intro t rest I D hs hR hE hD hK hA hT
    by_cases hn : c.nullary = true
    · rw [saveArgs_nullary hn]
      have hf : f.nullary = true := by rw [← hc.nullary hs]; exact hn
      exact ih hs hR hE hD hK (fun _ => hA (Or.inr hf))
        (fun _ h2 => by rw [hf] at h2; cases h2)
    · have hn : c.nullary = false := by simpa using hn
      have hf : f.nullary = false := by rw [← hc.nullary hs]; exact hn
      rw [saveArgs_eq hn]
      have hT' := hT rfl hf
      obtain ⟨n, hr⟩ := ih (I := coproduct I [(.getArgs, .const args)]) hs hR (hE.setArgs _)
          (by rw [get_coproduct_getArgs]; simpa using hD) hK
          (fun _ => by rw [get_coproduct_getArgs]; simp [hT'])
          (fun _ _ => hT')
      exact ⟨n + 1, by rw [run]; simp [withInterp, hr]⟩
  | @prompt b c s b' d t0 hc hd ihc ihd =>
    intro t rest I D hs hR hE hD hK hA hT
    obtain ⟨f', t', e'⟩ := hd.nonempty
    subst e'
    simp at hs
    obtain ⟨rfl, rfl⟩ := hs
    have hK' := KRel.chain hK hc
    have hR' : R = t' ++ (s ++ rest) := by rw [hR, List.append_assoc]
    have key : ∃ n, run Δ n (.clo (saveArgs d) args)
        ⟨coproduct I [(.fwd, .withFwd D (restoreArgs (saveArgs c)))], w⟩ =
        some (r, ⟨coproduct I [(.fwd, .withFwd D (restoreArgs (saveArgs c)))], w'⟩) := by
      by_cases hn : d.nullary = true
      · rw [saveArgs_nullary hn]
        have hf : f'.nullary = true := by rw [← hd.nullary rfl]; exact hn
        exact ihd rfl hR' (hE.setFwd _) (by rw [get_coproduct_fwd]; simp) hK'
          (fun _ => by rw [get_coproduct_fwd]; simpa using hA (Or.inr hf))
          (fun _ h2 => by rw [hf] at h2; cases h2)
      · have hn : d.nullary = false := by simpa using hn
        have hf : f'.nullary = false := by rw [← hd.nullary rfl]; exact hn
        rw [saveArgs_eq hn]
        have hT' := hT rfl hf
        obtain ⟨n, hr⟩ := ihd (I := coproduct (coproduct I [(.fwd, .withFwd D
            (restoreArgs (saveArgs c)))]) [(.getArgs, .const args)]) rfl hR'
          ((hE.setFwd _).setArgs _)
          (by rw [get_coproduct_getArgs, get_coproduct_fwd]; simp) hK'
          (fun _ => by rw [get_coproduct_getArgs]; simp [hT'])
          (fun _ _ => hT')
        exact ⟨n + 1, by rw [run]; simp [withInterp, hr]⟩
    obtain ⟨n, hr⟩ := key
    exact ⟨n + 1, by rw [run]; simp only [hD, Option.getD_some]; simp [withInterp, hr]⟩

/-! ## Forward direction -/

theorem SRun.enter_ctx {Δ : Defaults W} {Γ Γ' : Ctx W} {o sv f rest args w r w'}
    (h : SRun Δ Γ (.enter o sv f rest args) w r w')
    (he : Γ.env = Γ'.env) (ha : Γ.args = Γ'.args) :
    SRun Δ Γ' (.enter o sv f rest args) w r w' := by
  cases h with
  | enter h1 h2 =>
    refine SRun.enter h1 ?_
    rw [← he, ← ha]; exact h2
  | enterBad h1 h2 => exact SRun.enterBad h1 h2

theorem SRun.implicit_ctx {Δ : Defaults W} {Γ Γ' : Ctx W} {args w r w'}
    (h : SRun Δ Γ (.implicit args) w r w')
    (he : Γ.env = Γ'.env) (ha : Γ.args = Γ'.args) : SRun Δ Γ' (.implicit args) w r w' := by
  cases h with
  | implGiven h => exact SRun.implGiven h
  | implCurrent h => exact SRun.implCurrent (ha ▸ h)
  | implNone h h2 => exact SRun.implNone (ha ▸ h) (he ▸ h2)
  | implAsked h h2 h3 => exact SRun.implAsked (ha ▸ h) (he ▸ h2) (h3.enter_ctx he ha)

/-- Correspondence of tasks. -/
inductive TaskRel : Task W → STask W → Prop where
  | prog (p) : TaskRel (.prog p) (.prog p)
  | call (u args) : TaskRel (.op (.usr u) args) (.call u args)
  | fwd (args) : TaskRel (.op .fwd args) (.fwd args)
  | getArgs : TaskRel (.op .getArgs []) (.implicit [])
  | dflt (o args) : TaskRel (.dfltRule o args) (.dflt o args)
  | dfltRaw (o args) : TaskRel (.dfltRaw o args) (.dfltRaw o args)

/-- The forward direction at fuel `n`. -/
def Fwd (Δ : Defaults W) (n : Nat) : Prop :=
  ∀ t T, TaskRel t T → ∀ (I : Intp W) (Γ : Ctx W) w r s', Rel I Γ →
    run Δ n t ⟨I, w⟩ = some (r, s') → SRun Δ Γ T w r s'.world

/-- Running a closure that implements a stack, forward. -/
theorem clo_fwd {Δ : Defaults W} {n : Nat} (IH : ∀ m, m < n → Fwd Δ m)
    {b : Bool} {c : Clo W} {f : Fn W} {t rest : List (Fn W)} {I : Intp W} {Γ : Ctx W}
    {D : Clo W} {o : Op} {args : List Val} {w : W} {r : Out} {s' : St W} {sv : Bool}
    (hc : CRel b c (f :: t)) (hE : EnvRel I Γ.env) (hA : I.get .getArgs = Γ.args.map .const)
    (hD : I.get .fwd = some D) (hK : KRel D ⟨o, rest⟩)
    (hsv : f.nullary = false → sv = !b)
    (h : run Δ n (.clo c args) ⟨I, w⟩ = some (r, s')) :
    SRun Δ Γ (.enter o sv f (t ++ rest) args) w r s'.world := by
  have hinv := clo_inv (Δ := Δ) (E := Γ.env) (o := o) (f := f) (args := args)
    (tgt := if sv && !f.nullary then some args else Γ.args) hc (rest := rest) rfl h hE hD hK
    (by
      intro h1
      cases hf : f.nullary with
      | true => simpa using hA
      | false =>
        have hb : b = true := by cases h1 with
          | inl h => exact h
          | inr h => rw [hf] at h; cases h
        rw [hsv hf, hb]; simpa using hA)
    (by
      intro hb hf
      rw [hsv hf, hb, hf]; simp)
  obtain ⟨m, I', s'', hm, hr, hw, hat⟩ := hinv
  cases m with
  | zero => simp [run] at hr
  | succ m =>
    rw [run] at hr
    split at hr
    · rename_i hcond
      simp at hcond hr
      rw [← hw, ← hr.2, ← hr.1]
      exact SRun.enterBad hcond.1 (by simpa using hcond.2)
    · rename_i hcond
      rw [← hw]
      obtain ⟨D', hD', hK'⟩ := hat.kont
      refine SRun.enter (by intro hn; simpa [hn] using hcond) ?_
      refine IH m (by omega) _ _ (TaskRel.prog _) I' _ _ _ _ ⟨hat.env, ?_, hat.args⟩ hr
      rw [hD']; exact OptK.some hK'

theorem restore_fwd {Δ : Defaults W} {n : Nat} (IH : ∀ m, m < n → Fwd Δ m)
    {c : Clo W} {I : Intp W} {Γ : Ctx W} {args : List Val} {w : W} {r : Out} {s' : St W}
    (hR : Rel I Γ) (h : run Δ n (.clo (.restore c) args) ⟨I, w⟩ = some (r, s')) :
    (∃ m a w1, m < n ∧ SRun Δ Γ (.implicit args) w (.ok (.tup a)) w1 ∧
      run Δ m (.clo c a) ⟨I, w1⟩ = some (r, s')) ∨
    (∃ x, SRun Δ Γ (.implicit args) w (.error x) s'.world ∧ r = .error x) ∨
    (∃ v, SRun Δ Γ (.implicit args) w (.ok v) s'.world ∧ (∀ a, v ≠ .tup a) ∧
      r = .error .typeError) := by
  cases n with
  | zero => simp [run] at h
  | succ n =>
    rw [run] at h
    split at h
    · rename_i he
      have he : args = [] := by simpa using he
      subst he
      split at h
      · cases h
      · rename_i a s1 h1
        have h2 := IH n (by omega) _ _ TaskRel.getArgs I Γ w _ _ hR h1
        have e := run_intp h1
        rw [e] at h
        exact Or.inl ⟨n, a, s1.world, by omega, h2, h⟩
      · rename_i v s1 hv h1
        have h2 := IH n (by omega) _ _ TaskRel.getArgs I Γ w _ _ hR h1
        cases h
        refine Or.inr (Or.inr ⟨v, h2, ?_, rfl⟩)
        intro a e; subst e; exact hv a rfl
      · rename_i e s1 h1
        have h2 := IH n (by omega) _ _ TaskRel.getArgs I Γ w _ _ hR h1
        cases h
        exact Or.inr (Or.inl ⟨e, h2, rfl⟩)
    · rename_i he
      have he : args ≠ [] := by simpa using he
      exact Or.inl ⟨n, args, w, by omega, SRun.implGiven he, h⟩

theorem fwd_sim (Δ : Defaults W) : ∀ n, Fwd Δ n := by
  intro n
  induction n using Nat.strongRecOn with
  | ind n IH =>
  intro t T hT I Γ w r s' hR h
  cases n with
  | zero => simp [run] at h
  | succ n =>
  have ih := IH n (Nat.lt_succ_self n)
  -- unhandled operations
  have unh : ∀ (o : Op) (args : List Val), I.get o = none →
      run Δ (n+1) (.op o args) ⟨I, w⟩ = some (r, s') →
      SRun Δ Γ (.unhandled o args) w r s'.world := by
    intro o args ho h
    rw [run] at h
    simp only [ho] at h
    split at h
    · rename_i hs
      exact SRun.selfApply hs (ih _ _ (TaskRel.dfltRaw _ _) I Γ w r s' hR h)
    · rename_i hs
      exact SRun.unhandled (by simpa using hs) (ih _ _ (TaskRel.call _ _) I Γ w r s' hR h)
  cases hT with
  | prog p =>
    cases p with
    | ret v => simp [run] at h; obtain ⟨rfl, rfl⟩ := h; exact SRun.ret
    | raise e => simp [run] at h; obtain ⟨rfl, rfl⟩ := h; exact SRun.raise
    | eff f k => rw [run] at h; exact SRun.eff (ih _ _ (TaskRel.prog _) I Γ _ _ _ hR h)
    | call u args k =>
      rw [run] at h
      split at h
      · cases h
      · rename_i r1 s1 h1
        have e := run_intp h1
        rw [e] at h
        exact SRun.call (ih _ _ (TaskRel.call _ _) I Γ _ _ _ hR h1)
          (ih _ _ (TaskRel.prog _) I Γ _ _ _ hR h)
    | fwd args k =>
      rw [run] at h
      split at h
      · cases h
      · rename_i r1 s1 h1
        have e := run_intp h1
        rw [e] at h
        exact SRun.fwd (ih _ _ (TaskRel.fwd _) I Γ _ _ _ hR h1)
          (ih _ _ (TaskRel.prog _) I Γ _ _ _ hR h)
    | handle i p k =>
      rw [run] at h
      split at h
      · cases h
      · rename_i r1 s1 h1
        obtain ⟨s2, h2, rfl⟩ := withInterp_some h1
        exact SRun.handle (ih _ _ (TaskRel.prog _) _ _ _ _ _ (hR.handle i) h2)
          (ih _ _ (TaskRel.prog _) I Γ _ _ _ hR h)
    | interp i p k =>
      rw [run] at h
      split at h
      · cases h
      · rename_i r1 s1 h1
        obtain ⟨s2, h2, rfl⟩ := withInterp_some h1
        exact SRun.interp (ih _ _ (TaskRel.prog _) _ _ _ _ _ (Rel.interp i) h2)
          (ih _ _ (TaskRel.prog _) I Γ _ _ _ hR h)
  | call u args =>
    cases hu : I.get (.usr u) with
    | none =>
      have he : Γ.env u = none := by
        have := hR.env u; rw [hu] at this; cases h' : Γ.env u with
        | none => rfl
        | some e => rw [h'] at this; cases this
      exact SRun.free he (unh _ _ hu h)
    | some c =>
      have := hR.env u
      rw [hu] at this
      cases h' : Γ.env u with
      | none => rw [h'] at this; cases this
      | some e =>
        rw [h'] at this
        cases this with
        | some hc =>
        rw [run] at h
        simp only [hu] at h
        obtain ⟨s2, h2, rfl⟩ := withInterp_some h
        refine SRun.handled h' ?_
        have := clo_fwd (Γ := Γ) (sv := !e.raw) (fun m hm => IH m (by omega)) hc
          (hR.env.setFwd _)
          (by rw [get_coproduct_fwd]; simpa using hR.args)
          (by rw [get_coproduct_fwd]; simp) (KRel.dflt (.usr u)) (fun _ => rfl) h2
        simpa using this
  | fwd args =>
    cases hf : I.get .fwd with
    | none =>
      have hk : Γ.kont = none := by
        have := hR.kont; rw [hf] at this; cases h' : Γ.kont with
        | none => rfl
        | some e => rw [h'] at this; cases this
      exact SRun.fwdFree hk (unh _ _ hf h)
    | some D =>
      have hk := hR.kont
      rw [hf] at hk
      cases h' : Γ.kont with
      | none => rw [h'] at hk; cases hk
      | some k =>
      rw [h'] at hk
      cases hk with
      | some hK =>
      rw [run] at h
      simp only [hf] at h
      obtain ⟨s2, h2, rfl⟩ := withInterp_some h
      have hR1 : Rel (coproduct I [(.fwd, restoreArgs (.dflt .fwd))])
          { Γ with kont := some ⟨.fwd, []⟩ } := hR.setFwd (KRel.dflt .fwd)
      cases hK with
      | dflt o =>
        rw [restoreArgs_eq (c := .dflt o) rfl] at h2
        rcases restore_fwd (fun m hm => IH m (by omega)) hR1 h2 with
          ⟨m, a, w1, hm, himp, hr⟩ | ⟨x, himp, rfl⟩ | ⟨v, himp, hv, rfl⟩
        · cases m with
          | zero => simp [run] at hr
          | succ m =>
            rw [run] at hr
            refine SRun.fwdEnd h' (by exact himp.implicit_ctx rfl rfl) ?_
            have q := IH m (by omega) _ _ (TaskRel.dflt _ _) _ _ _ _ _ hR1 hr
            exact q
        · exact SRun.fwdFail h' (by intro f rest e; cases e) (by exact himp.implicit_ctx rfl rfl)
        · exact SRun.fwdBad h' (by intro f rest e; cases e) (by exact himp.implicit_ctx rfl rfl) hv
      | @chain D o rest b c s hK' hc =>
        obtain ⟨f, t, rfl⟩ := hc.nonempty
        cases n with
        | zero => simp [run] at h2
        | succ n =>
        rw [run] at h2
        obtain ⟨s3, h3, rfl⟩ := withInterp_some h2
        have hR2 := hR1.setFwd hK'
        have hD2 : (coproduct (coproduct I [(.fwd, restoreArgs (.dflt .fwd))])
            [(.fwd, D)]).get .fwd = some D := by rw [get_coproduct_fwd]; simp
        have hcn := hc.nullary rfl
        by_cases hn : c.nullary = true
        · rw [saveArgs_nullary hn, restoreArgs_nullary hn] at h3
          have hfn : f.nullary = true := by rw [← hcn]; exact hn
          refine SRun.fwdNullary h' hfn ?_
          have q := clo_fwd (n := n) (Γ := Γ) (sv := true) (fun m hm => IH m (by omega)) hc
            hR2.env hR2.args hD2 hK' (by rw [hfn]; intro e; cases e) h3
          exact q
        · have hn : c.nullary = false := by simpa using hn
          have hfn : f.nullary = false := by rw [← hcn]; exact hn
          have hnr : ∀ f' rest', (f :: t ++ rest) = f' :: rest' → f'.nullary = false := by
            intro f' rest' e; simp at e; rw [← e.1]; exact hfn
          have hsv : CRel false (saveArgs c) (f :: t) := CRel.save hc
          rw [restoreArgs_eq (by rw [nullary_saveArgs]; exact hn)] at h3
          rcases restore_fwd (fun m hm => IH m (by omega)) hR2 h3 with
            ⟨m, a, w1, hm, himp, hr⟩ | ⟨x, himp, rfl⟩ | ⟨v, himp, hv, rfl⟩
          · refine SRun.fwdNext h' hfn (by exact himp.implicit_ctx rfl rfl) ?_
            have q := clo_fwd (n := m) (Γ := Γ) (sv := true) (fun k hk => IH k (by omega)) hsv
              hR2.env hR2.args hD2 hK' (fun _ => rfl) hr
            exact q
          · exact SRun.fwdFail h' hnr (by exact himp.implicit_ctx rfl rfl)
          · exact SRun.fwdBad h' hnr (by exact himp.implicit_ctx rfl rfl) hv
  | getArgs =>
    cases ha : Γ.args with
    | some a =>
      have hg := hR.args
      rw [ha] at hg
      rw [run] at h
      simp only [hg, Option.map_some] at h
      obtain ⟨s2, h2, rfl⟩ := withInterp_some h
      cases n with
      | zero => simp [run] at h2
      | succ n =>
        rw [run] at h2
        simp at h2
        obtain ⟨rfl, rfl⟩ := h2
        exact SRun.implCurrent ha
    | none =>
      have hg := hR.args
      rw [ha] at hg
      have hu := unh _ _ (by simpa using hg) h
      cases hu with
      | selfApply hs => simp [isSelfApply] at hs
      | unhandled hs hcall =>
        cases hcall with
        | handled he hen => exact SRun.implAsked ha he hen
        | free he hun =>
          cases hun with
          | unhandled hs' _ => simp [isSelfApply, Op.cls] at hs'
          | selfApply _ hraw =>
            cases hraw with
            | rawApplyBad hb => exact absurd rfl (hb _ _)
            | rawApply hd =>
              cases hd with
              | dfltTerm hr => cases hr
              | dflt hr _ =>
                cases hr with
                | rawGetArgs => exact SRun.implNone ha he
                | rawGetArgsBad hne => exact absurd rfl hne
  | dflt o args =>
    rw [run] at h
    split at h
    · cases h
    · rename_i s1 h1
      cases h
      exact SRun.dfltTerm (ih _ _ (TaskRel.dfltRaw _ _) I Γ _ _ _ hR h1)
    · rename_i r1 s1 hne h1
      cases h
      refine SRun.dflt (ih _ _ (TaskRel.dfltRaw _ _) I Γ _ _ _ hR h1) ?_
      intro e
      subst e
      exact hne rfl
  | dfltRaw o args =>
    cases o with
    | fwd => simp [run] at h; obtain ⟨rfl, rfl⟩ := h; exact SRun.rawFwd
    | getArgs =>
      rw [run] at h
      split at h
      · rename_i he
        have he : args = [] := by simpa using he
        subst he; cases h; exact SRun.rawGetArgs
      · rename_i he
        cases h; exact SRun.rawGetArgsBad (by simpa using he)
    | usr u =>
      cases u with
      | apply c =>
        cases c with
        | base =>
          rw [run] at h
          cases hsp : splitOp args with
          | none =>
            rw [hsp] at h; cases h
            refine SRun.rawApplyBad ?_
            intro o rest e; subst e; simp [splitOp] at hsp
          | some p =>
            obtain ⟨o, rest⟩ := p
            rw [hsp] at h
            have : args = .op o :: rest := by
              unfold splitOp at hsp
              split at hsp
              · cases hsp; rfl
              · cases hsp
            subst this
            exact SRun.rawApply (ih _ _ (TaskRel.dflt _ _) I Γ _ _ _ hR h)
        | sub m p =>
          rw [run] at h
          exact SRun.rawApplySub (ih _ _ (TaskRel.call _ _) I Γ _ _ _ hR h)
      | user c m =>
        rw [run] at h
        exact SRun.rawUser (ih _ _ (TaskRel.prog _) I Γ _ _ _ hR h)

/-! ## Backward direction -/

/-- What the runtime must do to match a task of the abstract machine. -/
def Bwd (Δ : Defaults W) (Γ : Ctx W) (T : STask W) (w : W) (r : Out) (w' : W) : Prop :=
  match T with
  | .prog p => ∀ I, Rel I Γ → ∃ n, run Δ n (.prog p) ⟨I, w⟩ = some (r, ⟨I, w'⟩)
  | .call u args => ∀ I, Rel I Γ → ∃ n, run Δ n (.op (.usr u) args) ⟨I, w⟩ = some (r, ⟨I, w'⟩)
  | .fwd args => ∀ I, Rel I Γ → ∃ n, run Δ n (.op .fwd args) ⟨I, w⟩ = some (r, ⟨I, w'⟩)
  | .unhandled o args => ∀ I, Rel I Γ → I.get o = none →
      ∃ n, run Δ n (.op o args) ⟨I, w⟩ = some (r, ⟨I, w'⟩)
  | .dflt o args => ∀ I, Rel I Γ → ∃ n, run Δ n (.dfltRule o args) ⟨I, w⟩ = some (r, ⟨I, w'⟩)
  | .dfltRaw o args => ∀ I, Rel I Γ → ∃ n, run Δ n (.dfltRaw o args) ⟨I, w⟩ = some (r, ⟨I, w'⟩)
  | .enter o sv f R args => ∀ I b c t rest D, EnvRel I Γ.env →
      I.get .getArgs = Γ.args.map .const → I.get .fwd = some D → KRel D ⟨o, rest⟩ →
      CRel b c (f :: t) → R = t ++ rest → (f.nullary = false → sv = !b) →
      ∃ n, run Δ n (.clo c args) ⟨I, w⟩ = some (r, ⟨I, w'⟩)
  | .implicit args => ∀ I, EnvRel I Γ.env → I.get .getArgs = Γ.args.map .const →
      (args = [] ∧ ∃ n, run Δ n (.op .getArgs []) ⟨I, w⟩ = some (r, ⟨I, w'⟩)) ∨
      (args ≠ [] ∧ r = .ok (.tup args) ∧ w' = w)

theorem opt_none {i : Option (Clo W)} {e : Option (Entry W)} (h : OptC i e) (he : e = none) :
    i = none := by cases h with
  | none => rfl
  | some _ => cases he

theorem restore_bwd {Δ : Defaults W} {Γ : Ctx W} {c : Clo W} {args a : List Val} {I : Intp W}
    {w w1 w' : W} {r : Out}
    (h : Bwd Δ Γ (.implicit args) w (.ok (.tup a)) w1)
    (hE : EnvRel I Γ.env) (hA : I.get .getArgs = Γ.args.map .const)
    (hc : ∃ n, run Δ n (.clo c a) ⟨I, w1⟩ = some (r, ⟨I, w'⟩)) :
    ∃ n, run Δ n (.clo (.restore c) args) ⟨I, w⟩ = some (r, ⟨I, w'⟩) := by
  obtain ⟨n, hn⟩ := hc
  rcases h I hE hA with ⟨rfl, m, hm⟩ | ⟨hne, he, rfl⟩
  · refine ⟨max n m + 1, ?_⟩
    rw [run]
    simp only [List.isEmpty_nil, if_true]
    rw [run_mono (Nat.le_max_right n m) hm]
    exact run_mono (Nat.le_max_left n m) hn
  · simp at he; subst he
    refine ⟨n + 1, ?_⟩
    rw [run]
    simp only [List.isEmpty_iff, hne, if_false]
    exact hn

theorem restore_bwd_fail {Δ : Defaults W} {Γ : Ctx W} {c : Clo W} {args : List Val} {I : Intp W}
    {w w1 : W} {r : Out} {r' : Out}
    (h : Bwd Δ Γ (.implicit args) w r w1)
    (hE : EnvRel I Γ.env) (hA : I.get .getArgs = Γ.args.map .const)
    (hr : (∃ x, r = .error x ∧ r' = .error x) ∨
      (∃ v, r = .ok v ∧ (∀ a, v ≠ .tup a) ∧ r' = .error .typeError)) :
    ∃ n, run Δ n (.clo (.restore c) args) ⟨I, w⟩ = some (r', ⟨I, w1⟩) := by
  rcases h I hE hA with ⟨rfl, m, hm⟩ | ⟨hne, he, rfl⟩
  · refine ⟨m + 1, ?_⟩
    rw [run]
    simp only [List.isEmpty_nil, if_true]
    rw [hm]
    rcases hr with ⟨x, rfl, rfl⟩ | ⟨v, rfl, hv, rfl⟩
    · rfl
    · cases v with
      | tup a => exact absurd rfl (hv a)
      | _ => rfl
  · subst he
    rcases hr with ⟨x, h1, _⟩ | ⟨v, h1, hv, _⟩
    · cases h1
    · cases h1; exact absurd rfl (hv _)

theorem withInterp_intro {f : St W → Option (Out × St W)} {j : Intp W} {I : Intp W} {w w' : W}
    {r : Out} (h : f ⟨j, w⟩ = some (r, ⟨j, w'⟩)) :
    withInterp f j ⟨I, w⟩ = some (r, ⟨I, w'⟩) := by
  simp [withInterp, h]

/-- Sequencing a call and its continuation. -/
theorem seq_bwd {Δ : Defaults W} {t t' : Task W} {s s1 s2 : St W} {r r' : Out}
    (h : ∃ n, run Δ n t s = some (r, s1)) (h' : ∃ n, run Δ n t' s1 = some (r', s2)) :
    ∃ n, run Δ n t s = some (r, s1) ∧ run Δ n t' s1 = some (r', s2) := by
  obtain ⟨n, hn⟩ := h
  obtain ⟨m, hm⟩ := h'
  exact ⟨max n m, run_mono (Nat.le_max_left n m) hn, run_mono (Nat.le_max_right n m) hm⟩

/-- A `fwd` with a chain runs the closure bound to `fwd`. -/
theorem fwd_bound {Δ : Defaults W} {D : Clo W} {I : Intp W} {args : List Val} {w w' : W} {r : Out}
    (hf : I.get .fwd = some D)
    (h : ∃ n, run Δ n (.clo D args) ⟨coproduct I [(.fwd, restoreArgs (.dflt .fwd))], w⟩ =
      some (r, ⟨coproduct I [(.fwd, restoreArgs (.dflt .fwd))], w'⟩)) :
    ∃ n, run Δ n (.op .fwd args) ⟨I, w⟩ = some (r, ⟨I, w'⟩) := by
  obtain ⟨n, hn⟩ := h
  refine ⟨n + 1, ?_⟩
  rw [run]
  simp only [hf]
  exact withInterp_intro hn

theorem withFwd_run {Δ : Defaults W} {D c : Clo W} {I : Intp W} {args : List Val} {w w' : W}
    {r : Out}
    (h : ∃ n, run Δ n (.clo c args) ⟨coproduct I [(.fwd, D)], w⟩ =
      some (r, ⟨coproduct I [(.fwd, D)], w'⟩)) :
    ∃ n, run Δ n (.clo (.withFwd D c) args) ⟨I, w⟩ = some (r, ⟨I, w'⟩) := by
  obtain ⟨n, hn⟩ := h
  refine ⟨n + 1, ?_⟩
  rw [run]
  exact withInterp_intro hn

theorem bwd_sim {Δ : Defaults W} {Γ : Ctx W} {T : STask W} {w : W} {r : Out} {w' : W}
    (h : SRun Δ Γ T w r w') : Bwd Δ Γ T w r w' := by
  induction h with
  | ret => intro I _; exact ⟨1, rfl⟩
  | raise => intro I _; exact ⟨1, rfl⟩
  | eff _ ih =>
    intro I hR
    obtain ⟨n, hn⟩ := ih I hR
    exact ⟨n + 1, by rw [run]; exact hn⟩
  | call _ _ ih1 ih2 =>
    intro I hR
    obtain ⟨n, h1, h2⟩ := seq_bwd (ih1 I hR) (ih2 I hR)
    exact ⟨n + 1, by rw [run, h1]; exact h2⟩
  | fwd _ _ ih1 ih2 =>
    intro I hR
    obtain ⟨n, h1, h2⟩ := seq_bwd (ih1 I hR) (ih2 I hR)
    exact ⟨n + 1, by rw [run, h1]; exact h2⟩
  | @handle Γ i p k w r w' r' w'' _ _ ih1 ih2 =>
    intro I hR
    obtain ⟨n, h1⟩ := ih1 _ (hR.handle i)
    obtain ⟨m, h2⟩ := ih2 _ hR
    refine ⟨max n m + 1, ?_⟩
    rw [run, withInterp_intro (run_mono (Nat.le_max_left n m) h1)]
    exact run_mono (Nat.le_max_right n m) h2
  | @interp Γ i p k w r w' r' w'' _ _ ih1 ih2 =>
    intro I hR
    obtain ⟨n, h1⟩ := ih1 _ (Rel.interp i)
    obtain ⟨m, h2⟩ := ih2 _ hR
    refine ⟨max n m + 1, ?_⟩
    rw [run, withInterp_intro (run_mono (Nat.le_max_left n m) h1)]
    exact run_mono (Nat.le_max_right n m) h2
  | @handled Γ u args e w r w' he _ ih =>
    intro I hR
    have hu := hR.env u
    rw [he] at hu
    cases hc : I.get (.usr u) with
    | none => rw [hc] at hu; cases hu
    | some c =>
      rw [hc] at hu
      cases hu with
      | some hcr =>
      obtain ⟨n, hn⟩ := ih (coproduct I [(.fwd, restoreArgs (.dflt (.usr u)))]) _ c e.rest [] _
        (hR.env.setFwd _)
        (by rw [get_coproduct_fwd]; simpa using hR.args)
        (by rw [get_coproduct_fwd]; simp) (KRel.dflt (.usr u)) hcr (by simp) (fun _ => rfl)
      refine ⟨n + 1, ?_⟩
      rw [run]
      simp only [hc]
      exact withInterp_intro hn
  | @free Γ u args w r w' he _ ih =>
    intro I hR
    exact ih I hR (opt_none (hR.env u) he)
  | @enter Γ o sv f R args w r w' hn _ ih =>
    intro I b c t rest D hE hA hD hK hc hR hsv
    refine clo_run (E := Γ.env) (o := o) (R := R)
      (tgt := if sv && !f.nullary then some args else Γ.args) ?_ hc rfl hR hE hD hK ?_ ?_
    · intro I' hat
      obtain ⟨D', hD', hK'⟩ := hat.kont
      obtain ⟨n, hr⟩ := ih I' ⟨hat.env, by rw [hD']; exact OptK.some hK', hat.args⟩
      refine ⟨n + 1, ?_⟩
      rw [run]
      rw [if_neg]
      · exact hr
      · intro hcond
        simp at hcond
        exact hcond.2 (hn hcond.1)
    · intro h1
      cases hf : f.nullary with
      | true => simpa using hA
      | false =>
        have hb : b = true := by cases h1 with
          | inl h => exact h
          | inr h => rw [hf] at h; cases h
        rw [hsv hf, hb]; simpa using hA
    · intro hb hf
      rw [hsv hf, hb, hf]; simp
  | @enterBad Γ o sv f R args w hn hne =>
    intro I b c t rest D hE hA hD hK hc hR hsv
    refine clo_run (E := Γ.env) (o := o) (R := R) (tgt := Γ.args) ?_ hc rfl hR hE hD hK ?_ ?_
    · intro I' hat
      refine ⟨1, ?_⟩
      rw [run]
      simp [hn, hne]
    · intro _; exact hA
    · intro _ hf; rw [hn] at hf; cases hf
  | implGiven h => intro I _ _; exact Or.inr ⟨h, rfl, rfl⟩
  | @implCurrent Γ a w ha =>
    intro I hE hA
    rw [ha] at hA
    refine Or.inl ⟨rfl, 2, ?_⟩
    rw [run]
    simp only [hA, Option.map_some]
    exact withInterp_intro (by rw [run]; rfl)
  | @implNone Γ w ha he =>
    intro I hE hA
    rw [ha] at hA
    have hap := opt_none (hE (.apply .base)) he
    simp only [Option.map_none] at hA
    refine Or.inl ⟨rfl, 5, ?_⟩
    rw [run]
    simp only [hA, isSelfApply, Bool.false_eq_true, if_false]
    rw [run]
    simp only [Op.cls, hap, isSelfApply, decide_true, if_true]
    rw [run]
    simp only [splitOp]
    rw [run, run]
    rfl
  | @implAsked Γ e w r w' ha he _ ih =>
    intro I hE hA
    have hA' := hA
    rw [ha] at hA'
    simp only [Option.map_none] at hA'
    refine Or.inl ⟨rfl, ?_⟩
    have hu := hE (.apply .base)
    rw [he] at hu
    cases hc : I.get (.usr (.apply .base)) with
    | none => rw [hc] at hu; cases hu
    | some c =>
      rw [hc] at hu
      cases hu with
      | some hcr =>
      obtain ⟨n, hn⟩ := ih (coproduct I [(.fwd, restoreArgs (.dflt (.usr (.apply .base))))]) _ c
        e.rest [] _ (hE.setFwd _)
        (by rw [get_coproduct_fwd]; simpa using hA)
        (by rw [get_coproduct_fwd]; simp) (KRel.dflt _) hcr (by simp) (fun _ => rfl)
      refine ⟨n + 2, ?_⟩
      rw [run]
      simp only [hA', isSelfApply, Bool.false_eq_true, if_false]
      rw [run]
      simp only [Op.cls, hc]
      exact withInterp_intro hn
  | @fwdNullary Γ args o f rest w r w' hk hf _ ih =>
    intro I hR
    have hko := hR.kont
    rw [hk] at hko
    cases hD : I.get .fwd with
    | none => rw [hD] at hko; cases hko
    | some D =>
    rw [hD] at hko
    refine fwd_bound hD ?_
    cases hko with
    | some hK =>
    generalize hkk : (⟨o, f :: rest⟩ : Kont W) = kk at hK
    cases hK with
    | dflt o => cases hkk
    | @chain D' o' rest' b c s hK' hc =>
      obtain ⟨f', t, rfl⟩ := hc.nonempty
      simp at hkk
      obtain ⟨rfl, rfl, rfl⟩ := hkk
      have hcn : c.nullary = true := by rw [hc.nullary rfl]; exact hf
      rw [saveArgs_nullary hcn, restoreArgs_nullary hcn]
      have hR2 := (hR.setFwd (KRel.dflt .fwd)).setFwd hK'
      exact withFwd_run (ih _ _ c t rest' D' hR2.env hR2.args
        (by rw [get_coproduct_fwd]; simp) hK' hc rfl (by rw [hf]; intro e; cases e))
  | @fwdNext Γ args o f rest a w w' r w'' hk hf _ _ ih1 ih2 =>
    intro I hR
    have hko := hR.kont
    rw [hk] at hko
    cases hD : I.get .fwd with
    | none => rw [hD] at hko; cases hko
    | some D =>
    rw [hD] at hko
    refine fwd_bound hD ?_
    cases hko with
    | some hK =>
    generalize hkk : (⟨o, f :: rest⟩ : Kont W) = kk at hK
    cases hK with
    | dflt o => cases hkk
    | @chain D' o' rest' b c s hK' hc =>
      obtain ⟨f', t, rfl⟩ := hc.nonempty
      simp at hkk
      obtain ⟨rfl, rfl, rfl⟩ := hkk
      have hcn : c.nullary = false := by rw [hc.nullary rfl]; exact hf
      rw [restoreArgs_eq (by rw [nullary_saveArgs]; exact hcn)]
      have hR2 := (hR.setFwd (KRel.dflt .fwd)).setFwd hK'
      refine withFwd_run ?_
      exact restore_bwd ih1 hR2.env hR2.args
        (ih2 _ _ (saveArgs c) t rest' D' hR2.env hR2.args
          (by rw [get_coproduct_fwd]; simp) hK' (CRel.save hc) rfl (fun _ => rfl))
  | @fwdEnd Γ args o a w w' r w'' hk _ _ ih1 ih2 =>
    intro I hR
    have hko := hR.kont
    rw [hk] at hko
    cases hD : I.get .fwd with
    | none => rw [hD] at hko; cases hko
    | some D =>
    rw [hD] at hko
    refine fwd_bound hD ?_
    cases hko with
    | some hK =>
    generalize hkk : (⟨o, []⟩ : Kont W) = kk at hK
    have hR1 := hR.setFwd (KRel.dflt .fwd)
    cases hK with
    | dflt o =>
      simp at hkk; subst hkk
      rw [restoreArgs_eq (c := .dflt _) rfl]
      obtain ⟨n, hn⟩ := ih2 _ hR1
      exact restore_bwd ih1 hR1.env hR1.args ⟨n + 1, by rw [run]; exact hn⟩
    | @chain D' o' rest' b c s hK' hc =>
      obtain ⟨f', t, rfl⟩ := hc.nonempty
      cases hkk
  | @fwdFail Γ args k x w w' hk hn _ ih =>
    intro I hR
    have hko := hR.kont
    rw [hk] at hko
    cases hD : I.get .fwd with
    | none => rw [hD] at hko; cases hko
    | some D =>
    rw [hD] at hko
    refine fwd_bound hD ?_
    have hR1 := hR.setFwd (KRel.dflt .fwd)
    cases hko with
    | some hK =>
    cases hK with
    | dflt o =>
      rw [restoreArgs_eq (c := .dflt _) rfl]
      exact restore_bwd_fail ih hR1.env hR1.args (Or.inl ⟨x, rfl, rfl⟩)
    | @chain D' o' rest' b c s hK' hc =>
      obtain ⟨f', t, rfl⟩ := hc.nonempty
      have hcn : c.nullary = false := by rw [hc.nullary rfl]; exact hn _ _ rfl
      rw [restoreArgs_eq (by rw [nullary_saveArgs]; exact hcn)]
      have hR2 := hR1.setFwd hK'
      exact withFwd_run (restore_bwd_fail ih hR2.env hR2.args (Or.inl ⟨x, rfl, rfl⟩))
  | @fwdBad Γ args k v w w' hk hn _ hv ih =>
    intro I hR
    have hko := hR.kont
    rw [hk] at hko
    cases hD : I.get .fwd with
    | none => rw [hD] at hko; cases hko
    | some D =>
    rw [hD] at hko
    refine fwd_bound hD ?_
    have hR1 := hR.setFwd (KRel.dflt .fwd)
    cases hko with
    | some hK =>
    cases hK with
    | dflt o =>
      rw [restoreArgs_eq (c := .dflt _) rfl]
      exact restore_bwd_fail ih hR1.env hR1.args (Or.inr ⟨v, rfl, hv, rfl⟩)
    | @chain D' o' rest' b c s hK' hc =>
      obtain ⟨f', t, rfl⟩ := hc.nonempty
      have hcn : c.nullary = false := by rw [hc.nullary rfl]; exact hn _ _ rfl
      rw [restoreArgs_eq (by rw [nullary_saveArgs]; exact hcn)]
      have hR2 := hR1.setFwd hK'
      exact withFwd_run (restore_bwd_fail ih hR2.env hR2.args (Or.inr ⟨v, rfl, hv, rfl⟩))
  | @fwdFree Γ args w r w' hk _ ih =>
    intro I hR
    refine ih I hR ?_
    have hko := hR.kont
    rw [hk] at hko
    cases hD : I.get .fwd with
    | none => rfl
    | some D => rw [hD] at hko; cases hko
  | @unhandled Γ o args w r w' hs _ ih =>
    intro I hR ho
    obtain ⟨n, hn⟩ := ih I hR
    refine ⟨n + 1, ?_⟩
    rw [run]
    simp only [ho, hs, Bool.false_eq_true, if_false]
    exact hn
  | @selfApply Γ o args w r w' hs _ ih =>
    intro I hR ho
    obtain ⟨n, hn⟩ := ih I hR
    refine ⟨n + 1, ?_⟩
    rw [run]
    simp only [ho, hs, if_true]
    exact hn
  | @dflt Γ o args w r w' _ hr ih =>
    intro I hR
    obtain ⟨n, hn⟩ := ih I hR
    refine ⟨n + 1, ?_⟩
    rw [run, hn]
    cases r with
    | ok v => rfl
    | error e => cases e with
      | notHandled => exact absurd rfl hr
      | _ => rfl
  | dfltTerm _ ih =>
    intro I hR
    obtain ⟨n, hn⟩ := ih I hR
    exact ⟨n + 1, by rw [run, hn]⟩
  | rawFwd => intro I _; exact ⟨1, rfl⟩
  | rawGetArgs => intro I _; exact ⟨1, rfl⟩
  | rawGetArgsBad h => intro I _; exact ⟨1, by rw [run]; simp [h]⟩
  | rawApply _ ih =>
    intro I hR
    obtain ⟨n, hn⟩ := ih I hR
    exact ⟨n + 1, by rw [run]; exact hn⟩
  | @rawApplyBad Γ args w h =>
    intro I _
    refine ⟨1, ?_⟩
    rw [run]
    have : splitOp args = none := by
      unfold splitOp; split
      · exact absurd rfl (h _ _)
      · rfl
    rw [this]
  | rawApplySub _ ih =>
    intro I hR
    obtain ⟨n, hn⟩ := ih I hR
    exact ⟨n + 1, by rw [run]; exact hn⟩
  | rawUser _ ih =>
    intro I hR
    obtain ⟨n, hn⟩ := ih I hR
    exact ⟨n + 1, by rw [run]; exact hn⟩

/-- The runtime and the abstract machine agree on programs. -/
theorem runs_iff {Δ : Defaults W} {I : Intp W} {Γ : Ctx W} (hR : Rel I Γ) (p : Prog W) (w : W)
    (r : Out) (s' : St W) :
    Runs Δ (.prog p) ⟨I, w⟩ r s' ↔ SRun Δ Γ (.prog p) w r s'.world ∧ s'.intp = I := by
  constructor
  · rintro ⟨n, h⟩
    exact ⟨fwd_sim Δ n _ _ (TaskRel.prog p) I Γ w r s' hR h, run_restores Δ n _ _ _ _ h⟩
  · rintro ⟨h, rfl⟩
    exact bwd_sim h _ hR

end Verif.Runtime
