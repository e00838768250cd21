import Verif.Llm.History

/-!
# C40, C41, C42, C53: template calls and conversation histories
-/

namespace Verif.Llm

variable {W : Type}

/-! ## What is stated -/

/-- Every assistant message is directly followed by one tool message per call, in the order of the calls, and there are
no other tool messages. -/
inductive Answered : History → Prop where
  | nil : Answered []
  | other (m : Msg) (h : History) : m.role ≠ .assistant → m.role ≠ .tool → Answered h → Answered (m :: h)
  | turn (m : Msg) (ts h : History) : m.role = .assistant → (∀ t ∈ ts, t.role = .tool) →
      ts.map (·.callId) = m.calls.map some → Answered h → Answered (m :: (ts ++ h))

/-- All messages were made for templates of `o`. -/
def Owned (o : Option Agent) (h : History) : Prop := ∀ m ∈ h, m.owner = o

/-- All ids were given out before. -/
def Below (n : Nat) (h : History) : Prop := ∀ m ∈ h, m.id < n

/-- Whether an exception is one of the decoding errors. -/
def Exc.isDecoding : Exc → Prop
  | .decodeCall _ _ => True
  | .decodeResult _ => True
  | _ => False

/-- Requests in a row as the documentation of the retry handler has it, on a conversation `h`: after a decoding
error, the failed message and a feedback message are added, and the model is asked again. `k` requests are made; the
outcome is that of the last one. -/
inductive Tries (T : Tmpl W) : Nat → St W → History → St W → Except Exc (AResult W) → Prop where
  | last (s s' : St W) (h h' : History) (r) : once T s h = (s', h', r) → Tries T 1 s h s' r
  | again (s s₁ s' : St W) (h : History) (e : Exc) (m fb : Msg) (k : Nat) (r) :
      once T s h = (s₁, h ++ [m], .error e) → e.isDecoding → m.role = .assistant →
      fb.role ≠ .assistant → fb.calls = [] →
      Tries T k { s₁ with next := s₁.next + 1 } (h ++ [m, fb]) s' r → Tries T (k + 1) s h s' r

/-! ## Histories -/

theorem Answered.append {h k : History} (hh : Answered h) (hk : Answered k) : Answered (h ++ k) := by
  induction hh with
  | nil => exact hk
  | other m h h1 h2 _ ih => exact .other m _ h1 h2 ih
  | turn m ts h h1 h2 h3 _ ih =>
    rw [List.cons_append, List.append_assoc]
    exact .turn m ts _ h1 h2 h3 ih

theorem Below.mono {n n' : Nat} {h : History} (hb : Below n h) (hn : n ≤ n') : Below n' h :=
  fun m hm => Nat.lt_of_lt_of_le (hb m hm) hn

theorem Below.notMem {n : Nat} {h : History} (hb : Below n h) {i : Nat} (hi : n ≤ i) : i ∉ h.map (·.id) := by
  intro hm
  obtain ⟨x, hx, e⟩ := List.mem_map.1 hm
  have := hb x hx
  omega

theorem Below.append {n : Nat} {h k : History} (hb : Below n h) (hk : Below n k) : Below n (h ++ k) := by
  intro m hm
  rcases List.mem_append.1 hm with hm | hm
  · exact hb m hm
  · exact hk m hm

theorem Owned.append {o : Option Agent} {h k : History} (hb : Owned o h) (hk : Owned o k) : Owned o (h ++ k) := by
  intro m hm
  rcases List.mem_append.1 hm with hm | hm
  · exact hb m hm
  · exact hk m hm

theorem Owned.single {o : Option Agent} {m : Msg} (h : m.owner = o) : Owned o [m] := by
  intro x hx; simp only [List.mem_singleton] at hx; subst hx; exact h

theorem Below.single {n : Nat} {m : Msg} (h : m.id < n) : Below n [m] := by
  intro x hx; simp only [List.mem_singleton] at hx; subst hx; exact h

theorem decodeCalls_ids {l : List (Nat × Option (Prog W))} {cs : List (Nat × Prog W)}
    (h : decodeCalls l = .ok cs) : cs.map Prod.fst = l.map Prod.fst := by
  induction l generalizing cs with
  | nil => simp only [decodeCalls] at h; cases h; rfl
  | cons x l ih =>
    obtain ⟨c, p⟩ := x
    cases p with
    | none => simp only [decodeCalls] at h; cases h
    | some p =>
      simp only [decodeCalls] at h
      cases hr : decodeCalls l with
      | error e => rw [hr] at h; cases h
      | ok ps =>
        rw [hr] at h; cases h
        simp [ih hr]

theorem decodeCalls_mem {l : List (Nat × Option (Prog W))} {c : Nat}
    (h : decodeCalls l = .error c) : c ∈ l.map Prod.fst := by
  induction l with
  | nil => simp only [decodeCalls] at h; cases h
  | cons x l ih =>
    obtain ⟨d, p⟩ := x
    cases p with
    | none => simp only [decodeCalls] at h; cases h; simp
    | some p =>
      simp only [decodeCalls] at h
      cases hr : decodeCalls l with
      | error e => rw [hr] at h; cases h; simp [ih hr]
      | ok ps => rw [hr] at h; cases h

/-! ## One request -/

/-- What a request does. -/
theorem once_cases (T : Tmpl W) (s : St W) (h : History) (hb : Below s.next h) :
    ∃ s' h' r, once T s h = (s', h', r) ∧ s'.hist = s.hist ∧ s'.sent = s.sent ++ [(T.agent, h)] ∧
      ((∃ e, r = .error (.plain e) ∧ h' = h ∧ s'.next = s.next) ∨
       (∃ m rep, s'.next = s.next + 1 ∧ h' = h ++ [m] ∧ m.id = s.next ∧ m.role = .assistant ∧ m.owner = T.agent ∧
          (T.model s.world h).2 = .ok rep ∧ m.calls = rep.calls.map Prod.fst ∧
          ((∃ c, decodeCalls rep.calls = .error c ∧ r = .error (.decodeCall m c)) ∨
           (rep.calls = [] ∧ r = .error (.decodeResult m)) ∨
           (∃ e, r = .error (.plain e)) ∨
           (∃ cs v, decodeCalls rep.calls = .ok cs ∧ r = .ok (m, cs, v))))) := by
  cases hm : (T.model s.world h).2 with
  | error e =>
    simp only [once, hm]
    exact ⟨_, _, _, rfl, rfl, rfl, .inl ⟨e, rfl, rfl, rfl⟩⟩
  | ok rep =>
    simp only [once, hm]
    have hap : append h ⟨s.next, .assistant, rep.calls.map Prod.fst, none, rep.body, T.agent⟩ =
        h ++ [⟨s.next, .assistant, rep.calls.map Prod.fst, none, rep.body, T.agent⟩] :=
      append_new (hb.notMem (Nat.le_refl _))
    rw [hap]
    cases hd : decodeCalls rep.calls with
    | error c =>
      exact ⟨_, _, _, rfl, rfl, rfl, .inr ⟨_, rep, rfl, rfl, rfl, rfl, rfl, rfl, rfl, .inl ⟨c, hd, rfl⟩⟩⟩
    | ok cs =>
      cases cs with
      | cons c cs =>
        exact ⟨_, _, _, rfl, rfl, rfl,
          .inr ⟨_, rep, rfl, rfl, rfl, rfl, rfl, rfl, rfl, .inr (.inr (.inr ⟨_, _, hd, rfl⟩))⟩⟩
      | nil =>
        have hnil : rep.calls = [] := by
          have := decodeCalls_ids hd
          simp only [List.map_nil] at this
          exact List.map_eq_nil_iff.1 this.symm
        cases hc : rep.content with
        | value v =>
          exact ⟨_, _, _, rfl, rfl, rfl,
            .inr ⟨_, rep, rfl, rfl, rfl, rfl, rfl, rfl, rfl, .inr (.inr (.inr ⟨_, _, hd, rfl⟩))⟩⟩
        | bad =>
          exact ⟨_, _, _, rfl, rfl, rfl,
            .inr ⟨_, rep, rfl, rfl, rfl, rfl, rfl, rfl, rfl, .inr (.inl ⟨hnil, rfl⟩)⟩⟩
        | fail e =>
          exact ⟨_, _, _, rfl, rfl, rfl,
            .inr ⟨_, rep, rfl, rfl, rfl, rfl, rfl, rfl, rfl, .inr (.inr (.inl ⟨e, rfl⟩))⟩⟩

/-- Replies some of whose calls cannot be decoded have one call only. -/
def SingleFail (T : Tmpl W) : Prop :=
  ∀ w h rep c, (T.model w h).2 = .ok rep → decodeCalls rep.calls = .error c → rep.calls.length = 1

/-- The condition under which the answers stay complete: no retries of messages with several calls. -/
def Safe (cfg : Cfg W) (T : Tmpl W) : Prop := ∀ r, cfg.retry = some r → 2 ≤ r.attempts → SingleFail T

/-- A request that was made: for the right agent, and with all calls answered if `ok`. -/
def Good (ok : Prop) (x : Option Agent × History) : Prop := Owned x.1 x.2 ∧ (ok → Answered x.2)

/-- What steps of a run have in common. -/
structure Step (ok : Prop) (s s' : St W) : Prop where
  hist : s'.hist = s.hist
  next : s.next ≤ s'.next
  sent : ∃ new, s'.sent = s.sent ++ new ∧ ∀ x ∈ new, Good ok x

theorem Step.refl (ok : Prop) (s : St W) : Step ok s s :=
  ⟨rfl, Nat.le_refl _, [], by simp, by simp⟩

theorem Step.trans {ok : Prop} {s₁ s₂ s₃ : St W} (h : Step ok s₁ s₂) (k : Step ok s₂ s₃) : Step ok s₁ s₃ := by
  obtain ⟨n1, e1, g1⟩ := h.sent
  obtain ⟨n2, e2, g2⟩ := k.sent
  refine ⟨k.hist.trans h.hist, Nat.le_trans h.next k.next, n1 ++ n2, ?_, ?_⟩
  · rw [e2, e1, List.append_assoc]
  · intro x hx
    rcases List.mem_append.1 hx with hx | hx
    · exact g1 x hx
    · exact g2 x hx

theorem Step.bump (ok : Prop) (s : St W) (w : W) (k : Nat) :
    Step ok s { s with world := w, next := s.next + k } :=
  ⟨rfl, Nat.le_add_right _ _, [], by simp, by simp⟩

/-- Requests for the same conversation keep the conversation's properties. -/
theorem retryLoop_spec (T : Tmpl W) (ok : Prop) (n : Nat) (s : St W) (h : History)
    (hb : Below s.next h) (ho : Owned T.agent h) (ha : ok → Answered h) (hs : ok → 1 ≤ n → SingleFail T) :
    ∀ s' r, retryLoop T n s h = (s', r) → Step ok s s' ∧
      (∃ k, k ≤ n + 1 ∧ s'.sent.length = s.sent.length + k ∧ Tries T k s h s' r ∧
        (k < n + 1 → ∀ e, r = .error e → ¬ e.isDecoding)) ∧
      (∃ new, s'.sent = s.sent ++ (T.agent, h) :: new) ∧
      ∀ m cs v, r = .ok (m, cs, v) → s.next ≤ m.id ∧ m.id < s'.next ∧ m.role = .assistant ∧ m.owner = T.agent ∧
        m.calls = cs.map Prod.fst := by
  induction n generalizing s h with
  | zero =>
    intro s' r hr
    obtain ⟨s₁, h₁, r₁, he, h1, h2, hc⟩ := once_cases T s h hb
    rw [retryLoop] at hr
    have hstep : s'= s₁ ∧ r = r₁ := by
      rw [he] at hr
      rcases hc with ⟨e, rfl, -, -⟩ | ⟨m, rep, -, -, -, -, -, -, -, hc⟩
      · cases hr; exact ⟨rfl, rfl⟩
      · rcases hc with ⟨c, -, rfl⟩ | ⟨-, rfl⟩ | ⟨e, rfl⟩ | ⟨cs, v, -, rfl⟩ <;> (cases hr; exact ⟨rfl, rfl⟩)
    obtain ⟨rfl, rfl⟩ := hstep
    have hnext : s.next ≤ s'.next := by
      rcases hc with ⟨e, -, -, h3⟩ | ⟨m, rep, h3, -⟩ <;> omega
    refine ⟨⟨h1, hnext, [(T.agent, h)], h2, ?_⟩, ⟨1, Nat.le_refl _, by rw [h2]; simp, .last _ _ _ _ _ he, by omega⟩,
      ⟨[], h2⟩, ?_⟩
    · intro x hx
      simp only [List.mem_singleton] at hx
      subst hx; exact ⟨ho, ha⟩
    · intro m cs v hr
      rcases hc with ⟨e, h3, -⟩ | ⟨m', rep, h3, h4, h5, h6, h7, h8, h9, hc⟩
      · rw [h3] at hr; cases hr
      · rcases hc with ⟨c, -, h10⟩ | ⟨-, h10⟩ | ⟨e, h10⟩ | ⟨cs', v', h11, h10⟩
        · rw [h10] at hr; cases hr
        · rw [h10] at hr; cases hr
        · rw [h10] at hr; cases hr
        · rw [h10] at hr
          cases hr
          exact ⟨by omega, by omega, h6, h7, by rw [h9, decodeCalls_ids h11]⟩
  | succ n ih =>
    intro s' r hr
    obtain ⟨s₁, h₁, r₁, he, h1, h2, hc⟩ := once_cases T s h hb
    rw [retryLoop, he] at hr
    -- a request that is repeated
    have again : ∀ (m fb : Msg) (e : Exc), r₁ = .error e → e.isDecoding → s₁.next = s.next + 1 → h₁ = h ++ [m] →
        m.id = s.next → m.role = .assistant → m.owner = T.agent → fb.id = s₁.next → fb.owner = T.agent →
        fb.role ≠ .assistant → fb.calls = [] → (ok → Answered (h ++ [m, fb])) →
        retryLoop T n { s₁ with next := s₁.next + 1 } (append (append h₁ m) fb) = (s', r) →
        Step ok s s' ∧
        (∃ k, k ≤ n + 1 + 1 ∧ s'.sent.length = s.sent.length + k ∧ Tries T k s h s' r ∧
          (k < n + 1 + 1 → ∀ e, r = .error e → ¬ e.isDecoding)) ∧
        (∃ new, s'.sent = s.sent ++ (T.agent, h) :: new) ∧
        ∀ m cs v, r = .ok (m, cs, v) → s.next ≤ m.id ∧ m.id < s'.next ∧ m.role = .assistant ∧ m.owner = T.agent ∧
          m.calls = cs.map Prod.fst := by
      intro m fb e hre hdec hn1 hh1 hid hrole hown hfid hfown hfrole hfcalls hans hr
      have hbm : Below s₁.next (h ++ [m]) := by
        rw [hn1]
        exact (hb.mono (Nat.le_succ _)).append (Below.single (by omega))
      have hap : append (append h₁ m) fb = h ++ [m, fb] := by
        have e1 : append h₁ m = h ++ [m] := by
          rw [hh1, ← append_new (hb.notMem (Nat.le_of_eq hid.symm)), C43_again]
        rw [e1, append_new (hbm.notMem (Nat.le_of_eq hfid.symm)), List.append_assoc]
        rfl
      rw [hap] at hr
      have hb' : Below (s₁.next + 1) (h ++ [m, fb]) := by
        have e2 : h ++ [m, fb] = (h ++ [m]) ++ [fb] := by simp
        rw [e2]
        exact (hbm.mono (Nat.le_succ _)).append (Below.single (by omega))
      have ho' : Owned T.agent (h ++ [m, fb]) := by
        have e2 : h ++ [m, fb] = (h ++ [m]) ++ [fb] := by simp
        rw [e2]
        exact (ho.append (.single hown)).append (.single hfown)
      obtain ⟨g1, ⟨k, g2, g3, g4, g5⟩, ⟨new, g6⟩, g7⟩ :=
        ih { s₁ with next := s₁.next + 1 } (h ++ [m, fb]) hb' ho' hans (fun o _ => hs o (by omega)) s' r hr
      have st : Step ok s { s₁ with next := s₁.next + 1 } := by
        refine ⟨h1, ?_, [(T.agent, h)], h2, ?_⟩
        · show s.next ≤ s₁.next + 1; omega
        · intro x hx
          simp only [List.mem_singleton] at hx
          subst hx; exact ⟨ho, ha⟩
      refine ⟨st.trans g1, ⟨k + 1, by omega, ?_, ?_, ?_⟩, ?_, ?_⟩
      · rw [g3]; show s₁.sent.length + k = _; rw [h2]; simp; omega
      · exact .again s s₁ s' h e m fb k r (by rw [he, hre, hh1]) hdec hrole hfrole hfcalls g4
      · intro hk; exact g5 (by omega)
      · refine ⟨(T.agent, h ++ [m, fb]) :: new, ?_⟩
        rw [g6]; show s₁.sent ++ _ = _; rw [h2]; simp
      · intro m' cs v hr'
        obtain ⟨q1, q2, q3⟩ := g7 m' cs v hr'
        refine ⟨?_, q2, q3⟩
        have : s₁.next + 1 ≤ m'.id := q1
        omega
    -- a request that is not
    have stop : (∀ e, r₁ = .error e → ¬ e.isDecoding) → s' = s₁ → r = r₁ →
        Step ok s s' ∧
        (∃ k, k ≤ n + 1 + 1 ∧ s'.sent.length = s.sent.length + k ∧ Tries T k s h s' r ∧
          (k < n + 1 + 1 → ∀ e, r = .error e → ¬ e.isDecoding)) ∧
        (∃ new, s'.sent = s.sent ++ (T.agent, h) :: new) ∧
        ∀ m cs v, r = .ok (m, cs, v) → s.next ≤ m.id ∧ m.id < s'.next ∧ m.role = .assistant ∧ m.owner = T.agent ∧
          m.calls = cs.map Prod.fst := by
      rintro hnd rfl rfl
      have hnext : s.next ≤ s'.next := by
        rcases hc with ⟨e, -, -, h3⟩ | ⟨m, rep, h3, -⟩ <;> omega
      refine ⟨⟨h1, hnext, [(T.agent, h)], h2, ?_⟩,
        ⟨1, by omega, by rw [h2]; simp, .last _ _ _ _ _ he, fun _ => hnd⟩, ⟨[], h2⟩, ?_⟩
      · intro x hx
        simp only [List.mem_singleton] at hx
        subst hx; exact ⟨ho, ha⟩
      · intro m cs v hr
        rcases hc with ⟨e, h3, -⟩ | ⟨m', rep, h3, h4, h5, h6, h7, h8, h9, hc⟩
        · rw [h3] at hr; cases hr
        · rcases hc with ⟨c, -, h10⟩ | ⟨-, h10⟩ | ⟨e, h10⟩ | ⟨cs', v', h11, h10⟩
          · rw [h10] at hr; cases hr
          · rw [h10] at hr; cases hr
          · rw [h10] at hr; cases hr
          · rw [h10] at hr
            cases hr
            exact ⟨by omega, by omega, h6, h7, by rw [h9, decodeCalls_ids h11]⟩
    rcases hc with ⟨e, h3, -, -⟩ | ⟨m, rep, h3, h4, h5, h6, h7, h8, h9, hc⟩
    · subst h3
      cases hr
      exact stop (by rintro e' he'; cases he'; exact id) rfl rfl
    · rcases hc with ⟨c, h11, h10⟩ | ⟨h11, h10⟩ | ⟨e, h10⟩ | ⟨cs', v', h11, h10⟩
      · subst h10
        simp only at hr
        refine again m _ _ rfl trivial h3 h4 h5 h6 h7 rfl rfl (by simp) rfl ?_ hr
        intro o
        refine (ha o).append ?_
        have hlen := hs o (by omega) _ _ _ _ h8 h11
        have hmem := decodeCalls_mem h11
        have hcl : m.calls = [c] := by
          rw [h9]
          match hrc : rep.calls, hlen with
          | [x], _ =>
            rw [hrc] at hmem
            simp only [List.map_cons, List.map_nil, List.mem_singleton] at hmem
            simp [hmem]
        exact .turn m [⟨s₁.next, .tool, [], some c, 0, T.agent⟩] [] h6 (by simp) (by simp [hcl]) .nil
      · subst h10
        simp only at hr
        refine again m _ _ rfl trivial h3 h4 h5 h6 h7 rfl rfl (by simp) rfl ?_ hr
        intro o
        refine (ha o).append ?_
        exact .turn m [] [⟨s₁.next, .user, [], none, 0, T.agent⟩] h6 (by simp) (by simp [h9, h11])
          (.other _ _ (by simp) (by simp) .nil)
      · subst h10
        cases hr
        exact stop (by rintro e' he'; cases he'; exact id) rfl rfl
      · subst h10
        cases hr
        exact stop (by rintro e' he'; cases he') rfl rfl

/-- `call_assistant` with or without retries. -/
theorem assistant_spec (cfg : Cfg W) (T : Tmpl W) (ok : Prop) (s : St W) (h : History)
    (hb : Below s.next h) (ho : Owned T.agent h) (ha : ok → Answered h) (hs : ok → Safe cfg T) :
    ∀ s' h' r, assistant cfg T s h = (s', h', r) → Step ok s s' ∧
      (∃ new, s'.sent = s.sent ++ (T.agent, h) :: new) ∧
      ∀ m cs v, r = .ok (m, cs, v) → h' = h ++ [m] ∧ m.id < s'.next ∧ m.role = .assistant ∧ m.owner = T.agent ∧
        m.calls = cs.map Prod.fst := by
  intro s' h' r hr
  unfold assistant at hr
  cases hc : cfg.retry with
  | none =>
    rw [hc] at hr
    simp only at hr
    obtain ⟨s₁, h₁, r₁, he, h1, h2, hcs⟩ := once_cases T s h hb
    rw [he] at hr
    cases hr
    have hnext : s.next ≤ s'.next := by
      rcases hcs with ⟨e, -, -, h3⟩ | ⟨m, rep, h3, -⟩ <;> omega
    refine ⟨⟨h1, hnext, [(T.agent, h)], h2, ?_⟩, ⟨[], h2⟩, ?_⟩
    · intro x hx
      simp only [List.mem_singleton] at hx
      subst hx; exact ⟨ho, ha⟩
    · intro m cs v hr
      rcases hcs with ⟨e, h3, -⟩ | ⟨m', rep, h3, h4, h5, h6, h7, h8, h9, hcs⟩
      · rw [h3] at hr; cases hr
      · rcases hcs with ⟨c, -, h10⟩ | ⟨-, h10⟩ | ⟨e, h10⟩ | ⟨cs', v', h11, h10⟩
        · rw [h10] at hr; cases hr
        · rw [h10] at hr; cases hr
        · rw [h10] at hr; cases hr
        · rw [h10] at hr
          cases hr
          exact ⟨h4, by omega, h6, h7, by rw [h9, decodeCalls_ids h11]⟩
  | some rt =>
    rw [hc] at hr
    simp only at hr
    cases hl : retryLoop T (rt.attempts - 1) s h with
    | mk s₁ r₁ =>
      have sp := retryLoop_spec T ok (rt.attempts - 1) s h hb ho ha
        (fun o hn => hs o rt hc (by omega)) s₁ r₁ hl
      rw [hl] at hr
      obtain ⟨g1, -, g2, g3⟩ := sp
      cases r₁ with
      | error e =>
        cases hr
        exact ⟨g1, g2, by intro m cs v hr; cases hr⟩
      | ok a =>
        obtain ⟨m, cs, v⟩ := a
        cases hr
        obtain ⟨q1, q2, q3, q4, q5⟩ := g3 m cs v rfl
        refine ⟨g1, g2, ?_⟩
        intro m' cs' v' hr
        cases hr
        exact ⟨append_new (hb.notMem q1), q2, q3, q4, q5⟩

/-! ## Template calls -/

/-- The histories of a state. -/
def Wf (ok : Prop) (s : St W) : Prop :=
  ∀ a, Below s.next (s.hist a) ∧ Owned (some a) (s.hist a) ∧ (ok → Answered (s.hist a))

theorem Wf.step {ok : Prop} {s s' : St W} (hw : Wf ok s) (hs : Step ok s s') : Wf ok s' := by
  intro a
  rw [hs.hist]
  obtain ⟨h1, h2, h3⟩ := hw a
  exact ⟨h1.mono hs.next, h2, h3⟩

/-- A complete exchange: after the old history `h` (with a system prompt put in front, if there is none) come the
prompt, further messages `ex` and the answer `m`. -/
structure Exchange (h h' : History) (sys : List Msg) (u : Msg) (ex : List Msg) (m : Msg) : Prop where
  eq : h' = sys ++ h ++ u :: ex ++ [m]
  sys : (sys = [] ∧ ∃ x r, h = x :: r ∧ x.role = .system) ∨
    (∃ x, sys = [x] ∧ x.role = .system ∧ ∀ y r, h = y :: r → y.role ≠ .system)
  user : u.role = .user
  answer : m.role = .assistant ∧ m.calls = []

/-- What a finished loop leaves. -/
def RoundsSpec (ok : Prop) (T : Tmpl W) (s : St W) (h : History) (s' : St W) (h' : History) (r : Except Exc Nat) :
    Prop :=
  Step ok s s' ∧ ∀ v, r = .ok v → ∃ ex m, h' = h ++ ex ++ [m] ∧ m.role = .assistant ∧ m.calls = [] ∧
    Below s'.next h' ∧ Owned T.agent h' ∧ (ok → Answered h') ∧
    ∃ old new, s'.sent = s.sent ++ old ++ (T.agent, h ++ ex) :: new

/-- What answering tool calls leaves. -/
def CallsSpec (ok : Prop) (T : Tmpl W) (cs : List (Nat × Prog W)) (s : St W) (h : History) (s' : St W) (h' : History)
    (r : Except Exc Unit) : Prop :=
  Step ok s s' ∧ (r = .ok () → ∃ ts, h' = h ++ ts ∧ (∀ t ∈ ts, t.role = .tool) ∧
    ts.map (·.callId) = cs.map (fun c => some c.1) ∧ Below s'.next h' ∧ Owned T.agent h')

/-- What a template call leaves. -/
def TmplSpec (ok : Prop) (T : Tmpl W) (active : Bool) (s s' : St W) (r : Except Exc Nat) : Prop :=
  ∃ s₂, Step ok s s₂ ∧ (∀ e, r = .error e → s' = s₂) ∧
    ∀ v, r = .ok v → ∃ h' sys u ex m, Exchange (startHistory T s) h' sys u ex m ∧ s' = commit T active s₂ h' ∧
      Below s₂.next h' ∧ Owned T.agent h' ∧ (ok → Answered h') ∧
      ∃ old new, s₂.sent = s.sent ++ old ++ (T.agent, sys ++ startHistory T s ++ u :: ex) :: new

theorem commit_active (T : Tmpl W) (s : St W) (h : History) : commit T true s h = s := by
  unfold commit
  cases T.agent <;> simp

theorem TmplSpec.active {ok : Prop} {T : Tmpl W} {s s' : St W} {r : Except Exc Nat}
    (h : TmplSpec ok T true s s' r) : Step ok s s' := by
  obtain ⟨s₂, h1, h2, h3⟩ := h
  cases r with
  | error e => rw [h2 e rfl]; exact h1
  | ok v =>
    obtain ⟨h', sys, u, ex, m, -, h4, -⟩ := h3 v rfl
    rw [h4, commit_active]; exact h1

theorem startHistory_wf {ok : Prop} {s : St W} (hw : Wf ok s) (T : Tmpl W) :
    Below s.next (startHistory T s) ∧ Owned T.agent (startHistory T s) ∧ (ok → Answered (startHistory T s)) := by
  unfold startHistory
  cases hT : T.agent with
  | none => exact ⟨by intro m hm; simp at hm, by intro m hm; simp at hm, fun _ => .nil⟩
  | some a => exact hw a

theorem run_spec (cfg : Cfg W) (ok : Prop) (hs : ok → ∀ t, Safe cfg (cfg.tmpl t)) (f : Nat) :
    (∀ p s s' r, Wf ok s → runProg cfg f true p s = some (s', r) → Step ok s s') ∧
    (∀ active t a s s' r, Wf ok s → callTmpl cfg f active t a s = some (s', r) →
      TmplSpec ok (cfg.tmpl t) active s s' r) ∧
    (∀ t s h s' h' r, Wf ok s → Below s.next h → Owned (cfg.tmpl t).agent h → (ok → Answered h) →
      rounds cfg f (cfg.tmpl t) s h = some (s', h', r) → RoundsSpec ok (cfg.tmpl t) s h s' h' r) ∧
    (∀ t cs s h s' h' r, Wf ok s → Below s.next h → Owned (cfg.tmpl t).agent h →
      runCalls cfg f (cfg.tmpl t) cs s h = some (s', h', r) → CallsSpec ok (cfg.tmpl t) cs s h s' h' r) := by
  induction f with
  | zero =>
    refine ⟨?_, ?_, ?_, ?_⟩
    · intro p s s' r _ h; rw [runProg] at h; cases h
    · intro active t a s s' r _ h; rw [callTmpl] at h; cases h
    · intro t s h s' h' r _ _ _ _ h; rw [rounds] at h; cases h
    · intro t cs s h s' h' r _ _ _ h; rw [runCalls] at h; cases h
  | succ f ih =>
    obtain ⟨ihp, iht, ihr, ihc⟩ := ih
    refine ⟨?_, ?_, ?_, ?_⟩
    · intro p s s' r hw h
      cases p with
      | ret enc => rw [runProg] at h; cases h; exact .refl _ _
      | raise e => rw [runProg] at h; cases h; exact .refl _ _
      | get k => rw [runProg] at h; exact ihp _ _ _ _ hw h
      | put w k =>
        rw [runProg] at h
        have st : Step ok s { s with world := w } := Step.bump ok s w 0
        exact st.trans (ihp _ _ _ _ (hw.step st) h)
      | call t a k =>
        rw [runProg] at h
        cases hc : callTmpl cfg f true t a s with
        | none => rw [hc] at h; cases h
        | some x =>
          obtain ⟨s₁, r₁⟩ := x
          rw [hc] at h
          have st := (iht true t a s s₁ r₁ hw hc).active
          exact st.trans (ihp _ _ _ _ (hw.step st) h)
    · intro active t a s s' r hw h
      rw [callTmpl] at h
      obtain ⟨b1, b2, b3⟩ := startHistory_wf hw (cfg.tmpl t)
      generalize hT : cfg.tmpl t = T at *
      -- the system prompt
      have hsys : ∃ s₁ sys, (if needsSystem (startHistory T s) = true then
            ({ s with next := s.next + 1 },
              append (startHistory T s) ⟨s.next, .system, [], none, T.system, T.agent⟩ false)
          else (s, startHistory T s)) = (s₁, sys ++ startHistory T s) ∧
          ((sys = [] ∧ ∃ x r, startHistory T s = x :: r ∧ x.role = .system) ∨
            (∃ x, sys = [x] ∧ x.role = .system ∧ ∀ y r, startHistory T s = y :: r → y.role ≠ .system)) ∧
          Step ok s s₁ ∧ Below s₁.next (sys ++ startHistory T s) ∧ Owned T.agent (sys ++ startHistory T s) ∧
          (ok → Answered (sys ++ startHistory T s)) := by
        by_cases hn : needsSystem (startHistory T s) = true
        · rw [if_pos hn, append_first_new (b1.notMem (Nat.le_refl _))]
          refine ⟨_, [⟨s.next, .system, [], none, T.system, T.agent⟩], rfl, .inr ⟨_, rfl, rfl, ?_⟩,
            Step.bump ok s s.world 1, ?_, ?_, ?_⟩
          · intro y r hy e
            rw [hy] at hn
            simp [needsSystem, e] at hn
          · exact (Below.single (Nat.lt_succ_self _)).append (b1.mono (Nat.le_succ _))
          · exact (Owned.single rfl).append b2
          · intro o; exact .other _ _ (by simp) (by simp) (b3 o)
        · rw [if_neg hn]
          refine ⟨s, [], rfl, .inl ⟨rfl, ?_⟩, .refl _ _, b1, b2, b3⟩
          cases hh : startHistory T s with
          | nil => rw [hh] at hn; simp [needsSystem] at hn
          | cons x r =>
            rw [hh] at hn
            refine ⟨x, r, rfl, ?_⟩
            simpa [needsSystem] using hn
      obtain ⟨s₁, sys, e1, c1, st1, b4, b5, b6⟩ := hsys
      simp only [e1] at h
      cases hu : (T.user a s₁.world).2 with
      | error e =>
        rw [hu] at h
        cases h
        exact ⟨_, st1.trans (Step.bump ok s₁ _ 0), fun _ _ => rfl, by intro v hv; cases hv⟩
      | ok b =>
        rw [hu] at h
        simp only at h
        rw [append_new (b4.notMem (Nat.le_refl _))] at h
        have st2 : Step ok s { s₁ with world := (T.user a s₁.world).1, next := s₁.next + 1 } :=
          st1.trans (Step.bump ok s₁ _ 1)
        generalize hs2 : ({ s₁ with world := (T.user a s₁.world).1, next := s₁.next + 1 } : St W) = s₂ at *
        have hs2n : s₂.next = s₁.next + 1 := by rw [← hs2]
        cases hr : rounds cfg f T s₂ (sys ++ startHistory T s ++ [⟨s₁.next, .user, [], none, b, T.agent⟩]) with
        | none => rw [hr] at h; cases h
        | some x =>
          obtain ⟨s₃, h₃, r₃⟩ := x
          rw [hr] at h
          have sp := ihr t s₂ (sys ++ startHistory T s ++ [⟨s₁.next, .user, [], none, b, T.agent⟩]) s₃ h₃ r₃ (hw.step st2)
            (by rw [hs2n]; exact (b4.mono (Nat.le_succ _)).append (Below.single (Nat.lt_succ_self _)))
            (by rw [hT]; exact b5.append (Owned.single rfl))
            (fun o => (b6 o).append (.other _ _ (by simp) (by simp) .nil))
            (by rw [hT]; exact hr)
          rw [hT] at sp
          obtain ⟨sp1, sp2⟩ := sp
          cases r₃ with
          | error e => cases h; exact ⟨_, st2.trans sp1, fun _ _ => rfl, by intro v hv; cases hv⟩
          | ok v =>
            cases h
            refine ⟨s₃, st2.trans sp1, by (intro e he; cases he), ?_⟩
            intro v' hv'
            obtain ⟨ex, m, q1, q2, q3, q4, q5, q6, old, new, q7⟩ := sp2 v rfl
            refine ⟨h₃, sys, ⟨s₁.next, .user, [], none, b, T.agent⟩, ex, m, ⟨by rw [q1]; simp, c1, rfl, q2, q3⟩, rfl, q4, q5, q6, ?_⟩
            obtain ⟨n2, hn2, -⟩ := st2.sent
            refine ⟨n2 ++ old, new, ?_⟩
            rw [q7, hn2]; simp
    · intro t s h s' h' r hw hb ho ha hr
      rw [rounds] at hr
      cases has : assistant cfg (cfg.tmpl t) s h with
      | mk s₁ x =>
        obtain ⟨h₁, r₁⟩ := x
        obtain ⟨st, ⟨new, hnew⟩, sp⟩ :=
          assistant_spec cfg (cfg.tmpl t) ok s h hb ho ha (fun o => hs o t) s₁ h₁ r₁ has
        rw [has] at hr
        cases r₁ with
        | error e => cases hr; exact ⟨st, by intro v hv; cases hv⟩
        | ok y =>
          obtain ⟨m, cs, v⟩ := y
          obtain ⟨g1, g2, g3, g4, g5⟩ := sp m cs v rfl
          have hb₁ : Below s₁.next h₁ := by
            rw [g1]; exact (hb.mono st.next).append (Below.single g2)
          have ho₁ : Owned (cfg.tmpl t).agent h₁ := by
            rw [g1]; exact ho.append (Owned.single g4)
          cases cs with
          | nil =>
            cases hr
            refine ⟨st, ?_⟩
            intro v' _
            refine ⟨[], m, by rw [g1]; simp, g3, g5, hb₁, ho₁, ?_, [], new, by rw [hnew]; simp⟩
            intro o
            rw [g1]
            exact (ha o).append (.turn m [] [] g3 (by simp) (by rw [g5]; rfl) .nil)
          | cons c cs =>
            simp only at hr
            cases hrc : runCalls cfg f (cfg.tmpl t) (c :: cs) s₁ h₁ with
            | none => rw [hrc] at hr; cases hr
            | some x =>
              obtain ⟨s₂, h₂, r₂⟩ := x
              rw [hrc] at hr
              obtain ⟨st2, sp2⟩ := ihc t (c :: cs) s₁ h₁ s₂ h₂ r₂ (hw.step st) hb₁ ho₁ hrc
              cases r₂ with
              | error e => cases hr; exact ⟨st.trans st2, by intro v hv; cases hv⟩
              | ok u =>
                obtain ⟨ts, k1, k2, k3, k4, k5⟩ := sp2 rfl
                simp only at hr
                have hw₂ := (hw.step st).step st2
                have ha₂ : ok → Answered h₂ := by
                  intro o
                  rw [k1, g1, List.append_assoc]
                  refine (ha o).append ?_
                  have := Answered.turn m ts [] g3 k2 (by rw [k3, g5]; simp) .nil
                  simpa using this
                obtain ⟨st3, sp3⟩ := ihr t s₂ h₂ s' h' r hw₂ k4 k5 ha₂ hr
                refine ⟨(st.trans st2).trans st3, ?_⟩
                intro v' hv'
                obtain ⟨ex, m', q1, q2, q3, q4, q5, q6, old, new', q7⟩ := sp3 v' hv'
                refine ⟨m :: ts ++ ex, m', by rw [q1, k1, g1]; simp, q2, q3, q4, q5, q6, ?_⟩
                obtain ⟨n2, hn2, -⟩ := (st.trans st2).sent
                refine ⟨n2 ++ old, new', ?_⟩
                rw [q7, hn2, k1, g1]; simp
    · intro t cs s h s' h' r hw hb ho hr
      cases cs with
      | nil =>
        rw [runCalls] at hr
        cases hr
        exact ⟨.refl _ _, fun _ => ⟨[], by simp, by simp, rfl, hb, ho⟩⟩
      | cons x cs =>
        obtain ⟨c, p⟩ := x
        rw [runCalls] at hr
        cases hp : runProg cfg f true p s with
        | none => rw [hp] at hr; cases hr
        | some y =>
          obtain ⟨s₁, r₁⟩ := y
          have st := ihp p s s₁ r₁ hw hp
          rw [hp] at hr
          -- a message for the call is appended
          have answer : ∀ v, runCalls cfg f (cfg.tmpl t) cs { s₁ with next := s₁.next + 1 }
              (append h ⟨s₁.next, .tool, [], some c, v, (cfg.tmpl t).agent⟩) = some (s', h', r) →
              CallsSpec ok (cfg.tmpl t) ((c, p) :: cs) s h s' h' r := by
            intro v hr
            have hb₁ := hb.mono st.next
            rw [append_new (hb₁.notMem (Nat.le_refl _))] at hr
            have st2 : Step ok s { s₁ with next := s₁.next + 1 } := st.trans (Step.bump ok s₁ s₁.world 1)
            obtain ⟨st3, sp3⟩ := ihc t cs _ _ s' h' r (hw.step st2)
              ((hb₁.mono (Nat.le_succ _)).append (Below.single (Nat.lt_succ_self _)))
              (ho.append (Owned.single rfl)) hr
            refine ⟨st2.trans st3, ?_⟩
            intro hok
            obtain ⟨ts, q1, q2, q3, q4, q5⟩ := sp3 hok
            refine ⟨⟨s₁.next, .tool, [], some c, v, (cfg.tmpl t).agent⟩ :: ts, by rw [q1]; simp, ?_, ?_, q4, q5⟩
            · intro x hx
              rcases List.mem_cons.1 hx with rfl | hx
              · rfl
              · exact q2 x hx
            · simp [q3]
          cases r₁ with
          | ok enc =>
            cases enc with
            | ok v => exact answer v hr
            | error e => cases hr; exact ⟨st, by intro h; cases h⟩
          | error e =>
            simp only at hr
            split at hr
            · cases hrt : cfg.retry with
              | none => rw [hrt] at hr; cases hr; exact ⟨st, by intro h; cases h⟩
              | some rt =>
                rw [hrt] at hr
                simp only at hr
                split at hr
                · exact answer 0 hr
                · cases hr; exact ⟨st, by intro h; cases h⟩
            · cases hr; exact ⟨st, by intro h; cases h⟩

/-! ## Programs of the user -/

/-- Before anything ran. -/
def initial (w : W) : St W := ⟨w, fun _ => [], 0, []⟩

/-- States that user programs reach outside of template calls. -/
def Reached (cfg : Cfg W) (s : St W) : Prop :=
  ∃ w f p r, runProg cfg f false p (initial w) = some (s, r)

theorem initial_wf (ok : Prop) (w : W) : Wf ok (initial w) := by
  intro a
  exact ⟨by intro m hm; simp [initial] at hm, by intro m hm; simp [initial] at hm, fun _ => .nil⟩

/-- What all parts of a user program keep. -/
structure Top (ok : Prop) (s : St W) : Prop where
  wf : Wf ok s
  sent : ∀ x ∈ s.sent, Good ok x

theorem Top.step {ok : Prop} {s s' : St W} (h : Top ok s) (st : Step ok s s') : Top ok s' := by
  refine ⟨h.wf.step st, ?_⟩
  obtain ⟨new, e, g⟩ := st.sent
  intro x hx
  rw [e] at hx
  rcases List.mem_append.1 hx with hx | hx
  · exact h.sent x hx
  · exact g x hx

theorem Top.call {ok : Prop} {T : Tmpl W} {active : Bool} {s s' : St W} {r : Except Exc Nat} (h : Top ok s)
    (hc : TmplSpec ok T active s s' r) : Top ok s' := by
  obtain ⟨s₂, st, h1, h2⟩ := hc
  cases r with
  | error e => rw [h1 e rfl]; exact h.step st
  | ok v =>
    obtain ⟨h', sys, u, ex, m, -, e, b1, b2, b3, -⟩ := h2 v rfl
    have h₂ := h.step st
    rw [e]
    unfold commit
    cases hT : T.agent with
    | none => exact h₂
    | some a =>
      simp only
      split
      · exact h₂
      · refine ⟨?_, h₂.sent⟩
        intro b
        by_cases hb : b = a
        · subst hb
          simp only [if_true]
          rw [hT] at b2
          exact ⟨b1, b2, b3⟩
        · simp only [if_neg hb]
          exact h₂.wf b

theorem top_run (cfg : Cfg W) (ok : Prop) (hs : ok → ∀ t, Safe cfg (cfg.tmpl t)) (f : Nat) :
    ∀ active p s s' r, Top ok s → runProg cfg f active p s = some (s', r) → Top ok s' := by
  induction f with
  | zero => intro active p s s' r _ h; rw [runProg] at h; cases h
  | succ f ih =>
    intro active p s s' r hw h
    cases p with
    | ret enc => rw [runProg] at h; cases h; exact hw
    | raise e => rw [runProg] at h; cases h; exact hw
    | get k => rw [runProg] at h; exact ih _ _ _ _ _ hw h
    | put w k =>
      rw [runProg] at h
      exact ih _ _ _ _ _ (hw.step (Step.bump ok s w 0)) h
    | call t a k =>
      rw [runProg] at h
      cases hc : callTmpl cfg f active t a s with
      | none => rw [hc] at h; cases h
      | some x =>
        obtain ⟨s₁, r₁⟩ := x
        rw [hc] at h
        exact ih _ _ _ _ _ (hw.call ((run_spec cfg ok hs f).2.1 active t a s s₁ r₁ hw.wf hc)) h

theorem Reached.top {cfg : Cfg W} {s : St W} (h : Reached cfg s) : Top False s := by
  obtain ⟨w, f, p, r, h⟩ := h
  exact top_run cfg False (fun o => o.elim) f false p _ s r ⟨initial_wf _ w, by simp [initial]⟩ h

/-! ## C40: all or nothing -/

/-- A call that raises leaves all histories as they were; on the top level and inside of tools. -/
theorem C40_failed (cfg : Cfg W) (f : Nat) (active : Bool) (t arg : Nat) (s s' : St W) (e : Exc)
    (hs : Reached cfg s) (h : callTmpl cfg f active t arg s = some (s', .error e)) : s'.hist = s.hist := by
  obtain ⟨s₂, st, h1, -⟩ := (run_spec cfg False (fun o => o.elim) f).2.1 active t arg s s' _ hs.top.wf h
  rw [h1 e rfl]; exact st.hist

/-- A call of an agent's template outside of other templates that completes adds its whole exchange to the history
of the agent: everything that was in the last conversation with the model, and the answer. -/
theorem C40_completed_partial (cfg : Cfg W) (f : Nat) (t arg : Nat) (s s' : St W) (v : Nat) (a : Agent)
    (hs : Reached cfg s) (hT : (cfg.tmpl t).agent = some a)
    (h : callTmpl cfg f false t arg s = some (s', .ok v)) :
    ∃ sys u ex m, Exchange (s.hist a) (s'.hist a) sys u ex m ∧
      (some a, sys ++ s.hist a ++ u :: ex) ∈ s'.sent.drop s.sent.length := by
  obtain ⟨s₂, st, -, h2⟩ := (run_spec cfg False (fun o => o.elim) f).2.1 false t arg s s' _ hs.top.wf h
  obtain ⟨h', sys, u, ex, m, x, e, -, -, -, old, new, hsent⟩ := h2 v rfl
  have hst : startHistory (cfg.tmpl t) s = s.hist a := by simp [startHistory, hT]
  have hcm : s' = { s₂ with hist := fun b => if b = a then h' else s₂.hist b } := by
    rw [e]; simp [commit, hT]
  rw [hst] at x hsent
  refine ⟨sys, u, ex, m, ?_, ?_⟩
  · rw [hcm]
    simpa using x
  · rw [hcm]
    show _ ∈ s₂.sent.drop _
    rw [hsent, hT, List.append_assoc, List.drop_left]
    simp

/-- Inside of a tool, a completed call leaves no trace: the other half of the property fails there. -/
theorem C40_nested (cfg : Cfg W) (f : Nat) (t arg : Nat) (s s' : St W) (r : Except Exc Nat)
    (hs : Reached cfg s) (h : callTmpl cfg f true t arg s = some (s', r)) : s'.hist = s.hist :=
  ((run_spec cfg False (fun o => o.elim) f).2.1 true t arg s s' r hs.top.wf h).active.hist

/-! ## C41: retries -/

/-- The requests made by `call_assistant` under the retry handler. -/
theorem C41_attempts (cfg : Cfg W) (T : Tmpl W) (rt : Retry) (hr : cfg.retry = some rt) (s : St W) (h : History)
    (hb : Below s.next h) (ho : Owned T.agent h) (s' : St W) (h' : History) (r : Except Exc (AResult W))
    (hc : assistant cfg T s h = (s', h', r)) :
    ∃ k, k ≤ max 1 rt.attempts ∧ s'.sent.length = s.sent.length + k ∧ Tries T k s h s' r ∧
      (k < max 1 rt.attempts → ∀ e, r = .error e → ¬ e.isDecoding) := by
  unfold assistant at hc
  rw [hr] at hc
  simp only at hc
  cases hl : retryLoop T (rt.attempts - 1) s h with
  | mk s₁ r₁ =>
    obtain ⟨-, ⟨k, h1, h2, h3, h4⟩, -, -⟩ :=
      retryLoop_spec T False (rt.attempts - 1) s h hb ho (fun o => o.elim) (fun o => o.elim) s₁ r₁ hl
    have hmax : rt.attempts - 1 + 1 = max 1 rt.attempts := by omega
    rw [hmax] at h1 h4
    rw [hl] at hc
    cases r₁ with
    | error e => cases hc; exact ⟨k, h1, h2, h3, h4⟩
    | ok a => obtain ⟨m, cs, v⟩ := a; cases hc; exact ⟨k, h1, h2, h3, h4⟩

/-- Success adds one message, the one that was decoded. -/
theorem C41_success (cfg : Cfg W) (T : Tmpl W) (s : St W) (h : History)
    (hb : Below s.next h) (ho : Owned T.agent h) (s' : St W) (h' : History) (m : Msg) (cs : List (Nat × Prog W)) (v : Nat)
    (hc : assistant cfg T s h = (s', h', .ok (m, cs, v))) :
    h' = h ++ [m] ∧ m.role = .assistant ∧ m.calls = cs.map Prod.fst := by
  have := (assistant_spec cfg T False s h hb ho (fun o => o.elim) (fun o => o.elim) s' h' _ hc).2.2 m cs v rfl
  exact ⟨this.1, this.2.2.1, this.2.2.2.2⟩

/-- Failure adds nothing. -/
theorem C41_failure (cfg : Cfg W) (T : Tmpl W) (rt : Retry) (hr : cfg.retry = some rt) (s : St W) (h : History)
    (s' : St W) (h' : History) (e : Exc) (hc : assistant cfg T s h = (s', h', .error e)) : h' = h := by
  unfold assistant at hc
  rw [hr] at hc
  simp only at hc
  cases hl : retryLoop T (rt.attempts - 1) s h with
  | mk s₁ r₁ =>
    rw [hl] at hc
    cases r₁ with
    | error e => cases hc; rfl
    | ok a => obtain ⟨m, cs, v⟩ := a; cases hc

/-! ## C42: tool calls are answered -/

/-- In every history sent to the model, and in the histories of the agents, every tool call is answered, if no message
with several calls is sent back to be repeated. -/
theorem C42_answered_partial (cfg : Cfg W) (hsafe : ∀ t, Safe cfg (cfg.tmpl t)) (w : W) (f : Nat) (p : Prog W)
    (s : St W) (r : Except Exc (Except Exc Nat)) (h : runProg cfg f false p (initial w) = some (s, r)) :
    (∀ x ∈ s.sent, Answered x.2) ∧ ∀ a, Answered (s.hist a) := by
  have := top_run cfg True (fun _ => hsafe) f false p _ s r ⟨initial_wf _ w, by simp [initial]⟩ h
  exact ⟨fun x hx => (this.sent x hx).2 trivial, fun a => (this.wf a).2.2 trivial⟩

/-- In particular without the retry handler. -/
theorem C42_no_retry (cfg : Cfg W) (hr : cfg.retry = none) (w : W) (f : Nat) (p : Prog W)
    (s : St W) (r : Except Exc (Except Exc Nat)) (h : runProg cfg f false p (initial w) = some (s, r)) :
    (∀ x ∈ s.sent, Answered x.2) ∧ ∀ a, Answered (s.hist a) :=
  C42_answered_partial cfg (fun t rt h => by rw [hr] at h; cases h) w f p s r h

/-- A tool that raises an exception to be caught is answered by a message of its own, and the run goes on with the other
calls. -/
theorem C42_caught (cfg : Cfg W) (rt : Retry) (hr : cfg.retry = some rt) (f : Nat) (T : Tmpl W) (c : Nat) (p : Prog W)
    (cs : List (Nat × Prog W)) (s s₁ : St W) (h : History) (hb : Below s₁.next h) (e : Exc)
    (hp : runProg cfg f true p s = some (s₁, .error e)) (he : e.isException = true) (hc : rt.catches e = true) :
    ∃ m : Msg, m.role = .tool ∧ m.callId = some c ∧
      runCalls cfg (f + 1) T ((c, p) :: cs) s h = runCalls cfg f T cs { s₁ with next := s₁.next + 1 } (h ++ [m]) := by
  refine ⟨⟨s₁.next, .tool, [], some c, 0, T.agent⟩, rfl, rfl, ?_⟩
  rw [runCalls, hp]
  simp only [he, hr, hc, if_true]
  rw [append_new]
  intro hm
  obtain ⟨x, hx, e⟩ := List.mem_map.1 hm
  have := hb x hx
  simp only at e
  omega

/-- Any other exception of a tool ends the template call: in a `ToolCallExecutionError` if it is an `Exception`, as it is
otherwise; nothing is added to the history. -/
theorem C42_uncaught (cfg : Cfg W) (f : Nat) (T : Tmpl W) (c : Nat) (p : Prog W) (cs : List (Nat × Prog W)) (s s₁ : St W)
    (h : History) (e : Exc) (hp : runProg cfg f true p s = some (s₁, .error e))
    (hc : e.isException = false ∨ ∀ rt, cfg.retry = some rt → rt.catches e = false) :
    runCalls cfg (f + 1) T ((c, p) :: cs) s h =
      some (s₁, h, .error (if e.isException then .toolExec c e else e)) := by
  rw [runCalls, hp]
  cases he : e.isException with
  | false => simp only [he, Bool.false_eq_true, if_false]
  | true =>
    simp only [he, if_true]
    cases hr : cfg.retry with
    | none => simp only
    | some rt =>
      rcases hc with hc | hc
      · rw [he] at hc; cases hc
      · simp only [hc rt hr, Bool.false_eq_true, if_false]

/-! ## C53: separate histories -/

/-- A history, of an agent or sent to the model for an agent's template or for a template without agent, has messages
of its own only. -/
theorem C53_owned (cfg : Cfg W) (w : W) (f : Nat) (p : Prog W) (s : St W) (r : Except Exc (Except Exc Nat))
    (h : runProg cfg f false p (initial w) = some (s, r)) :
    (∀ a, ∀ m ∈ s.hist a, m.owner = some a) ∧ ∀ o k, (o, k) ∈ s.sent → ∀ m ∈ k, m.owner = o := by
  have := top_run cfg False (fun o => o.elim) f false p _ s r ⟨initial_wf _ w, by simp [initial]⟩ h
  exact ⟨fun a => (this.wf a).2.1, fun o k hx => (this.sent (o, k) hx).1⟩

/-- A call changes no history but the one of its agent; a call without agent changes none. -/
theorem C53_others (cfg : Cfg W) (f : Nat) (active : Bool) (t arg : Nat) (s s' : St W) (r : Except Exc Nat) (b : Agent)
    (hs : Reached cfg s) (hb : (cfg.tmpl t).agent ≠ some b)
    (h : callTmpl cfg f active t arg s = some (s', r)) : s'.hist b = s.hist b := by
  obtain ⟨s₂, st, h1, h2⟩ := (run_spec cfg False (fun o => o.elim) f).2.1 active t arg s s' _ hs.top.wf h
  cases r with
  | error e => rw [h1 e rfl, st.hist]
  | ok v =>
    obtain ⟨h', sys, u, ex, m, -, e, -⟩ := h2 v rfl
    rw [e]
    unfold commit
    cases hT : (cfg.tmpl t).agent with
    | none => rw [← st.hist]
    | some a =>
      simp only
      split
      · rw [st.hist]
      · have : b ≠ a := by intro e; subst e; exact hb hT
        simp only [if_neg this, st.hist]

/-! ## Examples -/

namespace CallExample

/-- The world counts requests. Template 0 (agent 0): a tool call, then the answer 42. Template 1 (agent 1): the answer 7
at once. Template 2 (no agent) fails with a bad answer. Template 3 (agent 2): first two calls, the second of which cannot
be decoded, then the answer. -/
def tmpls : Nat → Tmpl Nat
  | 0 => { agent := some 0, system := 0, user := fun a w => (w, .ok a)
           model := fun w h => (w + 1,
             if h.any (fun m => m.role == .tool) then .ok ⟨0, [], .value 42⟩
             else .ok ⟨0, [(9, some (.call 1 3 (fun r => .ret r)))], .bad⟩) }
  | 1 => { agent := some 1, system := 0, user := fun a w => (w, .ok a), model := fun w _ => (w + 1, .ok ⟨0, [], .value 7⟩) }
  | 2 => { agent := none, system := 0, user := fun a w => (w, .ok a), model := fun w _ => (w + 1, .ok ⟨0, [], .bad⟩) }
  | _ => { agent := some 2, system := 0, user := fun a w => (w, .ok a)
           model := fun w _ => (w + 1,
             if w = 0 then .ok ⟨0, [(5, some (.ret (.ok 0))), (6, none)], .bad⟩ else .ok ⟨0, [], .value 1⟩) }

def cfg : Cfg Nat := ⟨tmpls, none⟩
def cfgR : Cfg Nat := ⟨tmpls, some ⟨3, fun _ => true⟩⟩

/-- The roles in a history. -/
def roles (h : History) : List Role := h.map (·.role)

end CallExample

open CallExample in
/-- A completed call of a template of agent 1 inside of a tool of agent 0 is not in the history of agent 1. -/
theorem C40_nested_fails :
    ∃ (cfg : Cfg Nat) (f t arg : Nat) (s s' : St Nat) (v : Nat) (a : Agent), Reached cfg s ∧
      (cfg.tmpl t).agent = some a ∧ callTmpl cfg f true t arg s = some (s', .ok v) ∧
      ¬ ∃ sys u ex m, Exchange (s.hist a) (s'.hist a) sys u ex m := by
  have hs : Reached cfg (initial 0) := ⟨0, 1, .ret (.ok 0), _, rfl⟩
  have hc : ∃ s', callTmpl cfg 5 true 1 3 (initial 0) = some (s', .ok 7) := ⟨_, rfl⟩
  obtain ⟨s', hc⟩ := hc
  refine ⟨cfg, 5, 1, 3, initial 0, s', 7, 1, hs, rfl, hc, ?_⟩
  rw [C40_nested _ _ _ _ _ _ _ hs hc]
  rintro ⟨sys, u, ex, m, x⟩
  have := congrArg List.length x.eq
  simp [initial] at this

/-- The history of agent 0 has the whole exchange with the tool call, that of agent 1 is empty. -/
example : (runProg CallExample.cfg 20 false (.call 0 1 (fun r => .ret r)) (initial 0)).map
    (fun x => (CallExample.roles (x.1.hist 0), x.1.hist 1, x.1.sent.length)) =
    some ([.system, .user, .assistant, .tool, .assistant], [], 3) := by decide

/-- A second call continues the history. -/
example : (runProg CallExample.cfg 20 false (.call 1 1 (fun _ => .call 1 2 (fun r => .ret r))) (initial 0)).map
    (fun x => CallExample.roles (x.1.hist 1)) =
    some [.system, .user, .assistant, .user, .assistant] := by decide

/-- A failing call leaves the histories alone. -/
example : (runProg CallExample.cfg 20 false (.call 1 1 (fun _ => .call 2 2 (fun _ => .ret (.ok 0)))) (initial 0)).map
    (fun x => (CallExample.roles (x.1.hist 1), x.1.sent.length)) =
    some ([.system, .user, .assistant], 2) := by decide

/-- With retries: three requests, all in vain. -/
example : (runProg CallExample.cfgR 20 false (.call 2 2 (fun _ => .ret (.ok 0))) (initial 0)).map
    (fun x => x.1.sent.map (fun y => CallExample.roles y.2)) =
    some [[.system, .user], [.system, .user, .assistant, .user], [.system, .user, .assistant, .user, .assistant, .user]] := by
  decide

/-- With retries, the history has the good message only. -/
example : (runProg CallExample.cfgR 20 false (.call 3 2 (fun r => .ret r)) (initial 0)).map
    (fun x => (CallExample.roles (x.1.hist 2), x.1.sent.length)) =
    some ([.system, .user, .assistant], 2) := by decide

/-- A tool that raises: with the retry handler it is answered and the run goes on, unless what it raises is no `Exception`;
without it the template call raises. -/
example :
    (runCalls CallExample.cfgR 5 (CallExample.tmpls 0) [(4, .raise (.plain (.exc 1)))] (initial 0) []).map
      (fun x => (x.2.1.map (fun m => (m.role, m.callId)), match x.2.2 with | .ok _ => true | .error _ => false)) =
      some ([(.tool, some 4)], true) ∧
    (runCalls CallExample.cfgR 5 (CallExample.tmpls 0) [(4, .raise (.plain (.base 1)))] (initial 0) []).map
      (fun x => (x.2.1, match x.2.2 with | .ok _ => true | .error _ => false)) = some ([], false) ∧
    (runCalls CallExample.cfg 5 (CallExample.tmpls 0) [(4, .raise (.plain (.exc 1)))] (initial 0) []).map
      (fun x => (x.2.1, match x.2.2 with | .ok _ => true | .error _ => false)) = some ([], false) :=
  ⟨by decide, by decide, by decide⟩

theorem Answered.head {m : Msg} {h : History} (ha : Answered (m :: h)) (hm : m.role = .assistant) :
    ∃ ts r, h = ts ++ r ∧ ts.map (·.callId) = m.calls.map some := by
  generalize hg : m :: h = g at ha
  cases ha with
  | nil => cases hg
  | other x k h1 _ _ => cases hg; exact absurd hm h1
  | turn x ts k _ _ h3 _ => cases hg; exact ⟨ts, k, rfl, h3⟩

theorem Answered.tail {m : Msg} {h : History} (ha : Answered (m :: h)) (hm : m.role ≠ .assistant) : Answered h := by
  generalize hg : m :: h = g at ha
  cases ha with
  | nil => cases hg
  | other x k _ _ h3 => cases hg; exact h3
  | turn x ts k h1 _ _ _ => cases hg; exact absurd h1 hm

/-- With the retry handler, when one of several tool calls of a message cannot be decoded, the message is sent back with
an answer to that call only. -/
theorem C42_retry_fails :
    ∃ (cfg : Cfg Nat) (w f : Nat) (p : Prog Nat) (s : St Nat) (r : Except Exc (Except Exc Nat)),
      runProg cfg f false p (initial w) = some (s, r) ∧ ∃ x ∈ s.sent, ¬ Answered x.2 := by
  have h : ∃ s r, runProg CallExample.cfgR 20 false (.call 3 2 (fun r => .ret r)) (initial 0) = some (s, r) ∧
      s.sent[1]? = some (some 2, [⟨0, .system, [], none, 0, some 2⟩, ⟨1, .user, [], none, 2, some 2⟩,
        ⟨2, .assistant, [5, 6], none, 0, some 2⟩, ⟨3, .tool, [], some 6, 0, some 2⟩]) := ⟨_, _, rfl, rfl⟩
  obtain ⟨s, r, h1, h2⟩ := h
  refine ⟨_, _, _, _, s, r, h1, _, List.mem_of_getElem? h2, ?_⟩
  intro ha
  obtain ⟨ts, k, e1, e2⟩ := ((ha.tail (by simp)).tail (by simp)).head rfl
  have := congrArg List.length e2
  have l1 := congrArg List.length e1
  simp at this l1
  omega

end Verif.Llm
