import Verif.Indexed.IndexSet

/-!
# C35: `cond_n`

Model of `handlers/indexed.py`: `cond` 252-286 and `cond_n` 289-302.

A tensor is a shape and an entry for each index. Shapes and indices are written from the last dimension to the
first, the order in which broadcasting aligns them. Named dimensions are left out: torch operations on tensors
with named dimensions act separately for each choice of the named indices, so a tensor here stands for its slice
at one choice. The dict of values is the list of its items.
-/

namespace Verif.Indexed

/-- A tensor with entries in `α`. -/
structure Tensor (α : Type) where
  shape : List Nat
  get : List Nat → α

/-- The size of a dimension after broadcasting. -/
def bdim (x y : Nat) : Option Nat :=
  if x = y then some x else if x = 1 then some y else if y = 1 then some x else none

/-- `torch.broadcast_shapes`. -/
def bshape : List Nat → List Nat → Option (List Nat)
  | [], b => some b
  | a, [] => some a
  | x :: a, y :: b =>
    match bdim x y, bshape a b with
    | some d, some s => some (d :: s)
    | _, _ => none

/-- The index into a tensor of the given shape for an index into the broadcast tensor: further dimensions are
ignored, and dimensions of size 1 are repeated. -/
def restrict : List Nat → List Nat → List Nat
  | [], _ => []
  | d :: s, ix => (if d = 1 then 0 else ix.headD 0) :: restrict s ix.tail

/-- `torch.where(c, a, b)`. -/
def tensorWhere {α : Type} (c : Tensor Bool) (a b : Tensor α) : Option (Tensor α) :=
  match bshape a.shape b.shape with
  | none => none
  | some s =>
    match bshape c.shape s with
    | none => none
    | some s' => some ⟨s', fun ix => if c.get (restrict c.shape ix) then a.get (restrict a.shape ix)
        else b.get (restrict b.shape ix)⟩

/-- `c.reshape(c.shape + (1,) * k)`. -/
def appendOnes {α : Type} (c : Tensor α) (k : Nat) : Tensor α :=
  ⟨List.replicate k 1 ++ c.shape, fun ix => c.get (ix.drop k)⟩

/-- `cond(fst, snd, case_)` (282-286). -/
def cond {α : Type} (fst snd : Tensor α) (case_ : Tensor Bool) : Option (Tensor α) :=
  tensorWhere (appendOnes case_ (min snd.shape.length fst.shape.length)) snd fst

/-- The test of one case (294-299): `case == index` for some `index` in the first set of the index set; an index
set without names or with an empty set raises. -/
def test (indices : IndexSet) (case : Tensor Int) : Option (Tensor Bool) :=
  match indices with
  | [] => none
  | (_, []) :: _ => none
  | (_, w :: ws) :: _ => some ⟨case.shape, fun ix => (w :: ws).any (fun x => case.get ix == x)⟩

/-- One round of the loop (300). -/
def condStep {α : Type} (case : Tensor Int) (result : Option (Tensor α)) (indices : IndexSet)
    (value : Tensor α) : Option (Tensor α) :=
  match test indices case with
  | none => none
  | some t => cond (result.getD value) value t

/-- The loop of `cond_n` (293-300). -/
def condLoop {α : Type} (case : Tensor Int) : List (IndexSet × Tensor α) → Option (Tensor α) →
    Option (Option (Tensor α))
  | [], r => some r
  | (is, v) :: rest, r =>
    match condStep case r is v with
    | none => none
    | some r' => condLoop case rest (some r')

/-- `cond_n(values, case)`; `none` if it raises. -/
def condN {α : Type} (values : List (IndexSet × Tensor α)) (case : Tensor Int) : Option (Tensor α) :=
  match condLoop case values none with
  | some (some r) => some r
  | _ => none

/-! ## Broadcasting -/

/-- A tensor of the first shape can be broadcast to the second. -/
inductive Fits : List Nat → List Nat → Prop
  | nil (s) : Fits [] s
  | cons {d e s t} : d = 1 ∨ d = e → Fits s t → Fits (d :: s) (e :: t)

theorem Fits.refl : ∀ s, Fits s s
  | [] => .nil _
  | _ :: s => .cons (.inr rfl) (Fits.refl s)

theorem Fits.trans {a b c : List Nat} (h : Fits a b) : Fits b c → Fits a c := by
  intro g
  induction h generalizing c with
  | nil s => exact .nil _
  | cons hd _ ih =>
    cases g with
    | cons he h2 =>
      refine .cons ?_ (ih h2)
      rcases hd with hd | hd
      · exact .inl hd
      · rw [hd]; exact he

theorem bshape_fits : ∀ a b s, bshape a b = some s → Fits a s ∧ Fits b s
  | [], b, s, h => by simp only [bshape, Option.some.injEq] at h; subst h; exact ⟨.nil _, .refl _⟩
  | x :: a, [], s, h => by simp only [bshape, Option.some.injEq] at h; subst h; exact ⟨.refl _, .nil _⟩
  | x :: a, y :: b, s, h => by
    simp only [bshape] at h
    split at h
    · next d s' hd hs =>
      cases h
      obtain ⟨h1, h2⟩ := bshape_fits a b s' hs
      unfold bdim at hd
      split at hd
      · next e => cases hd; exact ⟨.cons (.inr rfl) h1, .cons (.inr e.symm) h2⟩
      · split at hd
        · next e => cases hd; exact ⟨.cons (.inl e) h1, .cons (.inr rfl) h2⟩
        · split at hd
          · next e => cases hd; exact ⟨.cons (.inr rfl) h1, .cons (.inl e) h2⟩
          · cases hd
    · cases h

theorem restrict_restrict {s t : List Nat} (h : Fits s t) : ∀ ix, restrict s (restrict t ix) = restrict s ix := by
  induction h with
  | nil s => intro ix; rfl
  | cons hd _ ih =>
    intro ix
    simp only [restrict, List.headD_cons, List.tail_cons, ih]
    rcases hd with hd | hd
    · simp [hd]
    · rw [hd]; split <;> rfl

theorem drop_restrict : ∀ (s : List Nat) (r : Nat) (ix : List Nat),
    (restrict s ix).drop r = restrict (s.drop r) (ix.drop r)
  | s, 0, ix => by simp
  | [], r + 1, ix => by simp [restrict]
  | d :: s, r + 1, ix => by
    simp only [restrict, List.drop_succ_cons, drop_restrict s r]
    cases ix <;> simp

theorem Fits.length {s t : List Nat} (h : Fits s t) : s.length ≤ t.length := by
  induction h with
  | nil s => simp
  | cons _ _ ih => simp; omega

theorem Fits.drop {s t : List Nat} (h : Fits s t) : ∀ r, Fits (s.drop r) (t.drop r) := by
  induction h with
  | nil s => intro r; simp; exact .nil _
  | cons hd h ih =>
    intro r
    cases r with
    | zero => exact .cons hd h
    | succ r => simpa using ih r

/-! ## Specification -/

/-- The position in `case` for an index into the result: the dimensions of the values, of which there are `r`,
are dropped. -/
def casePos (case : Tensor Int) (r : Nat) (ix : List Nat) : List Nat := restrict case.shape (ix.drop r)

/-- The index set contains `w`; it has only one name. -/
def Contains (indices : IndexSet) (w : Int) : Prop := ∃ k ws, indices = [(k, ws)] ∧ w ∈ ws

/-- An index set with one name. -/
def OneName (indices : IndexSet) : Prop := ∃ k ws, indices = [(k, ws)]

/-- Either the case has no positional dimensions, or all values have the same number of them. -/
def RanksOK {α : Type} (values : List (IndexSet × Tensor α)) (case : Tensor Int) (r : Nat) : Prop :=
  case.shape = [] ∨ ∀ p ∈ values, p.2.shape.length = r

/-! ## Proof -/

theorem test_spec {is : IndexSet} {case : Tensor Int} {t : Tensor Bool} (hn : OneName is)
    (h : test is case = some t) : t.shape = case.shape ∧ ∀ ix, t.get ix = true ↔ Contains is (case.get ix) := by
  obtain ⟨k, ws, rfl⟩ := hn
  cases ws with
  | nil => cases h
  | cons w ws =>
    simp only [test, Option.some.injEq] at h
    subst h
    refine ⟨rfl, fun ix => ?_⟩
    simp only [List.any_eq_true, beq_iff_eq]
    constructor
    · rintro ⟨x, hx, e⟩; exact ⟨k, _, rfl, e ▸ hx⟩
    · rintro ⟨k', ws', e, hw⟩
      cases e
      exact ⟨_, hw, rfl⟩

theorem restrict_ones (cs : List Nat) : ∀ (m : Nat) (ix : List Nat),
    (restrict (List.replicate m 1 ++ cs) ix).drop m = restrict cs (ix.drop m) := by
  intro m ix
  rw [drop_restrict]
  congr 1
  simp

theorem cond_spec {α : Type} {fst snd r : Tensor α} {t : Tensor Bool} (h : cond fst snd t = some r) :
    Fits fst.shape r.shape ∧ Fits snd.shape r.shape ∧
    Fits (List.replicate (min snd.shape.length fst.shape.length) 1 ++ t.shape) r.shape ∧
    ∀ ix, r.get ix = if t.get (restrict t.shape (ix.drop (min snd.shape.length fst.shape.length)))
      then snd.get (restrict snd.shape ix) else fst.get (restrict fst.shape ix) := by
  unfold cond tensorWhere at h
  split at h
  · cases h
  · next s hs =>
    split at h
    · cases h
    · next s' hs' =>
      cases h
      obtain ⟨h1, h2⟩ := bshape_fits _ _ _ hs
      obtain ⟨h3, h4⟩ := bshape_fits _ _ _ hs'
      refine ⟨h2.trans h4, h1.trans h4, h3, ?_⟩
      intro ix
      simp only [appendOnes, restrict_ones]

/-- What the loop has computed after the values `done`. -/
structure Inv {α : Type} (case : Tensor Int) (r : Nat) (done : List (IndexSet × Tensor α))
    (res : Tensor α) : Prop where
  rank : case.shape = [] ∨ r ≤ res.shape.length
  caseFits : Fits case.shape (res.shape.drop r) ∨ case.shape = []
  fits : ∀ p ∈ done, Fits p.2.shape res.shape
  last : ∀ ix pre is v post, done = pre ++ (is, v) :: post → Contains is (case.get (casePos case r ix)) →
    (∀ p ∈ post, ¬ Contains p.1 (case.get (casePos case r ix))) → res.get ix = v.get (restrict v.shape ix)
  first : ∀ ix is v rest, done = (is, v) :: rest →
    (∀ p ∈ done, ¬ Contains p.1 (case.get (casePos case r ix))) → res.get ix = v.get (restrict v.shape ix)

theorem casePos_nil {case : Tensor Int} (h : case.shape = []) (r : Nat) (ix : List Nat) :
    casePos case r ix = [] := by simp [casePos, h, restrict]

theorem loop_inv {α : Type} {case : Tensor Int} {r : Nat} : ∀ (todo done : List (IndexSet × Tensor α))
    (res R : Tensor α), done ≠ [] → (∀ p ∈ done ++ todo, OneName p.1) → RanksOK (done ++ todo) case r →
    Inv case r done res → condLoop case todo (some res) = some (some R) → Inv case r (done ++ todo) R := by
  intro todo
  induction todo with
  | nil =>
    intro done res R _ _ _ hi h
    simp only [condLoop, Option.some.injEq] at h
    subst h
    simpa using hi
  | cons p todo ih =>
    intro done res R hne hnames hranks hi h
    obtain ⟨is, v⟩ := p
    simp only [condLoop] at h
    split at h
    · cases h
    · next res' hstep =>
      unfold condStep at hstep
      split at hstep
      · cases hstep
      · next t ht =>
        simp only [Option.getD_some] at hstep
        obtain ⟨t1, t2⟩ := test_spec (hnames (is, v) (by simp)) ht
        obtain ⟨c1, c2, c3, c4⟩ := cond_spec hstep
        have hres : ∀ ix, res'.get ix = if t.get (casePos case r ix) then v.get (restrict v.shape ix)
            else res.get (restrict res.shape ix) := by
          intro ix
          rw [c4]
          rcases hranks with h0 | hr
          · rw [casePos_nil h0, t1, h0]; rfl
          · have hv : v.shape.length = r := hr (is, v) (by simp)
            have hm : min v.shape.length res.shape.length = r := by
              rcases hi.rank with h0 | h1
              · obtain ⟨⟨is', v'⟩, hq⟩ := List.exists_mem_of_ne_nil _ hne
                have h2 := (hi.fits _ hq).length
                have h3 := hr (is', v') (by simp [hq])
                simp only at h2 h3
                omega
              · omega
            rw [hm, t1]; rfl
        have hpos : ∀ ix, casePos case r (restrict res.shape ix) = casePos case r ix := by
          intro ix
          unfold casePos
          rcases hi.caseFits with hf | h0
          · rw [drop_restrict, restrict_restrict hf]
          · rw [h0]; rfl
        have hinv : Inv case r (done ++ [(is, v)]) res' := by
          refine ⟨?_, ?_, ?_, ?_, ?_⟩
          · rcases hi.rank with h0 | h1
            · exact .inl h0
            · have := c1.length; right; omega
          · rcases hi.caseFits with hf | h0
            · exact .inl (hf.trans (c1.drop r))
            · exact .inr h0
          · intro p hp
            rcases List.mem_append.1 hp with hp | hp
            · exact (hi.fits p hp).trans c1
            · simp only [List.mem_singleton] at hp; subst hp; exact c2
          · intro ix pre is' v' post e hc hpost
            rw [hres]
            rcases List.eq_nil_or_concat post with rfl | ⟨post', q, rfl⟩
            · have := List.append_inj' e rfl
              obtain ⟨_, e2⟩ := this
              cases e2
              rw [if_pos ((t2 _).2 hc)]
            · have e' : done ++ [(is, v)] = (pre ++ (is', v') :: post') ++ [q] := by
                rw [e]; simp
              obtain ⟨e1, e2⟩ := List.append_inj' e' rfl
              cases e2
              have hn : ¬ t.get (casePos case r ix) = true := by
                rw [t2]; exact hpost (is, v) (by simp)
              rw [if_neg hn]
              have hq := hi.last (restrict res.shape ix) pre is' v' post' e1
              rw [hpos] at hq
              rw [hq hc (fun p hp => hpost p (by simp [hp]))]
              rw [restrict_restrict (hi.fits (is', v') (by rw [e1]; simp))]
          · intro ix is' v' rest e hno
            rw [hres]
            have hn : ¬ t.get (casePos case r ix) = true := by
              rw [t2]; exact hno (is, v) (by simp)
            rw [if_neg hn]
            cases done with
            | nil => exact absurd rfl hne
            | cons q done =>
              obtain ⟨isq, vq⟩ := q
              have eq : (isq, vq) = (is', v') := by
                have := congrArg List.head? e
                simpa using this
              obtain ⟨rfl, rfl⟩ := Prod.mk.injEq .. ▸ eq
              have hf := hi.first (restrict res.shape ix) isq vq done rfl
              rw [hpos] at hf
              rw [hf (fun p hp => hno p (by simp only [List.mem_append]; exact .inl hp))]
              rw [restrict_restrict (hi.fits (isq, vq) (by simp))]
        have := ih (done ++ [(is, v)]) res' R (by simp) (by simpa using hnames) (by simpa using hranks) hinv h
        simpa using this

theorem condN_inv {α : Type} {values : List (IndexSet × Tensor α)} {case : Tensor Int} {R : Tensor α} {r : Nat}
    (hnames : ∀ p ∈ values, OneName p.1) (hranks : RanksOK values case r)
    (h : condN values case = some R) : Inv case r values R := by
  unfold condN at h
  split at h
  · next R' hl =>
    cases h
    cases values with
    | nil => simp [condLoop] at hl
    | cons p values =>
      obtain ⟨is, v⟩ := p
      simp only [condLoop] at hl
      split at hl
      · cases hl
      · next res hstep =>
        unfold condStep at hstep
        split at hstep
        · cases hstep
        · next t ht =>
          simp only [Option.getD_none] at hstep
          obtain ⟨t1, t2⟩ := test_spec (hnames (is, v) (by simp)) ht
          obtain ⟨c1, _, c3, c4⟩ := cond_spec hstep
          have hres : ∀ ix, res.get ix = v.get (restrict v.shape ix) := by
            intro ix; rw [c4]; split <;> rfl
          have hinv : Inv case r [(is, v)] res := by
            refine ⟨?_, ?_, ?_, ?_, ?_⟩
            · rcases hranks with h0 | hr
              · exact .inl h0
              · have h1 := c1.length
                have h2 := hr (is, v) (by simp)
                simp only at h2
                right; omega
            · rcases hranks with h0 | hr
              · exact .inr h0
              · left
                have h2 : v.shape.length = r := hr (is, v) (by simp)
                have := c3.drop r
                rw [t1] at this
                simpa [h2] using this
            · intro p hp
              simp only [List.mem_singleton] at hp; subst hp; exact c1
            · intro ix pre is' v' post e _ _
              have hm : (is', v') ∈ [(is, v)] := by rw [e]; simp
              simp only [List.mem_singleton] at hm
              cases hm
              exact hres ix
            · intro ix is' v' rest e _
              have hm : (is', v') ∈ [(is, v)] := by rw [e]; simp
              simp only [List.mem_singleton] at hm
              cases hm
              exact hres ix
          have := loop_inv values [(is, v)] res R (by simp) (by simpa using hnames) (by simpa using hranks)
            hinv hl
          simpa using this
  · cases h

/-! ## Theorems -/

/-- Each entry of `cond_n(values, case)` is the entry of the last value whose index set contains the case at
that position. The case has no positional dimensions, or all values have equally many and the dimensions of the
case come before them; index sets have one name. -/
theorem C35_last_partial {α : Type} {values : List (IndexSet × Tensor α)} {case : Tensor Int} {R : Tensor α}
    {r : Nat} (hnames : ∀ p ∈ values, OneName p.1) (hranks : RanksOK values case r)
    (h : condN values case = some R) (ix : List Nat) {pre post : List (IndexSet × Tensor α)} {is : IndexSet}
    {v : Tensor α} (hv : values = pre ++ (is, v) :: post) (hc : Contains is (case.get (casePos case r ix)))
    (hpost : ∀ p ∈ post, ¬ Contains p.1 (case.get (casePos case r ix))) :
    R.get ix = v.get (restrict v.shape ix) :=
  (condN_inv hnames hranks h).last ix pre is v post hv hc hpost

/-- If exactly one index set contains the case at a position, the entry is that of its value. -/
theorem C35_unique_partial {α : Type} {values : List (IndexSet × Tensor α)} {case : Tensor Int} {R : Tensor α}
    {r : Nat} (hnames : ∀ p ∈ values, OneName p.1) (hranks : RanksOK values case r)
    (h : condN values case = some R) (ix : List Nat) {p : IndexSet × Tensor α} (hp : p ∈ values)
    (hc : Contains p.1 (case.get (casePos case r ix)))
    (hu : ∀ q ∈ values, Contains q.1 (case.get (casePos case r ix)) → q = p) :
    R.get ix = p.2.get (restrict p.2.shape ix) := by
  obtain ⟨is, v⟩ := p
  -- the last occurrence
  have : ∃ pre post, values = pre ++ (is, v) :: post ∧
      ∀ q ∈ post, ¬ Contains q.1 (case.get (casePos case r ix)) := by
    clear h hnames hranks
    induction values with
    | nil => cases hp
    | cons a values ih =>
      by_cases hin : (is, v) ∈ values
      · obtain ⟨pre, post, e, hpost⟩ := ih hin (fun q hq => hu q (List.mem_cons_of_mem _ hq))
        exact ⟨a :: pre, post, by rw [e]; rfl, hpost⟩
      · rcases List.mem_cons.1 hp with e | hp
        · refine ⟨[], values, by rw [← e]; rfl, ?_⟩
          intro q hq hcq
          have := hu q (List.mem_cons_of_mem _ hq) hcq
          rw [this] at hq
          exact hin hq
        · exact absurd hp hin
  obtain ⟨pre, post, e, hpost⟩ := this
  exact C35_last_partial hnames hranks h ix e hc hpost

/-- For values of one shape `s` and nonempty index sets `cond_n` succeeds; the result has the dimensions of the
case before those of the values. -/
theorem C35_defined_partial {α : Type} {values : List (IndexSet × Tensor α)} {case : Tensor Int} {s : List Nat}
    (hne : values ≠ []) (hs : ∀ p ∈ values, p.2.shape = s) (hw : ∀ p ∈ values, ∃ w, Contains p.1 w) :
    ∃ R, condN values case = some R ∧ R.shape = s ++ case.shape := by
  have bself : ∀ a : List Nat, bshape a a = some a := by
    intro a
    induction a with
    | nil => rfl
    | cons d a ih => simp [bshape, bdim, ih]
  have bapp : ∀ a b : List Nat, bshape a (a ++ b) = some (a ++ b) := by
    intro a b
    induction a with
    | nil => rfl
    | cons d a ih => simp [bshape, bdim, ih]
  have bones : ∀ a b : List Nat, bshape (List.replicate a.length 1 ++ b) (a ++ b) = some (a ++ b) := by
    intro a b
    induction a with
    | nil => simp [bself]
    | cons d a ih =>
      simp only [List.length_cons, List.replicate_succ, List.cons_append, bshape, ih, bdim]
      split <;> simp_all
  have bones' : ∀ a b : List Nat, bshape (List.replicate a.length 1 ++ b) a = some (a ++ b) := by
    intro a b
    induction a with
    | nil => cases b <;> rfl
    | cons d a ih =>
      simp only [List.length_cons, List.replicate_succ, List.cons_append, bshape, ih, bdim]
      split <;> simp_all
  have htest : ∀ p ∈ values, ∃ t, test p.1 case = some t ∧ t.shape = case.shape := by
    intro p hp
    obtain ⟨w, k, ws, e, hw⟩ := hw p hp
    rw [e]
    cases ws with
    | nil => cases hw
    | cons x ws => exact ⟨_, rfl, rfl⟩
  have loop : ∀ (todo : List (IndexSet × Tensor α)) (res : Tensor α), (∀ p ∈ todo, p ∈ values) →
      res.shape = s ++ case.shape → ∃ R, condLoop case todo (some res) = some (some R) ∧
      R.shape = s ++ case.shape := by
    intro todo
    induction todo with
    | nil => intro res _ h; exact ⟨res, rfl, h⟩
    | cons p todo ih =>
      intro res hsub hres
      obtain ⟨is, v⟩ := p
      have hp := hsub (is, v) (by simp)
      obtain ⟨t, ht, ht2⟩ := htest _ hp
      have hv : v.shape = s := hs _ hp
      have hstep : ∃ R', condStep case (some res) is v = some R' ∧ R'.shape = s ++ case.shape := by
        simp only at ht
        simp only [condStep, ht, Option.getD_some, cond, tensorWhere, hv, hres, bapp, appendOnes, ht2]
        have : min s.length (s ++ case.shape).length = s.length := by simp
        rw [this, bones]
        exact ⟨_, rfl, rfl⟩
      obtain ⟨R', h1, h2⟩ := hstep
      simp only [condLoop, h1]
      exact ih R' (fun p hp => hsub p (List.mem_cons_of_mem _ hp)) h2
  cases values with
  | nil => exact absurd rfl hne
  | cons p values =>
    obtain ⟨is, v⟩ := p
    obtain ⟨t, ht, ht2⟩ := htest (is, v) (by simp)
    have hv : v.shape = s := hs (is, v) (by simp)
    have hstep : ∃ R', condStep case none is v = some R' ∧ R'.shape = s ++ case.shape := by
      simp only at ht
      simp only [condStep, ht, Option.getD_none, cond, tensorWhere, hv, bself, appendOnes, ht2]
      rw [Nat.min_self, bones']
      exact ⟨_, rfl, rfl⟩
    obtain ⟨R', h1, h2⟩ := hstep
    obtain ⟨R, h3, h4⟩ := loop values R' (fun p hp => by simp [hp]) h2
    refine ⟨R, ?_, h4⟩
    simp only [condN, condLoop, h1, h3]

/-- Two values `[10, 20]` and `[30, 40]` for the cases `{0}` and `{1, 2}`. -/
def exValues : List (IndexSet × Tensor Nat) :=
  [([("a", [0])], ⟨[2], fun ix => if ix = [0] then 10 else 20⟩),
   ([("a", [1, 2])], ⟨[2], fun ix => if ix = [0] then 30 else 40⟩)]

/-- A case without positional dimensions. -/
example : ∃ R, condN exValues ⟨[], fun _ => 2⟩ = some R ∧ R.shape = [2] ∧ R.get [0] = 30 ∧ R.get [1] = 40 :=
  ⟨_, rfl, rfl, rfl, rfl⟩

/-- A case `[1, 0]` with one positional dimension: the rows of the result (the last entry of the index) are the
values of the cases. -/
example : ∃ R, condN exValues ⟨[2], fun ix => if ix = [0] then 1 else 0⟩ = some R ∧ R.shape = [2, 2] ∧
    R.get [1, 0] = 40 ∧ R.get [1, 1] = 20 ∧
    RanksOK exValues ⟨[2], fun ix => if ix = [0] then 1 else 0⟩ 1 :=
  ⟨_, rfl, rfl, rfl, rfl, .inr (by simp [exValues])⟩

/-! ## Where it fails -/

/-- A case in no index set is not an error: the entry is that of the first value. -/
theorem C35_no_match_fails {α : Type} {values : List (IndexSet × Tensor α)} {case : Tensor Int} {R : Tensor α}
    {r : Nat} (hnames : ∀ p ∈ values, OneName p.1) (hranks : RanksOK values case r)
    (h : condN values case = some R) (ix : List Nat) {is : IndexSet} {v : Tensor α}
    {rest : List (IndexSet × Tensor α)} (hv : values = (is, v) :: rest)
    (hno : ∀ p ∈ values, ¬ Contains p.1 (case.get (casePos case r ix))) :
    R.get ix = v.get (restrict v.shape ix) :=
  (condN_inv hnames hranks h).first ix is v rest hv hno

example : ∃ R, condN exValues ⟨[], fun _ => 7⟩ = some R ∧ R.get [1] = 20 := ⟨_, rfl, rfl⟩

/-- Values with different numbers of dimensions and a case with positional dimensions: the case is aligned with
the wrong dimension. For the values `[10, 20]` for 0 and the scalar `99` for 1 and the case `[1, 0]`, the
row of the case 1 should be `[99, 99]`. -/
theorem C35_ranks_fails : ∃ (values : List (IndexSet × Tensor Nat)) (case : Tensor Int) (R : Tensor Nat),
    condN values case = some R ∧ R.shape = [2, 2] ∧ case.get [0] = 1 ∧ case.get [1] = 0 ∧
    R.get [0, 0] = 99 ∧ R.get [1, 0] = 20 ∧ R.get [0, 1] = 99 ∧ R.get [1, 1] = 20 :=
  ⟨[([("a", [0])], ⟨[2], fun ix => if ix = [0] then 10 else 20⟩), ([("a", [1])], ⟨[], fun _ => 99⟩)],
    ⟨[2], fun ix => if ix = [0] then 1 else 0⟩, _, rfl, rfl, rfl, rfl, rfl, rfl, rfl, rfl⟩

/-- Only the first name of an index set is looked at: with two names the value of an index set that contains the
case at its second name is not selected. -/
theorem C35_second_name_fails : ∃ (values : List (IndexSet × Tensor Nat)) (case : Tensor Int) (R : Tensor Nat),
    condN values case = some R ∧
    (∃ v, ([("a", [0])], v) ∈ values ∧ v.get [] = 10) ∧
    (∃ v, ([("a", [3]), ("b", [5])], v) ∈ values ∧ v.get [] = 99) ∧ case.get [] = 5 ∧ R.get [] = 10 :=
  ⟨[([("a", [0])], ⟨[], fun _ => 10⟩), ([("a", [3]), ("b", [5])], ⟨[], fun _ => 99⟩)],
    ⟨[], fun _ => 5⟩, _, rfl, ⟨⟨[], fun _ => 10⟩, by simp, rfl⟩, ⟨⟨[], fun _ => 99⟩, by simp, rfl⟩, rfl, rfl⟩

end Verif.Indexed
