/-
C77: a random variable under reassignment of its set, probability, transition and scale.
-/
import Verif.Model.RVState
import Verif.Props.RVCall
import Verif.Props.ProbObj

namespace Probayes

/-! ### Specification -/

/-- The set last assigned. -/
def Spec.lastSet (vset : List ℚ) : List RVOp → List ℚ
  | [] => vset
  | .vset vals :: ops => Spec.lastSet vals ops
  | _ :: ops => Spec.lastSet vset ops

/-- Calls of `set_prob`. -/
def Spec.SetsProb : RVOp → Prop
  | .prob _ _ => True
  | _ => False

/-- Calls of `set_prob` without a probability. -/
def Spec.ResetsProb : RVOp → Prop
  | .prob none _ => True
  | _ => False

/-- Calls of `set_tran`. -/
def Spec.SetsTran : RVOp → Prop
  | .tran _ => True
  | _ => False

/-- Assignments to `vset`. -/
def Spec.SetsSet : RVOp → Prop
  | .vset _ => True
  | _ => False

/-- Assignments to `pscale`. -/
def Spec.SetsScale : RVOp → Prop
  | .pscale _ => True
  | _ => False

/-- A scale that is not refused by `set_prob`: none, or one that can be evaluated. -/
def Spec.ScaleOk (ps : PSpec) : Prop := Spec.Stated ps → ∃ b, evalPscale ps = .ok b

/-- A matrix with as many rows and columns as there are values. -/
def Spec.Square (n : ℕ) (m : List (List ℝ)) : Prop := m.length = n ∧ ∀ r ∈ m, r.length = n

/-! ### States -/

theorem defaultProb_ok (n : ℕ) (a : PScale) (ha : evalPscale a.spec = .ok a) :
    ∃ p, defaultProb n a.spec = .ok p := by
  have h : evalPscale (.str "log") = .ok complexZero := by simp [evalPscale]
  exact ⟨_, by simp only [defaultProb, rescale, h, ha, bind, Except.bind, pure, Except.pure]; rfl⟩

theorem setScale_ok (a : PScale) (ha : evalPscale a.spec = .ok a) (ps : PSpec)
    (h : Spec.ScaleOk ps) : ∃ b, setScale (some a) ps = .ok b ∧ evalPscale b.spec = .ok b := by
  by_cases hs : Spec.Stated ps
  · obtain ⟨b, hb⟩ := h hs
    have : setScale (some a) ps = .ok b := by rw [setScale_given _ _ hs, hb]
    exact ⟨b, this, setScale_stable _ _ _ this⟩
  · exact ⟨a, setScale_keeps a ha ps hs, ha⟩

/-- What every state reached satisfies. -/
structure RVInv (s : RVState) : Prop where
  scale : evalPscale s.scale.spec = .ok s.scale
  len : s.vset ≠ [] → s.len = if s.isBool then 2 else s.vset.length

theorem defaulted_eq (s : RVState) (h : evalPscale s.scale.spec = .ok s.scale) :
    ∃ p, defaultProb s.len s.scale.spec = .ok p ∧
      s.defaulted = ({ s with prob := .scalar p, tran := .scalar p, defProb := true }, none) := by
  obtain ⟨p, hp⟩ := defaultProb_ok s.len s.scale h
  exact ⟨p, hp, by simp [RVState.defaulted, hp]⟩

theorem bernoulli_fields (s : RVState) : s.bernoulli.scale = s.scale ∧ s.bernoulli.vset = s.vset ∧
    s.bernoulli.len = s.len ∧ s.bernoulli.isBool = s.isBool ∧ s.bernoulli.defProb = s.defProb ∧
    s.bernoulli.tran = s.tran ∧ s.bernoulli.name = s.name := by
  unfold RVState.bernoulli
  split
  · split <;> simp
  · simp

theorem bernoulli_not_bool (s : RVState) (h : s.isBool = false) : s.bernoulli = s := by
  unfold RVState.bernoulli
  rw [h]

/-- What `set_prob` does, when the scale is accepted. -/
theorem setProb_none (s : RVState) (h : evalPscale s.scale.spec = .ok s.scale) (ps : PSpec)
    (b : PScale) (hb : setScale (some s.scale) ps = .ok b) :
    ∃ p, defaultProb s.len b.spec = .ok p ∧ s.setProb none ps =
      (RVState.bernoulli { s with scale := b, prob := .scalar p, tran := .scalar p, defProb := true },
        none) := by
  obtain ⟨p, hp, hd⟩ := defaulted_eq { s with scale := b } (setScale_stable _ _ _ hb)
  exact ⟨p, hp, by simp [RVState.setProb, hb, hd]⟩

theorem setProb_some (s : RVState) (q : RVProb) (ps : PSpec) (b : PScale)
    (hb : setScale (some s.scale) ps = .ok b) :
    (s.setProb (some q) ps).1 = RVState.bernoulli { s with scale := b, prob := q, defProb := false } := by
  cases q with
  | table qs =>
      simp only [RVState.setProb, hb, RVState.bernoulli]
      split <;> simp_all
  | scalar q => simp only [RVState.setProb, hb]
  | fn f => simp only [RVState.setProb, hb]

theorem apply_inv (s : RVState) (op : RVOp) (h : RVInv s) : RVInv (s.apply op).1 := by
  cases op with
  | vset vals =>
      simp only [RVState.apply, RVState.setVset]
      split
      · rename_i he
        refine ⟨h.scale, fun hne => ?_⟩
        exact absurd (List.isEmpty_iff.mp he) hne
      · split
        · obtain ⟨p, -, hd⟩ := defaulted_eq
            { s with vset := vals, len := if s.isBool then 2 else vals.length } h.scale
          rw [hd]
          exact ⟨h.scale, fun _ => rfl⟩
        · exact ⟨h.scale, fun _ => rfl⟩
  | prob p ps =>
      simp only [RVState.apply]
      rcases hb : setScale (some s.scale) ps with e | b
      · simp only [RVState.setProb, hb]
        exact h
      · cases p with
        | none =>
            obtain ⟨q, -, hq⟩ := setProb_none s h.scale ps b hb
            rw [hq]
            obtain ⟨h1, h2, h3, h4, -⟩ := bernoulli_fields
              { s with scale := b, prob := .scalar q, tran := .scalar q, defProb := true }
            refine ⟨?_, ?_⟩
            · rw [h1]; exact setScale_stable _ _ _ hb
            · rw [h2, h3, h4]; exact h.len
        | some q =>
            rw [setProb_some s q ps b hb]
            obtain ⟨h1, h2, h3, h4, -⟩ := bernoulli_fields
              { s with scale := b, prob := q, defProb := false }
            refine ⟨?_, ?_⟩
            · rw [h1]; exact setScale_stable _ _ _ hb
            · rw [h2, h3, h4]; exact h.len
  | tran t => exact ⟨h.scale, h.len⟩
  | pscale ps =>
      simp only [RVState.apply, RVState.setPscale]
      split
      · exact h
      · rename_i b hb
        exact ⟨C03_idempotent _ _ hb, h.len⟩

theorem run_inv (ops : List RVOp) : ∀ s : RVState, RVInv s → RVInv (s.run ops) := by
  induction ops with
  | nil => exact fun s h => h
  | cons op ops ih => exact fun s h => ih _ (apply_inv s op h)

theorem run_append (s : RVState) (l l' : List RVOp) : s.run (l ++ l') = (s.run l).run l' := by
  simp [RVState.run]

theorem run_cons (s : RVState) (op : RVOp) (l : List RVOp) :
    s.run (op :: l) = (s.apply op).1.run l := rfl

theorem newRV_eq (name : Str) (isBool : Bool) (vset : List ℚ) (prob : Option RVProb) (ps : PSpec)
    (s : RVState) (h : newRV name isBool vset prob ps = .ok s) :
    vset ≠ [] ∧ ∃ b s', setScale none ps = .ok b ∧
      RVState.setProb ⟨name, isBool, vset, if isBool then 2 else vset.length, b, .table [], false,
        .none, none⟩ prob .none = (s', none) ∧ s = { s' with tran := .none } := by
  unfold newRV at h
  split at h
  · simp at h
  · rename_i hne
    refine ⟨fun h => hne (by simp [h]), ?_⟩
    rcases hb : setScale none ps with e | b
    · simp [hb, bind, Except.bind] at h
    · simp only [hb, bind, Except.bind] at h
      split at h
      · simp at h
      · rename_i s' hs
        simp only [pure, Except.pure, Except.ok.injEq] at h
        exact ⟨b, s', rfl, hs, h.symm⟩

theorem newRV_inv (name : Str) (isBool : Bool) (vset : List ℚ) (prob : Option RVProb) (ps : PSpec)
    (s : RVState) (h : newRV name isBool vset prob ps = .ok s) : RVInv s := by
  obtain ⟨hne, b, s', hb, hs, rfl⟩ := newRV_eq name isBool vset prob ps s h
  have h0 : RVInv ⟨name, isBool, vset, if isBool then 2 else vset.length, b, .table [], false,
        .none, none⟩ := ⟨setScale_stable _ _ _ hb, fun _ => rfl⟩
  have := apply_inv _ (.prob prob .none) h0
  simp only [RVState.apply, hs] at this
  exact ⟨this.scale, this.len⟩

theorem apply_fields (s : RVState) (h : RVInv s) (op : RVOp) :
    (s.apply op).1.isBool = s.isBool ∧ (s.apply op).1.name = s.name ∧
    (s.apply op).1.vset = Spec.lastSet s.vset [op] := by
  cases op with
  | vset vals =>
      simp only [RVState.apply, RVState.setVset, Spec.lastSet]
      split
      · simp
      · split
        · obtain ⟨p, -, hd⟩ := defaulted_eq
            { s with vset := vals, len := if s.isBool then 2 else vals.length } h.scale
          rw [hd]
          simp
        · simp
  | prob p ps =>
      simp only [RVState.apply, Spec.lastSet]
      rcases hb : setScale (some s.scale) ps with e | b
      · simp [RVState.setProb, hb]
      · cases p with
        | none =>
            obtain ⟨q, -, hq⟩ := setProb_none s h.scale ps b hb
            rw [hq]
            obtain ⟨h1, h2, h3, h4, -, -, h7⟩ := bernoulli_fields
              { s with scale := b, prob := .scalar q, tran := .scalar q, defProb := true }
            exact ⟨h4, h7, h2⟩
        | some q =>
            rw [setProb_some s q ps b hb]
            obtain ⟨h1, h2, h3, h4, -, -, h7⟩ := bernoulli_fields
              { s with scale := b, prob := q, defProb := false }
            exact ⟨h4, h7, h2⟩
  | tran t => exact ⟨rfl, rfl, rfl⟩
  | pscale ps =>
      simp only [RVState.apply, RVState.setPscale, Spec.lastSet]
      split <;> simp

theorem lastSet_cons (vset : List ℚ) (op : RVOp) (ops : List RVOp) :
    Spec.lastSet vset (op :: ops) = Spec.lastSet (Spec.lastSet vset [op]) ops := by
  cases op <;> rfl

theorem run_fields (ops : List RVOp) : ∀ s : RVState, RVInv s →
    (s.run ops).isBool = s.isBool ∧ (s.run ops).name = s.name ∧
    (s.run ops).vset = Spec.lastSet s.vset ops := by
  induction ops with
  | nil => exact fun s _ => ⟨rfl, rfl, rfl⟩
  | cons op ops ih =>
      intro s h
      obtain ⟨h1, h2, h3⟩ := ih _ (apply_inv s op h)
      obtain ⟨g1, g2, g3⟩ := apply_fields s h op
      rw [run_cons, h1, h2, h3, g1, g2, g3]
      exact ⟨rfl, rfl, (lastSet_cons _ _ _).symm⟩

/-- What operations other than `set_prob` leave of the probability. -/
theorem apply_quiet (s : RVState) (h : RVInv s) (op : RVOp) (hop : ¬ Spec.SetsProb op) :
    (s.apply op).1.defProb = s.defProb ∧
    (s.defProb = false → (s.apply op).1.prob = s.prob) := by
  cases op with
  | vset vals =>
      simp only [RVState.apply, RVState.setVset]
      split
      · simp
      · split
        · rename_i hd
          obtain ⟨p, -, hd'⟩ := defaulted_eq
            { s with vset := vals, len := if s.isBool then 2 else vals.length } h.scale
          rw [hd']
          simp [hd]
        · simp
  | prob p ps => exact absurd trivial hop
  | tran t => exact ⟨rfl, fun _ => rfl⟩
  | pscale ps =>
      simp only [RVState.apply, RVState.setPscale]
      split <;> simp

theorem run_quiet (ops : List RVOp) : ∀ s : RVState, RVInv s → (∀ op ∈ ops, ¬ Spec.SetsProb op) →
    (s.run ops).defProb = s.defProb ∧ (s.defProb = false → (s.run ops).prob = s.prob) := by
  induction ops with
  | nil => exact fun s _ _ => ⟨rfl, fun _ => rfl⟩
  | cons op ops ih =>
      intro s h hops
      obtain ⟨h1, h2⟩ := ih _ (apply_inv s op h) fun o ho => hops o (by simp [ho])
      obtain ⟨g1, g2⟩ := apply_quiet s h op (hops op (by simp))
      rw [run_cons, h1, g1]
      exact ⟨rfl, fun hd => by rw [h2 (by rw [g1, hd]), g2 hd]⟩

theorem newRV_isBool (name : Str) (isBool : Bool) (vset : List ℚ) (prob : Option RVProb) (ps : PSpec)
    (s : RVState) (h : newRV name isBool vset prob ps = .ok s) : s.isBool = isBool := by
  obtain ⟨-, b, s', hb, hs, rfl⟩ := newRV_eq name isBool vset prob ps s h
  have h0 : RVInv ⟨name, isBool, vset, if isBool then 2 else vset.length, b, .table [], false,
        .none, none⟩ := ⟨setScale_stable _ _ _ hb, fun _ => rfl⟩
  have hf := (apply_fields _ h0 (.prob prob .none)).1
  simpa only [RVState.apply, hs] using hf

/-! ### Sets and probabilities -/

/-- C77: the set is the one last assigned. -/
theorem C77_set (name : Str) (isBool : Bool) (vset : List ℚ) (prob : Option RVProb) (ps : PSpec)
    (s : RVState) (h : newRV name isBool vset prob ps = .ok s) (ops : List RVOp) :
    (s.run ops).vset = Spec.lastSet vset ops := by
  have hi := newRV_inv name isBool vset prob ps s h
  obtain ⟨-, b, s', hb, hs, rfl⟩ := newRV_eq name isBool vset prob ps s h
  have h0 : RVInv ⟨name, isBool, vset, if isBool then 2 else vset.length, b, .table [], false,
        .none, none⟩ := ⟨setScale_stable _ _ _ hb, fun _ => rfl⟩
  have hf := (apply_fields _ h0 (.prob prob .none)).2.2
  simp only [RVState.apply, hs, Spec.lastSet] at hf
  rw [(run_fields ops _ hi).2.2, hf]

/-- C77: `def_prob` tells whether the probability last set was none. -/
theorem C77_def_prob (name : Str) (isBool : Bool) (vset : List ℚ) (prob : Option RVProb)
    (ps : PSpec) (s : RVState) (h : newRV name isBool vset prob ps = .ok s) :
    (∀ ops, (∀ op ∈ ops, ¬ Spec.SetsProb op) → (s.run ops).defProb = prob.isNone) ∧
    ∀ l p ps' l', Spec.ScaleOk ps' → (∀ op ∈ l', ¬ Spec.SetsProb op) →
      (s.run (l ++ .prob p ps' :: l')).defProb = p.isNone := by
  have key : ∀ (t : RVState), RVInv t → ∀ (p : Option RVProb) (ps' : PSpec), Spec.ScaleOk ps' →
      (t.apply (.prob p ps')).1.defProb = p.isNone := by
    intro t ht p ps' hps
    obtain ⟨b, hb, -⟩ := setScale_ok t.scale ht.scale ps' hps
    simp only [RVState.apply]
    cases p with
    | none =>
        obtain ⟨q, -, hq⟩ := setProb_none t ht.scale ps' b hb
        rw [hq, (bernoulli_fields _).2.2.2.2.1]
        rfl
    | some q =>
        rw [setProb_some t q ps' b hb, (bernoulli_fields _).2.2.2.2.1]
        rfl
  have hi := newRV_inv name isBool vset prob ps s h
  constructor
  · intro ops hops
    rw [(run_quiet ops s hi hops).1]
    obtain ⟨-, b, s', hb, hs, rfl⟩ := newRV_eq name isBool vset prob ps s h
    have := key ⟨name, isBool, vset, if isBool then 2 else vset.length, b, .table [], false,
        .none, none⟩ ⟨setScale_stable _ _ _ hb, fun _ => rfl⟩ prob .none (fun hh => absurd rfl hh.1)
    simpa [RVState.apply, hs] using this
  · intro l p ps' l' hps hl'
    rw [run_append, run_cons, (run_quiet l' _ (apply_inv _ _ (run_inv l s hi)) hl').1]
    exact key _ (run_inv l s hi) p ps' hps

/-- C77: a probability remains the one last set, whatever set, transition or scale is
assigned after it. -/
theorem C77_prob_kept (name : Str) (vset : List ℚ) (prob : Option RVProb) (ps : PSpec)
    (s : RVState) (h : newRV name false vset prob ps = .ok s) (l l' : List RVOp) (q : RVProb)
    (ps' : PSpec) (hps : Spec.ScaleOk ps') (hl' : ∀ op ∈ l', ¬ Spec.SetsProb op) :
    (s.run (l ++ .prob (some q) ps' :: l')).prob = q := by
  have hi := newRV_inv name false vset prob ps s h
  have hb0 : s.isBool = false := newRV_isBool name false vset prob ps s h
  have hl := run_inv l s hi
  have hbl : (s.run l).isBool = false := by rw [(run_fields l s hi).1, hb0]
  obtain ⟨b, hb, -⟩ := setScale_ok _ hl.scale ps' hps
  have hst : ((s.run l).apply (.prob (some q) ps')).1 =
      { s.run l with scale := b, prob := q, defProb := false } := by
    simp only [RVState.apply]
    rw [setProb_some _ q ps' b hb, bernoulli_not_bool _ (by exact hbl)]
  rw [run_append, run_cons]
  have hq := run_quiet l' ((s.run l).apply (.prob (some q) ps')).1 (apply_inv _ _ hl) hl'
  rw [hq.2 (by rw [hst]), hst]

/-! ### Default probabilities -/

/-- The default probability is that of the present set and scale. -/
def DefInv (s : RVState) : Prop :=
  s.defProb = true → s.vset ≠ [] →
    ∃ p, s.prob = .scalar p ∧ defaultProb s.vset.length s.scale.spec = .ok p

theorem apply_default (s : RVState) (h : RVInv s) (hb : s.isBool = false) (op : RVOp)
    (hop : ¬ Spec.SetsScale op) (hd : DefInv s) : DefInv (s.apply op).1 := by
  cases op with
  | vset vals =>
      simp only [RVState.apply, RVState.setVset]
      split
      · rename_i he
        intro _ hne
        exact absurd (List.isEmpty_iff.mp he) hne
      · split
        · obtain ⟨p, hp, hd'⟩ := defaulted_eq
            { s with vset := vals, len := if s.isBool then 2 else vals.length } h.scale
          rw [hd']
          intro _ _
          exact ⟨p, rfl, by simpa [hb] using hp⟩
        · rename_i hdp
          intro hh
          exact absurd hh hdp
  | prob p ps =>
      simp only [RVState.apply]
      rcases hs : setScale (some s.scale) ps with e | b
      · simp only [RVState.setProb, hs]
        exact hd
      · cases p with
        | none =>
            obtain ⟨q, hq', hq⟩ := setProb_none s h.scale ps b hs
            rw [hq, bernoulli_not_bool _ (by exact hb)]
            intro _ hne
            refine ⟨q, rfl, ?_⟩
            have := h.len hne
            rw [hb] at this
            simpa [this] using hq'
        | some q =>
            rw [setProb_some s q ps b hs, bernoulli_not_bool _ (by exact hb)]
            intro hh
            simp at hh
  | tran t => exact hd
  | pscale ps => exact absurd trivial hop

theorem run_default (ops : List RVOp) : ∀ s : RVState, RVInv s → s.isBool = false →
    (∀ op ∈ ops, ¬ Spec.SetsScale op) → DefInv s → DefInv (s.run ops) := by
  induction ops with
  | nil => exact fun s _ _ _ h => h
  | cons op ops ih =>
      intro s h hb hops hd
      exact ih _ (apply_inv s op h) (by rw [(apply_fields s h op).1, hb])
        (fun o ho => hops o (by simp [ho])) (apply_default s h hb op (hops op (by simp)) hd)

/-- C77: while `def_prob` holds, calling the variable gives each of the `n` values of the
present set the probability `1/n`, whatever has been assigned to set, probability and
transition, unless the scale was assigned directly. -/
theorem C77_default_partial (fmt : Val → Str) (name : Str) (vset : List ℚ) (prob : Option RVProb)
    (ps : PSpec) (s₀ : RVState) (h : newRV name false vset prob ps = .ok s₀) (ops : List RVOp)
    (hops : ∀ op ∈ ops, ¬ Spec.SetsScale op) (s : RVState) (hs : s = s₀.run ops)
    (hdef : s.defProb = true) (hne : s.vset ≠ []) (hname : Spec.GoodName fmt s.toDRV)
    (hv : Spec.Valid s.scale) (hc : Spec.Unclamped (-Real.log s.vset.length) (.log 0 0) s.scale)
    (r : ℕ) (perm : List ℕ) :
    ∃ d, s.toDRV.call fmt .all r perm = .ok d ∧ d.shape = [s.vset.length] ∧
      ((List.range s.vset.length).map fun i => d.at [i]).sum = 1 ∧
      ∀ i < s.vset.length, d.at [i] = 1 / s.vset.length := by
  have hi := newRV_inv name false vset prob ps s₀ h
  obtain ⟨hvne, b, s', hb, hs', rfl⟩ := newRV_eq name false vset prob ps s₀ h
  have h0 : RVInv ⟨name, false, vset, vset.length, b, .table [], false,
      .none, none⟩ := ⟨setScale_stable _ _ _ hb, fun _ => rfl⟩
  have hd0 : DefInv ⟨name, false, vset, vset.length, b, .table [], false, .none, none⟩ :=
    fun hh => by simp at hh
  have hd1 := apply_default _ h0 rfl (.prob prob .none) (fun hh => hh) hd0
  have hf := (apply_fields _ h0 (.prob prob .none)).1
  simp only [RVState.apply] at hd1 hf
  have hs'' : RVState.setProb ⟨name, false, vset, vset.length, b, .table [], false,
      .none, none⟩ prob .none = (s', none) := hs'
  rw [hs''] at hd1 hf
  have hfin : DefInv s := by
    rw [hs]
    exact run_default ops _ hi hf hops hd1
  obtain ⟨p, hp, hdp⟩ := hfin hdef hne
  have hscale : evalPscale s.scale.spec = .ok s.scale := by
    rw [hs]; exact (run_inv ops _ hi).scale
  exact C60_default_sums (v := s.toDRV) hname hne p hp s.scale hscale hv hc hdp r perm

theorem default_renewed (name : Str) (vset : List ℚ) (prob : Option RVProb)
    (ps : PSpec) (s₀ : RVState) (h : newRV name false vset prob ps = .ok s₀) (ops : List RVOp)
    (op : RVOp) (hop : (Spec.SetsSet op ∧ (s₀.run ops).defProb = true) ∨
      ∃ ps', Spec.ScaleOk ps' ∧ op = .prob none ps')
    (s : RVState) (hs : s = s₀.run (ops ++ [op])) (hne : s.vset ≠ []) :
    s.defProb = true ∧ ∃ p, s.prob = .scalar p ∧ defaultProb s.vset.length s.scale.spec = .ok p := by
  have hi := newRV_inv name false vset prob ps s₀ h
  have hb0 : s₀.isBool = false := newRV_isBool name false vset prob ps s₀ h
  have hl := run_inv ops s₀ hi
  have hbl : (s₀.run ops).isBool = false := by rw [(run_fields ops s₀ hi).1, hb0]
  subst hs
  rw [run_append] at hne ⊢
  generalize s₀.run ops = t at *
  rcases hop with ⟨hset, hdp⟩ | ⟨ps', hps, rfl⟩
  · cases op with
    | vset vals =>
        have he : (t.run [.vset vals]) = (t.setVset vals).1 := rfl
        rw [he] at hne ⊢
        unfold RVState.setVset at hne ⊢
        split at hne
        · rename_i hemp
          exact absurd (List.isEmpty_iff.mp hemp) hne
        · rename_i hemp
          simp only [hdp, if_true] at hne ⊢
          rw [if_neg hemp]
          obtain ⟨p, hp, hd'⟩ := defaulted_eq
            { t with vset := vals, len := if t.isBool then 2 else vals.length } hl.scale
          simp only [hdp] at hd'
          rw [hd']
          exact ⟨rfl, p, rfl, by simpa [hbl] using hp⟩
    | prob p ps => exact absurd hset id
    | tran t => exact absurd hset id
    | pscale ps => exact absurd hset id
  · obtain ⟨b, hb, -⟩ := setScale_ok _ hl.scale ps' hps
    obtain ⟨q, hq', hq⟩ := setProb_none t hl.scale ps' b hb
    have he : (t.run [.prob none ps']) = (t.setProb none ps').1 := rfl
    rw [he, hq, bernoulli_not_bool _ (by exact hbl)] at hne ⊢
    refine ⟨rfl, q, rfl, ?_⟩
    have := hl.len hne
    rw [hbl] at this
    simpa [this] using hq'

/-- C77: assigning a set, or setting the probability to none, makes the default that of
the present set and scale after anything that went before, also assignments of the
scale. -/
theorem C77_default_renewed (fmt : Val → Str) (name : Str) (vset : List ℚ) (prob : Option RVProb)
    (ps : PSpec) (s₀ : RVState) (h : newRV name false vset prob ps = .ok s₀) (ops : List RVOp)
    (op : RVOp) (hop : (Spec.SetsSet op ∧ (s₀.run ops).defProb = true) ∨
      ∃ ps', Spec.ScaleOk ps' ∧ op = .prob none ps')
    (s : RVState) (hs : s = s₀.run (ops ++ [op])) (hne : s.vset ≠ [])
    (hname : Spec.GoodName fmt s.toDRV) (hv : Spec.Valid s.scale)
    (hc : Spec.Unclamped (-Real.log s.vset.length) (.log 0 0) s.scale) (r : ℕ) (perm : List ℕ) :
    s.defProb = true ∧ ∃ d, s.toDRV.call fmt .all r perm = .ok d ∧ d.shape = [s.vset.length] ∧
      ∀ i < s.vset.length, d.at [i] = 1 / s.vset.length := by
  obtain ⟨hd, p, hp, hdp⟩ := default_renewed name vset prob ps s₀ h ops op hop s hs hne
  have hscale : evalPscale s.scale.spec = .ok s.scale := by
    rw [hs]; exact (run_inv _ _ (newRV_inv name false vset prob ps s₀ h)).scale
  obtain ⟨d, h1, h2, -, h4⟩ :=
    C60_default_sums (v := s.toDRV) hname hne p hp s.scale hscale hv hc hdp r perm
  exact ⟨hd, d, h1, h2, h4⟩

/-- The claim without the restriction: the default is uniform also after the scale was
assigned. -/
def C77_default_claim : Prop :=
  ∀ (name : Str) (vset : List ℚ) (ps : PSpec) (s₀ : RVState) (ops : List RVOp),
    newRV name false vset none ps = .ok s₀ → (s₀.run ops).defProb = true → (s₀.run ops).vset ≠ [] →
    Spec.Valid (s₀.run ops).scale →
    Spec.Unclamped (-Real.log (s₀.run ops).vset.length) (.log 0 0) (s₀.run ops).scale →
    ∃ p, (s₀.run ops).prob = .scalar p ∧
      Spec.value (s₀.run ops).scale p = 1 / (s₀.run ops).vset.length

theorem newRV_default (name : Str) (isBool : Bool) (vset : List ℚ) (hne : vset ≠ []) :
    newRV name isBool vset none .none = .ok { RVState.bernoulli ⟨name, isBool, vset,
      if isBool then 2 else vset.length, .lin 1, .scalar (rescaleE (nlhv (if isBool then 2 else
      vset.length)) complexZero (.lin 1)), true, .scalar (rescaleE (nlhv (if isBool then 2 else
      vset.length)) complexZero (.lin 1)), none⟩ with tran := .none } := by
  have h1 : vset.isEmpty = false := by simpa using hne
  have h2 : setScale none .none = .ok (.lin 1) := by simp [setScale, PSpec.truthy, evalPscale]
  have h3 : evalPscale (PScale.lin 1).spec = .ok (.lin 1) := by simp [PScale.spec, evalPscale]
  have h4 : setScale (some (.lin 1)) .none = .ok (.lin 1) := by
    simp [setScale, PSpec.truthy, h3]
  have h5 : ∀ n, defaultProb n (PScale.lin 1).spec = .ok (rescaleE (nlhv n) complexZero (.lin 1)) := by
    intro n
    simp only [defaultProb, rescale, h3, bind, Except.bind, pure, Except.pure]
    simp [evalPscale]
  simp only [newRV, h1, h2, h4, RVState.setProb, RVState.defaulted, h5, bind, Except.bind, pure,
    Except.pure]
  simp

theorem offset_zero : Spec.offset 0 0 = 0 := by simp [Spec.offset]

theorem default_half : rescaleE (nlhv 2) complexZero (.lin 1) = 1 / 2 := by
  have h := C30_uniform [0, 1] (by simp) .none (.lin 1) (by simp [evalPscale])
    (by norm_num [Spec.Valid]) (by
      refine ⟨?_, .inl (by simp [offset_zero])⟩
      have h1 : 0 ≤ Real.log ((([0, 1] : List ℕ).length : ℕ) : ℝ) := Real.log_natCast_nonneg _
      have h2 : 0 < Real.log npi := logNpi_pos
      simp only [offset_zero, Real.log_one]
      linarith)
  obtain ⟨p, hp, hin, -⟩ := h
  obtain ⟨q, hq, hval⟩ := hin 0 (by simp)
  have hp' : rescaleE (nlhv 2) complexZero (.lin 1) = p := by
    simpa [defaultProb, rescale, evalPscale, bind, Except.bind, pure, Except.pure] using hp
  simp only [rvEvalProb, evalPscale, bind, Except.bind, pure, Except.pure, uniformProb, insideD,
    Except.ok.injEq] at hq
  rw [hp']
  simp at hq
  subst hq
  simpa [Spec.value] using hval

/-- A variable with two values; its scale is assigned as logarithmic. -/
theorem C77_default_claim_fails : ¬ C77_default_claim := by
  intro h
  have hn := newRV_default ['x'] false [0, 1] (by simp)
  rw [bernoulli_not_bool _ rfl] at hn
  have he : evalPscale (.str "log") = .ok (.log 0 0) := by simp [evalPscale, complexZero]
  obtain ⟨p, hp, hval⟩ := h _ _ _ _ [.pscale (.str "log")] hn
    (by simp [RVState.run, RVState.apply, RVState.setPscale, he])
    (by simp [RVState.run, RVState.apply, RVState.setPscale, he])
    (by simp [RVState.run, RVState.apply, RVState.setPscale, he, Spec.Valid])
    (by simp [RVState.run, RVState.apply, RVState.setPscale, he, Spec.Unclamped])
  simp only [RVState.run, RVState.apply, RVState.setPscale, he, List.foldl_cons, List.foldl_nil] at hp hval
  obtain rfl : p = 1 / 2 := by
    have := default_half
    simp at hp
    rw [← hp, this]
  simp only [Spec.value, offset_zero, add_zero, List.length_cons, List.length_nil] at hval
  have h1 : (1 : ℝ) < Real.exp (1 / 2) := Real.one_lt_exp_iff.mpr (by norm_num)
  rw [hval] at h1
  norm_num at h1

/-! ### Transitions -/

theorem apply_tran (s : RVState) (h : RVInv s) (op : RVOp) (hop : ¬ Spec.SetsTran op)
    (hr : ¬ Spec.ResetsProb op) (hd : s.defProb = false ∨ ¬ Spec.SetsSet op) :
    (s.apply op).1.tran = s.tran ∧ (s.defProb = false → (s.apply op).1.defProb = false) := by
  cases op with
  | vset vals =>
      have hd : s.defProb = false := hd.resolve_right fun h => h trivial
      simp only [RVState.apply, RVState.setVset, hd]
      split <;> simp
  | prob p ps =>
      cases p with
      | none => exact absurd trivial hr
      | some q =>
          simp only [RVState.apply]
          rcases hs : setScale (some s.scale) ps with e | b
          · simp [RVState.setProb, hs]
          · rw [setProb_some s q ps b hs]
            obtain ⟨-, -, -, -, h5, h6, -⟩ := bernoulli_fields
              { s with scale := b, prob := q, defProb := false }
            exact ⟨h6, fun _ => h5⟩
  | tran t => exact absurd trivial hop
  | pscale ps =>
      simp only [RVState.apply, RVState.setPscale]
      split <;> simp

/-- C77: a transition remains the one last set, as long as the probability is not set to
none and either it was set or no set is assigned. -/
theorem C77_tran_kept_partial (name : Str) (isBool : Bool) (vset : List ℚ) (prob : Option RVProb)
    (ps : PSpec) (s : RVState) (h : newRV name isBool vset prob ps = .ok s) (l l' : List RVOp)
    (t : RVTran) (ht : ∀ op ∈ l', ¬ Spec.SetsTran op) (hr : ∀ op ∈ l', ¬ Spec.ResetsProb op)
    (hd : (s.run l).defProb = false ∨ ∀ op ∈ l', ¬ Spec.SetsSet op) :
    (s.run (l ++ .tran t :: l')).tran = t := by
  have hi := newRV_inv name isBool vset prob ps s h
  rw [run_append, run_cons]
  have hl := apply_inv _ (.tran t) (run_inv l s hi)
  have h1 : ((s.run l).apply (.tran t)).1.tran = t := rfl
  have h2 : ((s.run l).apply (.tran t)).1.defProb = (s.run l).defProb := rfl
  rw [← h2] at hd
  generalize ((s.run l).apply (.tran t)).1 = u at *
  clear h2
  induction l' generalizing u with
  | nil => exact h1
  | cons op l' ih =>
      obtain ⟨g1, g2⟩ := apply_tran u hl op (ht op (by simp)) (hr op (by simp))
        (hd.imp id fun h => h op (by simp))
      rw [run_cons]
      exact ih (fun o ho => ht o (by simp [ho])) (fun o ho => hr o (by simp [ho])) _
        (hd.imp g2 fun h o ho => h o (List.mem_cons_of_mem _ ho)) (apply_inv u op hl) (g1.trans h1)

/-- The claim without the restriction. -/
def C77_tran_claim : Prop :=
  ∀ (name : Str) (isBool : Bool) (vset : List ℚ) (prob : Option RVProb) (ps : PSpec) (s : RVState),
    newRV name isBool vset prob ps = .ok s → ∀ (t : RVTran) (op : RVOp), ¬ Spec.SetsTran op →
    (s.run [.tran t, op]).tran = t

/-- C77: assigning a set while the probability is the default one replaces the transition
by the default probability. -/
theorem C77_tran_lost (s : RVState) (h : evalPscale s.scale.spec = .ok s.scale)
    (hd : s.defProb = true) (t : RVTran) (vals : List ℚ) (hv : vals ≠ []) :
    ∃ p, (s.run [.tran t, .vset vals]).tran = .scalar p := by
  have he : vals.isEmpty = false := by simpa using hv
  obtain ⟨p, -, hp⟩ := defaulted_eq
    { s with tran := t, vset := vals, len := if s.isBool then 2 else vals.length } h
  refine ⟨p, ?_⟩
  simp only [hd] at hp
  simp only [RVState.run, RVState.apply, RVState.setTran, RVState.setVset, he, List.foldl_cons,
    List.foldl_nil, hd, if_true, if_false, Bool.false_eq_true]
  rw [hp]

theorem C77_tran_claim_fails : ¬ C77_tran_claim := by
  intro h
  have hn := newRV_default ['x'] false [0, 1] (by simp)
  rw [bernoulli_not_bool _ rfl] at hn
  obtain ⟨p, hp⟩ := C77_tran_lost _ (newRV_inv _ _ _ _ _ _ hn).scale rfl (.matrix [[1, 0], [0, 1]])
    [0, 1] (by simp)
  rw [h _ _ _ _ _ _ hn _ (.vset [0, 1]) (fun h => h)] at hp
  simp at hp

/-- C77: matrices are accepted exactly if they have as many rows and columns as there are
values. -/
theorem C77_matrix (s : RVState) (m : List (List ℝ)) :
    ((s.apply (.tran (.matrix m))).2 = none ↔ Spec.Square s.vset.length m) := by
  simp [RVState.apply, RVState.setTran, fitsSet, Spec.Square]

/-- The claim for pairs of matrices. -/
def C77_pair_claim : Prop :=
  ∀ (s : RVState) (f r : List (List ℝ)), (s.apply (.tran (.pair f r))).2 = none →
    Spec.Square s.vset.length f ∧ Spec.Square s.vset.length r

/-- C77: of a pair the first matrix is checked... -/
theorem C77_pair_partial (s : RVState) (f r : List (List ℝ)) :
    ((s.apply (.tran (.pair f r))).2 = none ↔ Spec.Square s.vset.length f) := by
  simp [RVState.apply, RVState.setTran, fitsSet, Spec.Square]

/-- ...and the second is not. -/
theorem C77_pair_claim_fails : ¬ C77_pair_claim := by
  intro h
  have := h ⟨['x'], false, [0], 1, .lin 1, .scalar 1, true, .none, none⟩ [[1]] []
    ((C77_pair_partial _ _ _).mpr ⟨rfl, by simp⟩)
  simpa [Spec.Square] using this.2.1

/-! ### Arrays of probabilities and refusals -/

/-- C77: an array of probabilities is accepted exactly if it has as many entries as there
are values. -/
theorem C77_table (s : RVState) (qs : List ℝ) (ps : PSpec) (b : PScale)
    (hb : setScale (some s.scale) ps = .ok b) :
    ((s.apply (.prob (some (.table qs)) ps)).2 = none ↔ qs.length = s.vset.length) := by
  simp only [RVState.apply, RVState.setProb, hb]
  split <;> simp_all

/-- The claim that probability and set go together: a variable whose operations have all
been accepted has as many probabilities as values. -/
def C77_table_claim : Prop :=
  ∀ (name : Str) (vset : List ℚ) (prob : Option RVProb) (ps : PSpec) (s : RVState) (op : RVOp)
    (qs : List ℝ), newRV name false vset prob ps = .ok s → (s.apply op).2 = none →
    (s.apply op).1.prob = .table qs → qs.length = (s.apply op).1.vset.length

theorem newRV_table (name : Str) (vset : List ℚ) (hne : vset ≠ []) (qs : List ℝ)
    (hq : qs.length = vset.length) : newRV name false vset (some (.table qs)) .none =
      .ok ⟨name, false, vset, vset.length, .lin 1, .table qs, false, .none, none⟩ := by
  have h1 : vset.isEmpty = false := by simpa using hne
  have h2 : setScale none .none = .ok (.lin 1) := by simp [setScale, PSpec.truthy, evalPscale]
  have h3 : evalPscale (PScale.lin 1).spec = .ok (.lin 1) := by simp [PScale.spec, evalPscale]
  have h4 : setScale (some (.lin 1)) .none = .ok (.lin 1) := by
    simp [setScale, PSpec.truthy, h3]
  simp [newRV, h1, h2, h4, RVState.setProb, hq, bind, Except.bind, pure, Except.pure]

/-- A set of three values assigned to a variable with two probabilities. -/
theorem C77_table_claim_fails : ¬ C77_table_claim := by
  intro h
  have := h ['x'] [0, 1] _ _ _ (.vset [0, 1, 2]) [1 / 4, 3 / 4]
    (newRV_table ['x'] [0, 1] (by simp) [1 / 4, 3 / 4] rfl)
    (by simp [RVState.apply, RVState.setVset]) (by simp [RVState.apply, RVState.setVset])
  simp [RVState.apply, RVState.setVset] at this

/-- The claim that what is refused leaves the variable as it was. -/
def C77_refused_claim : Prop :=
  ∀ (s : RVState) (op : RVOp), RVInv s → (s.apply op).2 ≠ none → (s.apply op).1 = s

/-- C77: scales that are refused leave the variable as it was. -/
theorem C77_refused_partial (s : RVState) (h : RVInv s) (ps : PSpec) (p : Option RVProb)
    (hp : ∀ qs, p ≠ some (.table qs)) :
    ((s.apply (.prob p ps)).2 ≠ none → (s.apply (.prob p ps)).1 = s) ∧
    ((s.apply (.pscale ps)).2 ≠ none → (s.apply (.pscale ps)).1 = s) := by
  constructor
  · simp only [RVState.apply]
    rcases hb : setScale (some s.scale) ps with e | b
    · simp [RVState.setProb, hb]
    · cases p with
      | none =>
          obtain ⟨q, -, hq⟩ := setProb_none s h.scale ps b hb
          rw [hq]
          simp
      | some q =>
          cases q with
          | table qs => exact absurd rfl (hp qs)
          | scalar q => simp [RVState.setProb, hb]
          | fn f => simp [RVState.setProb, hb]
  · simp only [RVState.apply, RVState.setPscale]
    split <;> simp

theorem C77_refused_claim_fails : ¬ C77_refused_claim := by
  intro h
  have := h ⟨['x'], false, [0], 1, .lin 1, .scalar 1, true, .none, none⟩ (.tran (.matrix []))
    ⟨by simp [PScale.spec, evalPscale], fun _ => rfl⟩ (by simp [RVState.apply, RVState.setTran, fitsSet])
  have := congrArg RVState.tran this
  simp [RVState.apply, RVState.setTran] at this

/-- C77: nothing else is refused: no transition, a number or functions for it, and numbers or
functions for the probability with any scale. -/
theorem C77_accepted (s : RVState) :
    (∀ t, (∀ m, t ≠ .matrix m) → (∀ m n, t ≠ .pair m n) → (s.apply (.tran t)).2 = none) ∧
    (∀ q ps c, (∀ qs, q ≠ .table qs) → setScale (some s.scale) ps = .ok c →
      (s.apply (.prob (some q) ps)).2 = none) ∧
    (∀ ps c, evalPscale ps = .ok c → (s.apply (.pscale ps)).2 = none) := by
  refine ⟨fun t h1 h2 => ?_, fun q ps c h1 h2 => ?_, fun ps c h => ?_⟩
  · cases t with
    | matrix m => exact absurd rfl (h1 m)
    | pair m n => exact absurd rfl (h2 m n)
    | _ => rfl
  · cases q with
    | table qs => exact absurd rfl (h1 qs)
    | _ => simp [RVState.apply, RVState.setProb, h2]
  · simp [RVState.apply, RVState.setPscale, h]

/-! ### Boolean variables -/

/-- The claim: random draws follow the probability. -/
def C77_draws_claim : Prop :=
  ∀ (name : Str) (prob : Option RVProb) (s : RVState) (ops : List RVOp),
    newRV name true [0, 1] prob .none = .ok s → (∀ op ∈ ops, ¬ Spec.SetsScale op) →
    ∀ b q : ℝ, (s.run ops).drawBias = some b → (s.run ops).prob = .scalar q → b = q

/-- C77: after a scalar that is not close to one half has been set, draws follow it, as
does the probability, on scale one. -/
theorem C77_draws_partial (s : RVState) (hs : s.isBool = true) (b : ℝ) (ps : PSpec) (c : PScale)
    (hc : setScale (some s.scale) ps = .ok c) (hb : 501e-8 < |b - 1 / 2|) :
    (s.apply (.prob (some (.scalar b)) ps)).1.drawBias = some b ∧
    ∃ f, (s.apply (.prob (some (.scalar b)) ps)).1.prob = .fn f ∧
      (∃ a, f (.scalar 1) = .ok a ∧ a.get [] = b) ∧
      (∃ a, f (.scalar 0) = .ok a ∧ a.get [] = 1 - b) ∧
      ∀ xs : List ℚ, ∃ a, f (.array xs) = .ok a ∧ a.shape = [xs.length] ∧
        ∀ i (hi : i < xs.length), (xs[i] = 1 → a.get [i] = b) ∧ (xs[i] = 0 → a.get [i] = 1 - b) := by
  have hcl : isclose b (1 / 2) = false := by
    simp only [isclose, decide_eq_false_iff_not, not_le]
    rw [abs_of_pos (by norm_num : (0 : ℝ) < 1 / 2)]
    refine lt_of_le_of_lt ?_ hb
    norm_num
  simp only [RVState.apply, RVState.setProb, hc, RVState.bernoulli, hs, hcl, RVState.drawBias]
  refine ⟨rfl, _, rfl, ⟨_, rfl, ?_⟩, ⟨_, rfl, ?_⟩, fun xs => ⟨_, rfl, ?_, fun i hi => ?_⟩⟩
  · simp; ring
  · simp
  · simp [listArr]
  · simp only [listArr, List.headD_cons, List.getD_eq_getElem?_getD, List.getElem?_map,
      List.getElem?_eq_getElem hi, Option.map_some, Option.getD_some]
    constructor <;> intro h <;> rw [h] <;> simp
    ring

/-- C77: a fair coin after a biased one still draws with the old bias. -/
theorem C77_draws_claim_fails : ¬ C77_draws_claim := by
  intro h
  have hn := newRV_default ['x'] true [0, 1] (by simp)
  have hh := default_half
  have hclose : isclose (1 / 2) (1 / 2) = true := by simp [isclose]; norm_num
  have h3 : evalPscale (PScale.lin 1).spec = .ok (.lin 1) := by simp [PScale.spec, evalPscale]
  have h4 : setScale (some (.lin 1)) .none = .ok (.lin 1) := by
    simp [setScale, PSpec.truthy, h3]
  have hfar : isclose (9 / 10) (1 / 2) = false := by
    simp only [isclose, decide_eq_false_iff_not, not_le]
    rw [abs_of_pos (by norm_num), abs_of_pos (by norm_num)]
    norm_num
  simp only [if_true, hh, RVState.bernoulli, hclose] at hn
  have := h ['x'] none _ [.prob (some (.scalar (9 / 10))) .none, .prob (some (.scalar (1 / 2))) .none]
    hn (by simp [Spec.SetsScale]) (9 / 10) (1 / 2)
    (by simp only [RVState.run, RVState.apply, RVState.setProb, h4, RVState.bernoulli, hfar, hclose,
      RVState.drawBias, List.foldl_cons, List.foldl_nil, if_true, Bool.false_eq_true, if_false])
    (by simp only [RVState.run, RVState.apply, RVState.setProb, h4, RVState.bernoulli, hfar, hclose,
      List.foldl_cons, List.foldl_nil, if_true, Bool.false_eq_true, if_false])
  norm_num at this

/-- C77: a Boolean variable without a probability gives one half to each value, on scale
one, and draws from its set... -/
theorem C77_bool_default_partial (name : Str) :
    ∃ s, newRV name true [0, 1] none .none = .ok s ∧ s.defProb = true ∧ s.prob = .scalar (1 / 2) ∧
      s.scale = .lin 1 ∧ s.drawBias = none := by
  have hclose : isclose (1 / 2) (1 / 2) = true := by simp [isclose]; norm_num
  have hn := newRV_default name true [0, 1] (by simp)
  simp only [if_true, default_half, RVState.bernoulli, hclose] at hn
  exact ⟨_, hn, rfl, rfl, rfl, rfl⟩

/-- ...but on the logarithmic scale the logarithm of one half is taken for the bias of a
Bernoulli distribution: False gets a probability above one. -/
theorem C77_bool_log_fails (name : Str) :
    ∃ s f a, newRV name true [0, 1] none (.str "log") = .ok s ∧ s.defProb = true ∧ s.prob = .fn f ∧
      f (.scalar 0) = .ok a ∧ 1 < Spec.value s.scale (a.get []) := by
  have he : evalPscale (.str "log") = .ok (.log 0 0) := by simp [evalPscale, complexZero]
  have h2 : setScale none (.str "log") = .ok (.log 0 0) := by simp [setScale, PSpec.truthy, he]
  have h3 : evalPscale (PScale.log 0 0).spec = .ok (.log 0 0) := by
    simp [PScale.spec, evalPscale, complexZero]
  have h4 : setScale (some (.log 0 0)) .none = .ok (.log 0 0) := by
    simp [setScale, PSpec.truthy, h3]
  have h5 : defaultProb 2 (PScale.log 0 0).spec = .ok (-Real.log 2) := by
    have := nlhv_eq 2 (by norm_num)
    simp only [defaultProb, rescale, h3, he, bind, Except.bind, pure, Except.pure, this, rescaleE]
    simp
  have hl : 0 < Real.log 2 := Real.log_pos (by norm_num)
  have hfar : isclose (-Real.log 2) (1 / 2) = false := by
    simp only [isclose, decide_eq_false_iff_not, not_le]
    rw [abs_of_neg (by linarith : -Real.log 2 - 1 / 2 < 0), abs_of_pos (by norm_num : (0:ℝ) < 1/2)]
    have : (1e-8 + 1e-5 * (1/2) : ℝ) < 1/2 := by norm_num
    linarith
  refine ⟨⟨name, true, [0, 1], 2, .log 0 0, .fn (bernoulliFn (-Real.log 2)), true, .none,
    some (-Real.log 2)⟩, _, _, ?_, rfl, rfl, rfl, ?_⟩
  · simp only [newRV, h2, h4, RVState.setProb, RVState.defaulted, h5, RVState.bernoulli, hfar, bind,
      Except.bind, pure, Except.pure, List.isEmpty_cons, if_true, Bool.false_eq_true, if_false]
  · simp only [Spec.value, offset_zero, add_zero]
    rw [Real.one_lt_exp_iff]
    simp
    linarith

/-! ### Cases of the hypotheses -/

/-- A variable of two values, given three others, a function as probability, none, and a
matrix that does not fit: the hypotheses of `C77_default_partial`. -/
example : ∃ s₀, newRV ['x'] false [0, 1] none .none = .ok s₀ ∧
    ∃ ops : List RVOp, ops = [.vset [1, 2, 3], .prob (some (.fn fun _ => .error .type)) .none,
      .prob none .none, .tran (.matrix [[1]])] ∧ (∀ op ∈ ops, ¬ Spec.SetsScale op) ∧
    (s₀.run ops).defProb = true ∧ (s₀.run ops).vset = [1, 2, 3] ∧
    Spec.GoodName (fun _ => ['v']) (s₀.run ops).toDRV ∧ (s₀.run ops).scale = .lin 1 := by
  have hn := newRV_default ['x'] false [0, 1] (by simp)
  refine ⟨_, hn, _, rfl, by simp [Spec.SetsScale], ?_, ?_, ?_, ?_⟩
  · exact (C77_def_prob ['x'] false [0, 1] none .none _ hn).2
      [.vset [1, 2, 3], .prob (some (.fn fun _ => .error .type)) .none] none .none
      [.tran (.matrix [[1]])] (fun h => absurd rfl h.1) (by simp [Spec.SetsProb])
  · exact C77_set _ _ _ _ _ _ hn _
  · have hf := (run_fields [.vset [1, 2, 3], .prob (some (.fn fun _ => .error .type)) .none,
      .prob none .none, .tran (.matrix [[1]])] _ (newRV_inv _ _ _ _ _ _ hn)).2.1
    have hname : (RVState.toDRV (RVState.run { RVState.bernoulli ⟨['x'], false, [0, 1],
        if false = true then 2 else ([0, 1] : List ℚ).length, .lin 1, .scalar (rescaleE (nlhv (if
        false = true then 2 else ([0, 1] : List ℚ).length)) complexZero (.lin 1)), true, .scalar
        (rescaleE (nlhv (if false = true then 2 else ([0, 1] : List ℚ).length)) complexZero (.lin 1)),
        none⟩ with tran := .none } [.vset [1, 2, 3], .prob (some (.fn fun _ => .error .type)) .none,
        .prob none .none, .tran (.matrix [[1]])])).name = ['x'] := hf
    constructor <;> first | (rw [hname]; decide) | simp
  · have h3 : evalPscale (PScale.lin 1).spec = .ok (.lin 1) := by simp [PScale.spec, evalPscale]
    have h4 : setScale (some (.lin 1)) .none = .ok (.lin 1) := by
      simp [setScale, PSpec.truthy, h3]
    have h5 : ∀ n, ∃ q, defaultProb n (PScale.lin 1).spec = .ok q := fun n => defaultProb_ok n _ h3
    obtain ⟨q, hq⟩ := h5 3
    simp [RVState.run, RVState.apply, RVState.setVset, RVState.bernoulli, RVState.defaulted, hq,
      RVState.setProb, h4, RVState.setTran]

/-- The same variable after its scale was assigned, and then its set: the hypotheses of
`C77_default_renewed`. -/
example : ∃ s₀, newRV ['x'] false [0, 1] none .none = .ok s₀ ∧
    (s₀.run [.pscale (.str "log")]).defProb = true ∧
    (s₀.run [.pscale (.str "log"), .vset [1, 2, 3]]).scale = .log 0 0 ∧
    (s₀.run [.pscale (.str "log"), .vset [1, 2, 3]]).vset = [1, 2, 3] ∧
    (s₀.run [.pscale (.str "log"), .vset [1, 2, 3]]).name = ['x'] ∧ Spec.Valid (.log 0 0) ∧
    Spec.Unclamped (-Real.log 3) (.log 0 0) (.log 0 0) := by
  have hn := newRV_default ['x'] false [0, 1] (by simp)
  rw [bernoulli_not_bool _ rfl] at hn
  have he : evalPscale (.str "log") = .ok (.log 0 0) := by simp [evalPscale, complexZero]
  have h3 : evalPscale (PScale.log 0 0).spec = .ok (.log 0 0) := by
    simp [PScale.spec, evalPscale, complexZero]
  obtain ⟨q, hq⟩ := defaultProb_ok 3 _ h3
  refine ⟨_, hn, ?_, ?_, ?_, ?_, by simp [Spec.Valid], by simp [Spec.Unclamped]⟩ <;>
    simp [RVState.run, RVState.apply, RVState.setVset, RVState.setPscale, he, RVState.defaulted, hq]

/-- A table of two probabilities for two values is accepted, and kept when the transition
and then the set are assigned. -/
example : ∃ s₀, newRV ['x'] false [0, 1] (some (.table [1 / 4, 3 / 4])) .none = .ok s₀ ∧
    (s₀.run [.tran (.matrix [[1, 0], [0, 1]]), .vset [5, 6]]).prob = .table [1 / 4, 3 / 4] ∧
    (s₀.run [.tran (.matrix [[1, 0], [0, 1]]), .vset [5, 6]]).tran = .matrix [[1, 0], [0, 1]] := by
  refine ⟨_, newRV_table ['x'] [0, 1] (by simp) _ rfl, ?_, ?_⟩
  · simp [RVState.run, RVState.apply, RVState.setVset, RVState.setTran]
  · exact C77_tran_kept_partial _ _ _ _ _ _ (newRV_table ['x'] [0, 1] (by simp) _ rfl) [] [.vset [5, 6]]
      _ (by simp [Spec.SetsTran]) (by simp [Spec.ResetsProb]) (.inl rfl)

/-- Nine tenths is far enough from one half. -/
example : (501e-8 : ℝ) < |9 / 10 - 1 / 2| := by
  rw [abs_of_pos (by norm_num)]; norm_num

end Probayes
