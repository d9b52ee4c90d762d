/-
C100: the settings of a continuous random variable, after any sequence of calls, are those it was
last told.
-/
import Verif.Model.RVContState
import Verif.Props.RVCont
import Verif.Props.RVState

namespace Probayes

/-! ### What was last told -/

/-- The last setting of some kind among the calls, or else the first one. -/
def Spec.newest {α : Type} (kind : COp → Option α) (init : α) (ops : List COp) : α :=
  (ops.filterMap kind).getLast?.getD init

/-- Assignments to `vset`. -/
def Spec.setGiven : COp → Option BSet
  | .vset v => some v
  | _ => none

/-- Calls of `set_ufun`. -/
def Spec.transformGiven : COp → Option UFun
  | .ufun u => some u
  | _ => none

/-- Calls of `set_pfun`. -/
def Spec.cumulativeGiven : COp → Option (Option ((ℝ → ℝ) × (ℝ → ℝ)))
  | .pfun p => some p
  | _ => none

/-- Calls of `set_tfun`. -/
def Spec.conditionalGiven : COp → Option (Option ((ℝ → EReal → ℝ) × (ℝ → ℝ → ℝ)))
  | .tfun t => some t
  | _ => none

/-- Calls of `set_tran`. -/
def Spec.transitionGiven : COp → Option CTran
  | .tran t => some t
  | _ => none

/-- The transform is taken away. -/
def Spec.Removes (op : COp) : Prop := op = .ufun none

/-- A set or a transform is given. -/
def Spec.Renews (op : COp) : Prop := (∃ v, op = .vset v) ∨ ∃ fg, op = .ufun (some fg)

/-- Whenever the transform has been taken away, a set or a transform has been given afterwards. -/
def Spec.Settled (ops : List COp) : Prop :=
  ∀ pre op post, ops = pre ++ op :: post → Spec.Removes op → ∃ o ∈ post, Spec.Renews o

/-- No call was refused. -/
def Spec.Unrefused (s : CState) (ops : List COp) : Prop :=
  ∀ pre op post, ops = pre ++ op :: post → ((s.run pre).apply op).2 = none

/-! ### Lemmas -/

theorem newest_nil {α : Type} (kind : COp → Option α) (init : α) : Spec.newest kind init [] = init := rfl

theorem newest_snoc {α : Type} (kind : COp → Option α) (init : α) (ops : List COp) (op : COp) :
    Spec.newest kind init (ops ++ [op]) = (kind op).getD (Spec.newest kind init ops) := by
  unfold Spec.newest
  rw [List.filterMap_append]
  rcases h : kind op with _ | a
  · simp [h]
  · simp [h]

theorem crun_snoc (s : CState) (ops : List COp) (op : COp) :
    s.run (ops ++ [op]) = ((s.run ops).apply op).1 := by
  simp [CState.run]

theorem crun_append (s : CState) (l l' : List COp) : s.run (l ++ l') = (s.run l).run l' := by
  simp [CState.run]

theorem crun_cons (s : CState) (op : COp) (l : List COp) : s.run (op :: l) = (s.apply op).1.run l := rfl

/-- The default probability changes probability and transition only. -/
theorem default_fields (s : CState) : s.default.1.name = s.name ∧ s.default.1.var = s.var ∧
    s.default.1.ufun = s.ufun ∧ s.default.1.ulo = s.ulo ∧ s.default.1.uhi = s.uhi ∧ s.default.1.len = s.len ∧
    s.default.1.scale = s.scale ∧ s.default.1.pfun = s.pfun ∧ s.default.1.tfun = s.tfun := by
  unfold CState.default
  split <;> simp

theorem setVset_fields (s : CState) (v : BSet) : (s.setVset v).1.name = s.name ∧
    (s.setVset v).1.var = FloatVar.make v.toFSet ∧ (s.setVset v).1.ufun = s.ufun ∧
    (s.setVset v).1.ulo = s.ufun.fwd (FloatVar.make v.toFSet).lo.toReal ∧
    (s.setVset v).1.uhi = s.ufun.fwd (FloatVar.make v.toFSet).hi.toReal ∧
    (s.setVset v).1.scale = s.scale ∧ (s.setVset v).1.pfun = s.pfun ∧ (s.setVset v).1.tfun = s.tfun := by
  unfold CState.setVset
  simp only
  split
  · obtain ⟨h1, h2, h3, h4, h5, -, h7, h8, h9⟩ :=
      default_fields (CState.evalUlims { s with var := FloatVar.make v.toFSet })
    rw [h1, h2, h3, h4, h5, h7, h8, h9]
    simp [CState.evalUlims]
  · simp [CState.evalUlims]

theorem setUfun_fields (s : CState) (u : UFun) : (s.setUfun u).1.name = s.name ∧
    (s.setUfun u).1.var = s.var ∧ (s.setUfun u).1.ufun = u ∧
    (s.setUfun u).1.scale = s.scale ∧ (s.setUfun u).1.pfun = s.pfun ∧ (s.setUfun u).1.tfun = s.tfun ∧
    (u ≠ none → (s.setUfun u).1.ulo = u.fwd s.var.lo.toReal ∧ (s.setUfun u).1.uhi = u.fwd s.var.hi.toReal) ∧
    (u = none → (s.setUfun u).1.ulo = s.ulo ∧ (s.setUfun u).1.uhi = s.uhi) := by
  rcases u with _ | fg
  · simp [CState.setUfun]
  · have key : (s.setUfun (some fg)).1 =
        if s.defProb then (CState.evalUlims { s with ufun := some fg }).default.1
        else CState.evalUlims { s with ufun := some fg } := by
      unfold CState.setUfun
      have hd : (CState.evalUlims { s with ufun := some fg }).defProb = s.defProb := rfl
      simp only [hd]
      by_cases h : s.defProb = true
      · simp only [h, if_true]
        split <;> rename_i heq <;> rw [heq]
      · simp only [h]
        rfl
    rw [key]
    split
    · obtain ⟨h1, h2, h3, h4, h5, -, h7, h8, h9⟩ := default_fields (CState.evalUlims { s with ufun := some fg })
      rw [h1, h2, h3, h4, h5, h7, h8, h9]
      simp [CState.evalUlims]
    · simp [CState.evalUlims]

theorem setProb_fields (s : CState) (p : Option CProb) (ps : PSpec) : (s.setProb p ps).1.name = s.name ∧
    (s.setProb p ps).1.var = s.var ∧ (s.setProb p ps).1.ufun = s.ufun ∧ (s.setProb p ps).1.ulo = s.ulo ∧
    (s.setProb p ps).1.uhi = s.uhi ∧ (s.setProb p ps).1.len = s.len ∧
    (s.setProb p ps).1.pfun = s.pfun ∧ (s.setProb p ps).1.tfun = s.tfun := by
  unfold CState.setProb
  split
  · simp
  · rename_i b _
    rcases p with _ | q
    · obtain ⟨h1, h2, h3, h4, h5, h6, -, h8, h9⟩ := default_fields { s with scale := b }
      simp only
      rw [h1, h2, h3, h4, h5, h6, h8, h9]
      simp
    · simp

theorem setPscale_fields (s : CState) (ps : PSpec) : ∃ b, (s.setPscale ps).1 = { s with scale := b } := by
  unfold CState.setPscale
  split
  · exact ⟨s.scale, rfl⟩
  · exact ⟨_, rfl⟩

theorem new_fields (name : Str) (v : BSet) (prob : Option CProb) (ps : PSpec) (s : CState)
    (h : newCState name v prob ps = .ok s) : s.name = name ∧ s.var = FloatVar.make v.toFSet ∧ s.ufun = none ∧
    s.ulo = s.var.lo.toReal ∧ s.uhi = s.var.hi.toReal ∧ s.pfun = none ∧ s.tfun = none ∧ s.tran = .none := by
  unfold newCState at h
  rcases hb : setScale none ps with e | b
  · rw [hb] at h; cases h
  · rw [hb] at h
    simp only [bind, Except.bind] at h
    obtain ⟨h1, h2, h3, h4, h5, -, h7, -⟩ := setProb_fields (CState.evalUlims
      ⟨name, FloatVar.make v.toFSet, none, 0, 0, 0, b, .scalar 0, false, none, .none, none⟩) prob .none
    split at h
    · cases h
    · rename_i s' heq
      rw [heq] at h1 h2 h3 h4 h5 h7
      cases h
      refine ⟨h1, h2, h3, ?_, ?_, h7, rfl, rfl⟩
      · rw [h4]; show _ = s'.var.lo.toReal; rw [h2]; rfl
      · rw [h5]; show _ = s'.var.hi.toReal; rw [h2]; rfl

/-! ### The settings -/

section
variable (name : Str) (v : BSet) (prob : Option CProb) (ps : PSpec) (s : CState)
  (hs : newCState name v prob ps = .ok s)
include hs

/-- C100: after any sequence of calls, refused or not, the set, the transform and the functions
are those last given. -/
theorem C100_settings (ops : List COp) :
    (s.run ops).var = FloatVar.make (Spec.newest Spec.setGiven v ops).toFSet ∧
    (s.run ops).ufun = Spec.newest Spec.transformGiven none ops ∧
    (s.run ops).pfun = Spec.newest Spec.cumulativeGiven none ops ∧
    (s.run ops).tfun = Spec.newest Spec.conditionalGiven none ops := by
  obtain ⟨-, h2, h3, -, -, h6, h7, -⟩ := new_fields name v prob ps s hs
  induction ops using List.reverseRecOn with
  | nil => exact ⟨h2, h3, h6, h7⟩
  | append_singleton ops op ih =>
    obtain ⟨i1, i2, i3, i4⟩ := ih
    simp only [crun_snoc, newest_snoc]
    cases op with
    | vset w =>
      obtain ⟨-, k2, k3, -, -, -, k7, k8⟩ := setVset_fields (s.run ops) w
      exact ⟨k2, k3.trans i2, k7.trans i3, k8.trans i4⟩
    | ufun u =>
      obtain ⟨-, k2, k3, -, k5, k6, -, -⟩ := setUfun_fields (s.run ops) u
      exact ⟨k2.trans i1, k3, k5.trans i3, k6.trans i4⟩
    | pfun p => exact ⟨i1, i2, rfl, i4⟩
    | tran t => exact ⟨i1, i2, i3, i4⟩
    | tfun t => exact ⟨i1, i2, i3, rfl⟩
    | prob p q =>
      obtain ⟨-, k2, k3, -, -, -, k7, k8⟩ := setProb_fields (s.run ops) p q
      exact ⟨k2.trans i1, k3.trans i2, k7.trans i3, k8.trans i4⟩
    | pscale q =>
      obtain ⟨b, hb⟩ := setPscale_fields (s.run ops) q
      simp only [CState.apply, hb]
      exact ⟨i1, i2, i3, i4⟩

omit hs in
theorem settled_snoc (ops : List COp) (op : COp) (h : Spec.Settled (ops ++ [op])) :
    ¬ Spec.Removes op ∧ (¬ Spec.Renews op → Spec.Settled ops) := by
  refine ⟨fun hr => ?_, fun hn pre o post ho hr => ?_⟩
  · obtain ⟨o, ho, -⟩ := h ops op [] rfl hr
    cases ho
  · obtain ⟨o', ho', hr'⟩ := h pre o (post ++ [op]) (by rw [ho]; simp) hr
    rcases List.mem_append.mp ho' with hm | hm
    · exact ⟨o', hm, hr'⟩
    · rw [List.mem_singleton] at hm
      exact absurd (hm ▸ hr') hn

/-- The limits as stored are those of the set through the transform. -/
theorem settled_limits (ops : List COp) (h : Spec.Settled ops) :
    (s.run ops).ulo = (s.run ops).ufun.fwd (s.run ops).var.lo.toReal ∧
    (s.run ops).uhi = (s.run ops).ufun.fwd (s.run ops).var.hi.toReal := by
  obtain ⟨-, -, h3, h4, h5, -, -, -⟩ := new_fields name v prob ps s hs
  induction ops using List.reverseRecOn with
  | nil => rw [show s.run [] = s from rfl, h3]; exact ⟨h4, h5⟩
  | append_singleton ops op ih =>
    obtain ⟨g1, g2⟩ := settled_snoc ops op h
    simp only [crun_snoc]
    have rest : ¬ Spec.Renews op → _ := fun hn => ih (g2 hn)
    cases op with
    | vset w =>
      obtain ⟨-, k2, k3, k4, k5, -⟩ := setVset_fields (s.run ops) w
      simp only [CState.apply, k2, k3, k4, k5, and_self]
    | ufun u =>
      have hu : u ≠ none := fun hu => g1 (by rw [hu]; rfl)
      obtain ⟨-, k2, k3, -, -, -, k7, -⟩ := setUfun_fields (s.run ops) u
      simp only [CState.apply, k2, k3]
      exact k7 hu
    | pfun p => exact rest (by rintro (⟨_, h⟩ | ⟨_, h⟩) <;> cases h)
    | tran t => exact rest (by rintro (⟨_, h⟩ | ⟨_, h⟩) <;> cases h)
    | tfun t => exact rest (by rintro (⟨_, h⟩ | ⟨_, h⟩) <;> cases h)
    | prob p q =>
      obtain ⟨-, k2, k3, k4, k5, -⟩ := setProb_fields (s.run ops) p q
      simp only [CState.apply, k2, k3, k4, k5]
      exact rest (by rintro (⟨_, h⟩ | ⟨_, h⟩) <;> cases h)
    | pscale q =>
      obtain ⟨b, hb⟩ := setPscale_fields (s.run ops) q
      simp only [CState.apply, hb]
      exact rest (by rintro (⟨_, h⟩ | ⟨_, h⟩) <;> cases h)

end

theorem toFSet_finite (v : BSet) : (FloatVar.make v.toFSet).lo = ((min v.a v.b : ℝ) : EReal) ∧
    (FloatVar.make v.toFSet).hi = ((max v.a v.b : ℝ) : EReal) := by
  simp only [BSet.toFSet, FloatVar.make, FSet.toList, EReal.coe_lt_coe_iff]
  split
  · rename_i h
    exact ⟨by rw [min_eq_right h.le], by rw [max_eq_left h.le]⟩
  · rename_i h
    exact ⟨by rw [min_eq_left (not_lt.mp h)], by rw [max_eq_right (not_lt.mp h)]⟩

/-- The variable with the settings last given, made at once: the rest is of no account for its
values. -/
noncomputable def Spec.asTold (w : CRV) (v : BSet) (ops : List COp) : CRV :=
  { w with
    var := FloatVar.make (Spec.newest Spec.setGiven v ops).toFSet
    ufun := Spec.newest Spec.transformGiven none ops
    pfun := Spec.newest Spec.cumulativeGiven none ops }

/-- C100 as asked: (i) the values a variable gives are those of a variable with the settings last
given, (ii) a setting that is refused changes nothing, (iii) the transition is that last given. -/
def C100_claim : Prop :=
  ∀ (name : Str) (v : BSet) (prob : Option CProb) (ps : PSpec) (s : CState),
    newCState name v prob ps = .ok s → ∀ ops : List COp,
    (∀ (w : CRV) (usePfun : Bool) (n : ℤ) (rand : ℕ → ℝ),
      (s.run ops).evaluate usePfun n rand = (Spec.asTold w v ops).evaluate usePfun (.count n) rand) ∧
    (∀ op e, ((s.run ops).apply op).2 = some e → ((s.run ops).apply op).1 = s.run ops) ∧
    (∀ t, (ops.filterMap Spec.transitionGiven).getLast? = some t → (s.run ops).tran = t)

section
variable (name : Str) (v : BSet) (prob : Option CProb) (ps : PSpec) (s : CState)
  (hs : newCState name v prob ps = .ok s)
include hs

/-- C100: the values are those of a variable with the settings last given, if a set or transform
has been given after every removal of the transform.  Missing: values after a removal. -/
theorem C100_values_partial (ops : List COp) (h : Spec.Settled ops) (w : CRV) (usePfun : Bool) (n : ℤ)
    (rand : ℕ → ℝ) :
    (s.run ops).evaluate usePfun n rand = (Spec.asTold w v ops).evaluate usePfun (.count n) rand := by
  obtain ⟨h1, h2, h3, -⟩ := C100_settings name v prob ps s hs ops
  obtain ⟨h4, h5⟩ := settled_limits name v prob ps s hs ops h
  obtain ⟨f1, f2⟩ := toFSet_finite (Spec.newest Spec.setGiven v ops)
  obtain ⟨a, b, hm⟩ := make_spec _ _ _ f1 f2
  rw [h1, h2] at h4 h5
  unfold CState.evaluate CRV.evaluate Spec.asTold
  rw [h1, h2, h3, h4, h5]
  simp only [hm]
  have hfin : FloatVar.isfinite ⟨a, b, ((min (Spec.newest Spec.setGiven v ops).a
      (Spec.newest Spec.setGiven v ops).b : ℝ) : EReal), ((max (Spec.newest Spec.setGiven v ops).a
      (Spec.newest Spec.setGiven v ops).b : ℝ) : EReal)⟩ := by
    simp [FloatVar.isfinite]
  have plain : ∀ u : UFun, (Except.ok ((uniform (u.fwd (min (Spec.newest Spec.setGiven v ops).a
      (Spec.newest Spec.setGiven v ops).b)) (u.fwd (max (Spec.newest Spec.setGiven v ops).a
      (Spec.newest Spec.setGiven v ops).b)) n a.excl b.excl rand).toVArg.map u.inv) : Py (VArg ℝ)) =
      (do return (← FloatVar.evaluate ⟨a, b, ((min (Spec.newest Spec.setGiven v ops).a
        (Spec.newest Spec.setGiven v ops).b : ℝ) : EReal), ((max (Spec.newest Spec.setGiven v ops).a
        (Spec.newest Spec.setGiven v ops).b : ℝ) : EReal)⟩ u n rand).toVArg) := by
    intro u
    rw [evaluate_eq]
    cases uniform (u.fwd (min (Spec.newest Spec.setGiven v ops).a (Spec.newest Spec.setGiven v ops).b))
      (u.fwd (max (Spec.newest Spec.setGiven v ops).a (Spec.newest Spec.setGiven v ops).b)) n a.excl b.excl rand <;>
      rfl
  simp only [EReal.toReal_coe]
  cases usePfun with
  | false => exact plain _
  | true =>
    cases Spec.newest Spec.cumulativeGiven none ops with
    | none => exact plain _
    | some FG =>
      simp only [evaluatePfun, hfin, not_true_eq_false, if_false]

/-- C100: in particular the values asked for by `{n}` are members of the set last given, whatever
was set before. -/
theorem C100_members_partial (ops : List COp) (h : Spec.Settled ops)
    (hd : (Spec.newest Spec.setGiven v ops).a < (Spec.newest Spec.setGiven v ops).b)
    (hi : Spec.Inverts (Spec.newest Spec.transformGiven none ops) (Spec.newest Spec.setGiven v ops).a
      (Spec.newest Spec.setGiven v ops).b) (n : ℕ) (hn : 1 ≤ n) (rand : ℕ → ℝ) :
    ∃ xs, (s.run ops).evaluate false n rand = .ok (.array xs) ∧ xs.length = n ∧
      ∀ x ∈ xs, Spec.MemF (Spec.newest Spec.setGiven v ops).toFSet x := by
  obtain ⟨f1, f2⟩ := toFSet_finite (Spec.newest Spec.setGiven v ops)
  rw [min_eq_left hd.le] at f1
  rw [max_eq_right hd.le] at f2
  obtain ⟨xs, h1, h2, h3⟩ := C09_evaluate_grid _ _ _ f1 f2 hd _ hi n hn rand
  refine ⟨xs, ?_, h2, h3⟩
  rw [C100_values_partial name v prob ps s hs ops h (s.toCRV) false n rand]
  simp only [CRV.evaluate, Spec.asTold, h1]
  rfl

/-- C100: after the transform has been taken away, with no set or transform given since, the
values are drawn between the transformed limits, and not transformed back. -/
theorem C100_removed (pre post : List COp) (hpre : Spec.Settled pre) (hpost : ∀ o ∈ post, ¬ Spec.Renews o)
    (n : ℤ) (rand : ℕ → ℝ) :
    ∀ f g, Spec.newest Spec.transformGiven none pre = some (f, g) →
    (s.run (pre ++ .ufun none :: post)).evaluate false n rand =
      .ok (uniform (f (FloatVar.make (Spec.newest Spec.setGiven v pre).toFSet).lo.toReal)
        (f (FloatVar.make (Spec.newest Spec.setGiven v pre).toFSet).hi.toReal) n
        (FloatVar.make (Spec.newest Spec.setGiven v pre).toFSet).s0.excl
        (FloatVar.make (Spec.newest Spec.setGiven v pre).toFSet).s1.excl rand).toVArg := by
  intro f g hfg
  obtain ⟨h1, h2, -, -⟩ := C100_settings name v prob ps s hs pre
  obtain ⟨h4, h5⟩ := settled_limits name v prob ps s hs pre hpre
  rw [h1, h2, hfg] at h4 h5
  have hrun : s.run (pre ++ .ufun none :: post) = (s.run (pre ++ [.ufun none])).run post := by
    rw [← crun_append]; simp
  have key : ∀ post : List COp, (∀ o ∈ post, ¬ Spec.Renews o) →
      (((s.run (pre ++ [.ufun none])).run post).ulo = (s.run pre).ulo ∧
      ((s.run (pre ++ [.ufun none])).run post).uhi = (s.run pre).uhi) ∧
      ((s.run (pre ++ [.ufun none])).run post).var = (s.run pre).var ∧
      ((s.run (pre ++ [.ufun none])).run post).ufun = none := by
    intro post hp
    induction post using List.reverseRecOn with
    | nil => rw [crun_snoc]; exact ⟨⟨rfl, rfl⟩, rfl, rfl⟩
    | append_singleton post op ih =>
      obtain ⟨⟨i1, i2⟩, i3, i4⟩ := ih fun o ho => hp o (by simp [ho])
      have hn := hp op (by simp)
      rw [crun_snoc]
      cases op with
      | vset w => exact absurd (Or.inl ⟨w, rfl⟩) hn
      | ufun u =>
        rcases u with _ | fg
        · exact ⟨⟨i1, i2⟩, i3, rfl⟩
        · exact absurd (Or.inr ⟨fg, rfl⟩) hn
      | pfun p => exact ⟨⟨i1, i2⟩, i3, i4⟩
      | tran t => exact ⟨⟨i1, i2⟩, i3, i4⟩
      | tfun t => exact ⟨⟨i1, i2⟩, i3, i4⟩
      | prob p q =>
        obtain ⟨-, k2, k3, k4, k5, -⟩ := setProb_fields ((s.run (pre ++ [.ufun none])).run post) p q
        exact ⟨⟨k4.trans i1, k5.trans i2⟩, k2.trans i3, k3.trans i4⟩
      | pscale q =>
        obtain ⟨b, hb⟩ := setPscale_fields ((s.run (pre ++ [.ufun none])).run post) q
        simp only [CState.apply, hb]
        exact ⟨⟨i1, i2⟩, i3, i4⟩
  obtain ⟨⟨k1, k2⟩, k3, k4⟩ := key post hpost
  rw [hrun]
  unfold CState.evaluate
  rw [k1, k2, k3, k4, h4, h5, h1]
  simp only [UFun.fwd, UFun.inv]
  congr 1
  cases uniform _ _ n _ _ rand with
  | scalar x => rfl
  | array xs => simp [SA.toVArg, VArg.map]

end

/-! ### Probability and transition -/

/-- The scale of a state is one a scale evaluates to, and the length is that between the limits. -/
structure CInv (s : CState) : Prop where
  scale : evalPscale s.scale.spec = .ok s.scale
  len : s.len = max s.ulo s.uhi - min s.ulo s.uhi

theorem cdefault_ok (s : CState) (h : evalPscale s.scale.spec = .ok s.scale) :
    ∃ p, rescale (-logProb s.len) (.str "log") s.scale.spec = .ok p ∧
      s.default = ({ s with prob := .scalar p, tran := .scalar p, defProb := true }, none) := by
  have h0 : evalPscale (.str "log") = .ok complexZero := by simp [evalPscale]
  have h1 : ∃ p, rescale (-logProb s.len) (.str "log") s.scale.spec = .ok p :=
    ⟨_, by simp only [rescale, h0, h, bind, Except.bind, pure, Except.pure]; rfl⟩
  obtain ⟨p, hp⟩ := h1
  exact ⟨p, hp, by simp [CState.default, hp]⟩

theorem setVset_eq (s : CState) (h : CInv s) (v : BSet) : ∃ t : CState, CInv t ∧ t.scale = s.scale ∧
    t.prob = s.prob ∧ t.tran = s.tran ∧ t.defProb = s.defProb ∧
    s.setVset v = if s.defProb then t.default else (t, none) :=
  ⟨CState.evalUlims { s with var := FloatVar.make v.toFSet }, ⟨h.scale, rfl⟩, rfl, rfl, rfl, rfl, rfl⟩

theorem setUfun_eq (s : CState) (h : CInv s) (fg : (ℝ → ℝ) × (ℝ → ℝ)) : ∃ t : CState, CInv t ∧
    t.scale = s.scale ∧ t.prob = s.prob ∧ t.tran = s.tran ∧ t.defProb = s.defProb ∧
    s.setUfun (some fg) = ((if s.defProb then t.default else (t, none)).1,
      if s.pfun.isSome then some .assertion else none) := by
  refine ⟨CState.evalUlims { s with ufun := some fg }, ⟨h.scale, rfl⟩, rfl, rfl, rfl, rfl, ?_⟩
  have hd : (CState.evalUlims { s with ufun := some fg }).defProb = s.defProb := rfl
  unfold CState.setUfun
  simp only [hd]
  by_cases h' : s.defProb = true
  · obtain ⟨p, -, hp⟩ := cdefault_ok (CState.evalUlims { s with ufun := some fg }) h.scale
    rw [if_pos h', hp]
    rfl
  · rw [if_neg h']
    rfl

theorem capply_inv (s : CState) (op : COp) (h : CInv s) : CInv (s.apply op).1 := by
  have hdef : ∀ t : CState, CInv t → CInv t.default.1 := by
    intro t ht
    obtain ⟨p, -, hp⟩ := cdefault_ok t ht.scale
    rw [hp]
    exact ⟨ht.scale, ht.len⟩
  cases op with
  | vset v =>
    obtain ⟨t, ht, -, -, -, -, he⟩ := setVset_eq s h v
    simp only [CState.apply, he]
    split
    · exact hdef t ht
    · exact ht
  | ufun u =>
    rcases u with _ | fg
    · exact ⟨h.scale, h.len⟩
    · obtain ⟨t, ht, -, -, -, -, he⟩ := setUfun_eq s h fg
      simp only [CState.apply, he]
      split
      · exact hdef t ht
      · exact ht
  | pfun p => exact ⟨h.scale, h.len⟩
  | tran t => exact ⟨h.scale, h.len⟩
  | tfun t => exact ⟨h.scale, h.len⟩
  | prob p ps =>
    simp only [CState.apply, CState.setProb]
    rcases hb : setScale (some s.scale) ps with e | b
    · exact h
    · rcases p with _ | q
      · exact hdef _ ⟨setScale_stable _ _ _ hb, h.len⟩
      · exact ⟨setScale_stable _ _ _ hb, h.len⟩
  | pscale ps =>
    simp only [CState.apply, CState.setPscale]
    rcases hb : evalPscale ps with e | b
    · exact h
    · exact ⟨C03_idempotent _ _ hb, h.len⟩

theorem crun_inv (ops : List COp) : ∀ s : CState, CInv s → CInv (s.run ops) := by
  induction ops with
  | nil => exact fun s h => h
  | cons op ops ih => exact fun s h => ih _ (capply_inv s op h)

theorem new_inv (name : Str) (v : BSet) (prob : Option CProb) (ps : PSpec) (s : CState)
    (h : newCState name v prob ps = .ok s) : CInv s ∧ (prob = none → s.defProb = true ∧
      ∃ p, rescale (-logProb s.len) (.str "log") s.scale.spec = .ok p ∧ s.prob = .scalar p) := by
  unfold newCState at h
  rcases hb : setScale none ps with e | b
  · rw [hb] at h; cases h
  · rw [hb] at h
    simp only [bind, Except.bind] at h
    have hb' := setScale_stable _ _ _ hb
    have h0 : CInv (CState.evalUlims
      ⟨name, FloatVar.make v.toFSet, none, 0, 0, 0, b, .scalar 0, false, none, .none, none⟩) := ⟨hb', rfl⟩
    have h1 := capply_inv _ (.prob prob .none) h0
    simp only [CState.apply] at h1
    have hk : setScale (some b) .none = .ok b := setScale_keeps b hb' .none (by simp [Spec.Stated])
    split at h
    · cases h
    · rename_i s' heq
      rw [heq] at h1
      cases h
      refine ⟨⟨h1.scale, h1.len⟩, fun hp => ?_⟩
      subst hp
      obtain ⟨p, hp1, hp2⟩ := cdefault_ok (CState.evalUlims
        ⟨name, FloatVar.make v.toFSet, none, 0, 0, 0, b, .scalar 0, false, none, .none, none⟩) hb'
      have hsc : (CState.evalUlims
        ⟨name, FloatVar.make v.toFSet, none, 0, 0, 0, b, .scalar 0, false, none, .none, none⟩).scale = b := rfl
      simp only [CState.setProb, hsc, hk] at heq
      have heq' := hp2.symm.trans heq
      cases heq'
      exact ⟨rfl, p, hp1, rfl⟩

/-- A call that leaves a transition alone in a variable whose probability was set. -/
theorem tran_kept (s : CState) (h : CInv s) (op : COp) (h1 : ∀ t, op ≠ .tran t) (h2 : ∀ q, op ≠ .prob none q)
    (h3 : ¬ Spec.Renews op ∨ s.defProb = false) :
    (s.apply op).1.tran = s.tran ∧ (s.defProb = false → (s.apply op).1.defProb = false) := by
  cases op with
  | vset v =>
    have hd := h3.resolve_left fun hn => hn (Or.inl ⟨v, rfl⟩)
    obtain ⟨t, -, -, -, k4, k5, he⟩ := setVset_eq s h v
    simp only [CState.apply, he, hd]
    exact ⟨k4, fun _ => k5.trans hd⟩
  | ufun u =>
    rcases u with _ | fg
    · exact ⟨rfl, fun h => h⟩
    · have hd := h3.resolve_left fun hn => hn (Or.inr ⟨fg, rfl⟩)
      obtain ⟨t, -, -, -, k4, k5, he⟩ := setUfun_eq s h fg
      simp only [CState.apply, he, hd]
      exact ⟨k4, fun _ => k5.trans hd⟩
  | pfun p => exact ⟨rfl, fun h => h⟩
  | tran t => exact absurd rfl (h1 t)
  | tfun t => exact ⟨rfl, fun h => h⟩
  | prob p ps =>
    rcases p with _ | q
    · exact absurd rfl (h2 ps)
    · simp only [CState.apply, CState.setProb]
      cases setScale (some s.scale) ps <;> simp
  | pscale ps =>
    obtain ⟨b, hb⟩ := setPscale_fields s ps
    simp [CState.apply, hb]

theorem defProb_kept (ops : List COp) : ∀ s : CState, CInv s → s.defProb = false →
    (∀ o ∈ ops, ∀ q, o ≠ .prob none q) → (s.run ops).defProb = false := by
  induction ops with
  | nil => exact fun s _ h _ => h
  | cons op ops ih =>
    intro s h hd ho
    refine ih _ (capply_inv s op h) ?_ fun o hm => ho o (by simp [hm])
    by_cases ht : ∃ t, op = .tran t
    · obtain ⟨t, rfl⟩ := ht
      exact hd
    · exact (tran_kept s h op (fun t e => ht ⟨t, e⟩) (ho op (by simp)) (Or.inr hd)).2 hd

theorem tran_stays (ops : List COp) : ∀ s : CState, CInv s → (∀ o ∈ ops, ∀ t, o ≠ .tran t) →
    (∀ o ∈ ops, ∀ q, o ≠ .prob none q) → ((∀ o ∈ ops, ¬ Spec.Renews o) ∨ s.defProb = false) →
    (s.run ops).tran = s.tran := by
  induction ops with
  | nil => exact fun s _ _ _ _ => rfl
  | cons op ops ih =>
    intro s h h1 h2 h3
    obtain ⟨k1, k2⟩ := tran_kept s h op (h1 op (by simp)) (h2 op (by simp))
      (h3.imp (fun k => k op (by simp)) fun k => k)
    rw [crun_cons, ih _ (capply_inv s op h) (fun o hm => h1 o (by simp [hm])) (fun o hm => h2 o (by simp [hm]))
      (h3.imp (fun k o hm => k o (by simp [hm])) k2), k1]

section
variable (name : Str) (v : BSet) (prob : Option CProb) (ps : PSpec) (s : CState)
  (hs : newCState name v prob ps = .ok s)
include hs

/-- C100: the transition last given is kept if neither set nor transform nor the default
probability is given after it.  Missing: these replace it. -/
theorem C100_transition_partial (pre post : List COp) (t : CTran) (h1 : ∀ o ∈ post, ∀ t, o ≠ .tran t)
    (h2 : ∀ o ∈ post, ∀ q, o ≠ .prob none q) (h3 : ∀ o ∈ post, ¬ Spec.Renews o) :
    (s.run (pre ++ .tran t :: post)).tran = t := by
  rw [crun_append, crun_cons]
  exact tran_stays post _ (capply_inv _ _ (crun_inv pre s (new_inv name v prob ps s hs).1)) h1 h2 (Or.inl h3)

/-- C100: if a probability was given before (with a scale that is not refused), and the default
one not since, the transition last given is kept. -/
theorem C100_transition_given_partial (pre mid post : List COp) (q : CProb) (r : PSpec) (hr : Spec.ScaleOk r)
    (t : CTran) (h1 : ∀ o ∈ post, ∀ t, o ≠ .tran t) (h2 : ∀ o ∈ mid ++ post, ∀ q, o ≠ .prob none q) :
    (s.run (pre ++ .prob (some q) r :: mid ++ .tran t :: post)).tran = t := by
  have hi := crun_inv pre s (new_inv name v prob ps s hs).1
  obtain ⟨b, hb, -⟩ := setScale_ok _ hi.scale r hr
  have hd : ((s.run pre).apply (.prob (some q) r)).1.defProb = false := by
    simp only [CState.apply, CState.setProb, hb]
  have hi' := capply_inv _ (.prob (some q) r) hi
  have hd' := defProb_kept mid _ hi' hd fun o ho => h2 o (by simp [ho])
  rw [crun_append, crun_append, crun_cons, crun_cons]
  exact tran_stays post _ (capply_inv _ (.tran t) (crun_inv mid _ hi')) h1 (fun o ho => h2 o (by simp [ho]))
    (Or.inr hd')

/-- C100: a probability given is kept until another is, or the default one. -/
theorem C100_probability (pre post : List COp) (q : CProb) (r : PSpec) (hr : Spec.ScaleOk r)
    (h : ∀ o ∈ post, ∀ p q, o ≠ .prob p q) :
    (s.run (pre ++ .prob (some q) r :: post)).prob = q := by
  have hi := crun_inv pre s (new_inv name v prob ps s hs).1
  obtain ⟨b, hb, -⟩ := setScale_ok _ hi.scale r hr
  have h0 : ((s.run pre).apply (.prob (some q) r)).1.defProb = false ∧
      ((s.run pre).apply (.prob (some q) r)).1.prob = q := by
    simp only [CState.apply, CState.setProb, hb, and_self]
  have hi' := capply_inv _ (.prob (some q) r) hi
  rw [crun_append, crun_cons]
  generalize ((s.run pre).apply (.prob (some q) r)).1 = t at h0 hi'
  suffices H : (t.run post).defProb = false ∧ (t.run post).prob = q from H.2
  induction post generalizing t with
  | nil => exact h0
  | cons op post ih =>
    rw [crun_cons]
    refine ih (fun o ho => h o (by simp [ho])) _ ?_ (capply_inv _ op hi')
    cases op with
    | vset w =>
      obtain ⟨u, -, -, k3, -, k5, he⟩ := setVset_eq t hi' w
      simp only [CState.apply, he, h0.1]
      exact ⟨k5.trans h0.1, k3.trans h0.2⟩
    | ufun u =>
      rcases u with _ | fg
      · exact h0
      · obtain ⟨u, -, -, k3, -, k5, he⟩ := setUfun_eq t hi' fg
        simp only [CState.apply, he, h0.1]
        exact ⟨k5.trans h0.1, k3.trans h0.2⟩
    | pfun p => exact h0
    | tran t => exact h0
    | tfun t => exact h0
    | prob p q => exact absurd rfl (h _ (by simp) p q)
    | pscale r =>
      obtain ⟨b, hb⟩ := setPscale_fields t r
      simp only [CState.apply, hb]
      exact h0

/-- The default probability is that of the length and scale of the state. -/
theorem default_run (hp : prob = none) (ops : List COp) (h1 : ∀ o ∈ ops, ∀ q r, o ≠ .prob (some q) r)
    (h2 : ∀ o ∈ ops, ∀ q, o ≠ .pscale q) : (s.run ops).defProb = true ∧
    ∃ p, rescale (-logProb (s.run ops).len) (.str "log") (s.run ops).scale.spec = .ok p ∧
      (s.run ops).prob = .scalar p := by
  obtain ⟨hi, h0⟩ := new_inv name v prob ps s hs
  have h3 := h0 hp
  clear hs h0
  rename _ => h0
  induction ops generalizing s with
  | nil => exact h0
  | cons op ops ih =>
    rw [crun_cons]
    refine ih _ (fun o ho => h1 o (by simp [ho])) (fun o ho => h2 o (by simp [ho])) (capply_inv s op hi) ?_
    have hdef : ∀ t : CState, CInv t → t.default.1.defProb = true ∧
        ∃ p, rescale (-logProb t.default.1.len) (.str "log") t.default.1.scale.spec = .ok p ∧
          t.default.1.prob = .scalar p := by
      intro t ht
      obtain ⟨p, hp, he⟩ := cdefault_ok t ht.scale
      rw [he]
      exact ⟨rfl, p, hp, rfl⟩
    cases op with
    | vset w =>
      obtain ⟨u, hu, -, -, -, -, he⟩ := setVset_eq s hi w
      simp only [CState.apply, he, h0.1, if_true]
      exact hdef u hu
    | ufun u =>
      rcases u with _ | fg
      · exact h0
      · obtain ⟨u, hu, -, -, -, -, he⟩ := setUfun_eq s hi fg
        simp only [CState.apply, he, h0.1, if_true]
        exact hdef u hu
    | pfun p => exact h0
    | tran t => exact h0
    | tfun t => exact h0
    | prob p r =>
      rcases p with _ | q
      · simp only [CState.apply, CState.setProb]
        rcases hb : setScale (some s.scale) r with e | b
        · exact h0
        · exact hdef _ ⟨setScale_stable _ _ _ hb, hi.len⟩
      · exact absurd rfl (h1 _ (by simp) q r)
    | pscale r => exact absurd rfl (h2 _ (by simp) r)

/-- C100: as long as no probability was given and the scale not assigned, the probability denotes
one over the length between the limits of the set last given, through the transform last given, on
any scale that can represent it. -/
theorem C100_default_partial (hp : prob = none) (ops : List COp) (hset : Spec.Settled ops)
    (h1 : ∀ o ∈ ops, ∀ q r, o ≠ .prob (some q) r) (h2 : ∀ o ∈ ops, ∀ q, o ≠ .pscale q) (a b L : ℝ)
    (ha : a = min (Spec.newest Spec.setGiven v ops).a (Spec.newest Spec.setGiven v ops).b)
    (hb : b = max (Spec.newest Spec.setGiven v ops).a (Spec.newest Spec.setGiven v ops).b)
    (hL : L = |(Spec.newest Spec.transformGiven none ops).fwd b - (Spec.newest Spec.transformGiven none ops).fwd a|)
    (hv : Spec.Valid (s.run ops).scale) (hl : npz ≤ L)
    (hc : Spec.Unclamped (-Real.log L) (.log 0 0) (s.run ops).scale) :
    ∃ p, (s.run ops).prob = .scalar p ∧ Spec.value (s.run ops).scale p = 1 / L := by
  obtain ⟨-, p, hp1, hp2⟩ := default_run name v prob ps s hs hp ops h1 h2
  have hi := crun_inv ops s (new_inv name v prob ps s hs).1
  obtain ⟨g1, g2, -, -⟩ := C100_settings name v prob ps s hs ops
  obtain ⟨g4, g5⟩ := settled_limits name v prob ps s hs ops hset
  obtain ⟨f1, f2⟩ := toFSet_finite (Spec.newest Spec.setGiven v ops)
  rw [g1, g2, f1, EReal.toReal_coe, ← ha] at g4
  rw [g1, g2, f2, EReal.toReal_coe, ← hb] at g5
  have hlen : (s.run ops).toCRV.length = L := by
    simp only [CRV.length, CState.toCRV, g1, g2, f1, f2, EReal.toReal_coe, ← ha, ← hb]
    rw [max_sub_min_eq_abs, hL]
  have hlen' : (s.run ops).len = L := by
    rw [hi.len, g4, g5, max_sub_min_eq_abs, hL]
  rw [← hlen] at hl hc
  obtain ⟨p', k1, k2⟩ := default_value (s.run ops).toCRV (s.run ops).scale hi.scale hv hl hc
  rw [CRV.defaultProb, hlen] at k1
  rw [hlen'] at hp1
  have : p = p' := Except.ok.inj (hp1.symm.trans k1)
  exact ⟨p, hp2, by rw [this, k2, hlen]⟩

/-- C100: a variable none of whose settings was refused never has both a transform and cumulative
functions. -/
theorem C100_exclusive_partial (ops : List COp) (h : Spec.Unrefused s ops) :
    (s.run ops).ufun = none ∨ (s.run ops).pfun = none := by
  obtain ⟨-, -, h3, -⟩ := new_fields name v prob ps s hs
  have hinv := (new_inv name v prob ps s hs).1
  induction ops using List.reverseRecOn with
  | nil => exact Or.inl h3
  | append_singleton ops op ih =>
    have ih := ih fun pre o post he => h pre o (post ++ [op]) (by rw [he]; simp)
    have hop := h ops op [] rfl
    rw [crun_snoc]
    cases op with
    | vset w =>
      obtain ⟨-, -, k3, -, -, -, k7, -⟩ := setVset_fields (s.run ops) w
      simp only [CState.apply, k3, k7]
      exact ih
    | ufun u =>
      obtain ⟨-, -, k3, -, k5, -⟩ := setUfun_fields (s.run ops) u
      simp only [CState.apply, k3, k5]
      rcases u with _ | fg
      · exact Or.inl rfl
      · obtain ⟨t, -, -, -, -, -, he⟩ := setUfun_eq (s.run ops) (crun_inv ops s hinv) fg
        simp only [CState.apply, he] at hop
        cases hpf : (s.run ops).pfun with
        | none => exact Or.inr rfl
        | some fg => rw [hpf] at hop; cases hop
    | pfun p =>
      simp only [CState.apply, CState.setPfun] at hop ⊢
      cases hu : (s.run ops).ufun with
      | none => exact Or.inl rfl
      | some fg =>
        rw [hu] at hop
        rcases p with _ | p
        · exact Or.inr rfl
        · cases hop
    | tran t => exact ih
    | tfun t => exact ih
    | prob p q =>
      obtain ⟨-, -, k3, -, -, -, k7, -⟩ := setProb_fields (s.run ops) p q
      simp only [CState.apply, k3, k7]
      exact ih
    | pscale q =>
      obtain ⟨b, hb⟩ := setPscale_fields (s.run ops) q
      simp only [CState.apply, hb]
      exact ih

end

/-- C100: cumulative functions given to a variable with a transform are refused and kept
nevertheless, and so is a transform given to a variable with cumulative functions. -/
theorem C100_refused_kept (s : CState) (h : CInv s) (FG fg : (ℝ → ℝ) × (ℝ → ℝ)) :
    (s.ufun = some fg → (s.apply (.pfun (some FG))).2 = some .assertion ∧
      (s.apply (.pfun (some FG))).1.ufun = some fg ∧ (s.apply (.pfun (some FG))).1.pfun = some FG) ∧
    (s.pfun = some FG → (s.apply (.ufun (some fg))).2 = some .assertion ∧
      (s.apply (.ufun (some fg))).1.ufun = some fg ∧ (s.apply (.ufun (some fg))).1.pfun = some FG) := by
  refine ⟨fun hu => ?_, fun hp => ?_⟩
  · simp [CState.apply, CState.setPfun, hu]
  · obtain ⟨t, -, -, -, -, -, he⟩ := setUfun_eq s h fg
    obtain ⟨-, -, k3, -, k5, -⟩ := setUfun_fields s (some fg)
    refine ⟨?_, k3, k5.trans hp⟩
    simp only [CState.apply, he, hp, Option.isSome_some, if_true]

/-- C100: a set or transform given to a variable with the default probability replaces the
transition by that probability. -/
theorem C100_transition_lost (s : CState) (h : CInv s) (hd : s.defProb = true) (op : COp)
    (hop : Spec.Renews op) : ∃ p, (s.apply op).1.tran = .scalar p ∧ (s.apply op).1.prob = .scalar p := by
  rcases hop with ⟨w, rfl⟩ | ⟨fg, rfl⟩
  · obtain ⟨t, ht, -, -, -, -, he⟩ := setVset_eq s h w
    obtain ⟨p, -, hp⟩ := cdefault_ok t ht.scale
    exact ⟨p, by simp [CState.apply, he, hd, hp]⟩
  · obtain ⟨t, ht, -, -, -, -, he⟩ := setUfun_eq s h fg
    obtain ⟨p, -, hp⟩ := cdefault_ok t ht.scale
    exact ⟨p, by simp [CState.apply, he, hd, hp]⟩

/-! ### Witnesses -/

/-- A new variable over [1, 2] exists. -/
theorem unit_new : ∃ s, newCState ['x'] ⟨1, false, 2, false⟩ none .none = .ok s ∧ s.scale = .lin 1 := by
  have h3 : evalPscale (PScale.lin 1).spec = .ok (.lin 1) := by simp [evalPscale, PScale.spec]
  have hb : setScale none .none = .ok (.lin 1) := by simp [setScale, evalPscale, PSpec.truthy]
  have hk : setScale (some (.lin 1)) .none = .ok (.lin 1) := setScale_keeps _ h3 .none (by simp [Spec.Stated])
  obtain ⟨p, -, hp⟩ := cdefault_ok (CState.evalUlims ⟨['x'], FloatVar.make (BSet.toFSet ⟨1, false, 2, false⟩), none,
    0, 0, 0, .lin 1, .scalar 0, false, none, .none, none⟩) h3
  have hsc : (CState.evalUlims ⟨['x'], FloatVar.make (BSet.toFSet ⟨1, false, 2, false⟩), none,
    0, 0, 0, .lin 1, .scalar 0, false, none, .none, none⟩).scale = .lin 1 := rfl
  have hq : ∃ t, CState.setProb (CState.evalUlims ⟨['x'], FloatVar.make (BSet.toFSet ⟨1, false, 2, false⟩), none,
      0, 0, 0, .lin 1, .scalar 0, false, none, .none, none⟩) none .none = (t, none) ∧
      t.scale = .lin 1 := ⟨_, by simp only [CState.setProb, hsc, hk]; exact hp, rfl⟩
  obtain ⟨t, hq, hts⟩ := hq
  unfold newCState
  simp only [hb, bind, Except.bind, hq]
  exact ⟨_, rfl, hts⟩

/-- After taking away a transform by doubling, a value of a variable over [1, 2] can be 3. -/
theorem C100_claim_fails : ¬ C100_claim := by
  intro h
  obtain ⟨s, hs, -⟩ := unit_new
  have hset : Spec.Settled [.ufun (some (fun x => 2 * x, fun x => x / 2))] := by
    intro pre op post he hr
    rcases pre with _ | ⟨o, pre⟩
    · have := (List.cons.inj he).1
      rw [hr] at this
      cases this
    · have := (List.cons.inj he).2
      simp at this
  have h1 := C100_removed ['x'] _ none .none s hs [.ufun (some (fun x => 2 * x, fun x => x / 2))] [] hset
    (by simp) 0 (fun _ => 1 / 2) (fun x => 2 * x) (fun x => x / 2) rfl
  have h2 := (h ['x'] _ none .none s hs [.ufun (some (fun x => 2 * x, fun x => x / 2)), .ufun none]).1
    s.toCRV false 0 (fun _ => 1 / 2)
  obtain ⟨f1, f2⟩ := toFSet_finite ⟨1, false, 2, false⟩
  obtain ⟨a, b, hm⟩ := make_spec _ _ _ f1 f2
  have hn1 : Spec.newest Spec.setGiven ⟨1, false, 2, false⟩ [.ufun (some (fun x => 2 * x, fun x => x / 2))] =
      ⟨1, false, 2, false⟩ := rfl
  have hn2 : Spec.newest Spec.setGiven ⟨1, false, 2, false⟩
      [.ufun (some (fun x => 2 * x, fun x => x / 2)), .ufun none] = ⟨1, false, 2, false⟩ := rfl
  have hn3 : Spec.newest Spec.transformGiven none
      [.ufun (some (fun x => 2 * x, fun x => x / 2)), .ufun none] = none := rfl
  have hn4 : Spec.newest Spec.cumulativeGiven none
      [.ufun (some (fun x => 2 * x, fun x => x / 2)), .ufun none] = none := rfl
  rw [show [COp.ufun (some (fun x => 2 * x, fun x => x / 2))] ++ [.ufun none] =
    [.ufun (some (fun x => 2 * x, fun x => x / 2)), .ufun none] from rfl, h2] at h1
  simp only [CRV.evaluate, Spec.asTold, hn1, hn2, hn3, hn4, hm, evaluate_eq, uniform, if_true, UFun.fwd, UFun.inv,
    SA.toVArg, bind, Except.bind, pure, Except.pure, EReal.toReal_coe, id] at h1
  norm_num at h1

/-- Non-vacuity: doubled, the values of {3} are in [1, 2], the default density is 1/2. -/
example : ∃ s xs, newCState ['x'] ⟨1, false, 2, false⟩ none .none = .ok s ∧
    (s.run [.ufun (some (fun x => 2 * x, fun x => x / 2))]).evaluate false (3 : ℕ) (fun _ => 0) = .ok (.array xs) ∧
    xs.length = 3 ∧ ∀ x ∈ xs, Spec.MemF (BSet.toFSet ⟨1, false, 2, false⟩) x := by
  obtain ⟨s, hs, -⟩ := unit_new
  have hset : Spec.Settled [.ufun (some (fun x => 2 * x, fun x => x / 2))] := by
    intro pre op post he hr
    rcases pre with _ | ⟨o, pre⟩
    · have := (List.cons.inj he).1
      rw [hr] at this
      cases this
    · have := (List.cons.inj he).2
      simp at this
  obtain ⟨xs, h1, h2, h3⟩ := C100_members_partial ['x'] _ none .none s hs
    [.ufun (some (fun x => 2 * x, fun x => x / 2))] hset (one_lt_two (α := ℝ))
    (by
      show (2 * 1 : ℝ) / 2 = 1 ∧ (2 * 2 : ℝ) / 2 = 2 ∧ _
      refine ⟨by norm_num, by norm_num, Or.inl ⟨(show (2 * 1 : ℝ) < 2 * 2 by norm_num), fun x _ y _ hxy => ?_⟩⟩
      show x / 2 < y / 2
      linarith) 3 (by norm_num) (fun _ => 0)
  exact ⟨s, xs, hs, h1, h2, h3⟩

/-- Non-vacuity: a set and a probability given, then a transition, which stays through another set. -/
example (t : CTran) (q : CProb) : ∃ s, newCState ['x'] ⟨1, false, 2, false⟩ none .none = .ok s ∧
    (s.run [.vset ⟨0, true, 3, false⟩, .prob (some q) .none, .tran t, .vset ⟨5, false, 4, false⟩]).tran = t ∧
    (s.run [.vset ⟨0, true, 3, false⟩, .prob (some q) .none, .tran t, .vset ⟨5, false, 4, false⟩]).prob = q := by
  obtain ⟨s, hs, -⟩ := unit_new
  have hok : Spec.ScaleOk .none := fun h => absurd h (by simp [Spec.Stated])
  exact ⟨s, hs, C100_transition_given_partial ['x'] _ none .none s hs [.vset ⟨0, true, 3, false⟩] []
    [.vset ⟨5, false, 4, false⟩] q .none hok t (by simp) (by simp),
    C100_probability ['x'] _ none .none s hs [.vset ⟨0, true, 3, false⟩] [.tran t, .vset ⟨5, false, 4, false⟩] q .none
      hok (by simp)⟩

/-- Non-vacuity: the set replaced and doubled, the default density is 1/2. -/
example : ∃ s p, newCState ['x'] ⟨1, false, 2, false⟩ none .none = .ok s ∧
    (s.run [.vset ⟨0, false, 1, false⟩, .ufun (some (fun x => 2 * x, fun x => x / 2))]).prob = .scalar p ∧
    Spec.value (.lin 1) p = 1 / |(2 : ℝ) * 1 - 2 * 0| := by
  obtain ⟨s, hs, hsc⟩ := unit_new
  have hset : Spec.Settled [.vset ⟨0, false, 1, false⟩, .ufun (some (fun x => 2 * x, fun x => x / 2))] := by
    intro pre op post he hr
    rcases pre with _ | ⟨o, _ | ⟨o', pre⟩⟩
    · have := (List.cons.inj he).1
      rw [hr] at this
      cases this
    · have := (List.cons.inj (List.cons.inj he).2).1
      rw [hr] at this
      cases this
    · have := (List.cons.inj (List.cons.inj he).2).2
      simp at this
  have hrun : (s.run [.vset ⟨0, false, 1, false⟩, .ufun (some (fun x => 2 * x, fun x => x / 2))]).scale = .lin 1 := by
    simp only [CState.run, List.foldl, CState.apply]
    rw [(setUfun_fields _ _).2.2.2.1, (setVset_fields _ _).2.2.2.2.2.1, hsc]
  obtain ⟨p, h1, h2⟩ := C100_default_partial ['x'] _ none .none s hs rfl
    [.vset ⟨0, false, 1, false⟩, .ufun (some (fun x => 2 * x, fun x => x / 2))] hset (by simp) (by simp) 0 1
    |(2 : ℝ) * 1 - 2 * 0| (min_eq_left (zero_le_one (α := ℝ))).symm (max_eq_right (zero_le_one (α := ℝ))).symm rfl
    (by rw [hrun]; exact one_pos) (by rw [show |(2 : ℝ) * 1 - 2 * 0| = 2 by norm_num]; exact npz_lt_one.le.trans one_le_two)
    (by rw [hrun]; exact doubled_unclamped)
  exact ⟨s, p, hs, h1, by rw [← hrun]; exact h2⟩

end Probayes
