/-
Properties C35 and C36: acceptance rules of the Metropolis and Hastings samplers.
-/
import Mathlib.MeasureTheory.Measure.Lebesgue.Basic
import Mathlib.Algebra.BigOperators.Fin
import Mathlib.Analysis.Complex.ExponentialBounds
import Verif.Model.SP
import Verif.Props.PScalesProd

namespace Probayes

open scoped BigOperators

/-! ### C35 Metropolis -/

/-- Acceptance probability: the length of the set of thresholds in `[0,1)` (the
uniform draws) for which the update is accepted. -/
noncomputable def Spec.acceptance (score : Option ℝ) : ENNReal :=
  MeasureTheory.volume {t : ℝ | 0 ≤ t ∧ t < 1 ∧ metropolisUpdate score t = some true}

/-- C35: a score in `[0,1]` is the acceptance probability; a missing score means
acceptance with probability one. -/
theorem C35_acceptance (s : ℝ) (h0 : 0 ≤ s) (h1 : s ≤ 1) :
    Spec.acceptance (some s) = ENNReal.ofReal s ∧ Spec.acceptance none = 1 := by
  constructor
  · unfold Spec.acceptance
    rcases h1.lt_or_eq with h | rfl
    · have : {t : ℝ | 0 ≤ t ∧ t < 1 ∧ metropolisUpdate (some s) t = some true} = Set.Icc 0 s := by
        ext t
        simp only [metropolisUpdate, Set.mem_setOf_eq, Set.mem_Icc]
        constructor
        · rintro ⟨a, b, c⟩
          refine ⟨a, ?_⟩
          by_contra hc
          simp [hc] at c
        · rintro ⟨a, b⟩
          exact ⟨a, lt_of_le_of_lt b h, by simp [b]⟩
      rw [this, Real.volume_Icc, sub_zero]
    · have : {t : ℝ | 0 ≤ t ∧ t < 1 ∧ metropolisUpdate (some (1:ℝ)) t = some true}
          = Set.Ico 0 1 := by
        ext t
        simp only [metropolisUpdate, Set.mem_setOf_eq, Set.mem_Ico]
        constructor
        · rintro ⟨a, b, _⟩; exact ⟨a, b⟩
        · rintro ⟨a, b⟩; exact ⟨a, b, by simp [b.le]⟩
      rw [this, Real.volume_Ico, sub_zero]
  · unfold Spec.acceptance
    have : {t : ℝ | 0 ≤ t ∧ t < 1 ∧ metropolisUpdate none t = some true} = Set.Ico 0 1 := by
      ext t; simp [metropolisUpdate]
    rw [this, Real.volume_Ico]; simp

/-- The two distributions compared by a step have scalar probabilities `x`
(predecessor) and `y` (successor). -/
def Demo.pair (x y : ℝ) : OPQR SA := ⟨some (.scalar x), some (.scalar y), none, none⟩

/-- C35: on every scale, the Metropolis score of a step between stored
probabilities `x` and `y` is the ratio of the represented probabilities capped
at one. -/
theorem C35_score (pscale : PSpec) (a : PScale) (x y : ℝ) (q r : Option SA)
    (hs : evalPscale pscale = .ok a) (ha : Spec.Valid a)
    (hx : Spec.Unclamped x a (.lin 1)) (hy : Spec.Unclamped y a (.lin 1)) :
    metropolisScores id ⟨some (.scalar x), some (.scalar y), q, r⟩ pscale =
      .ok (some (min 1 (Spec.value a y / max npz (Spec.value a x)))) := by
  obtain ⟨z, hz, hv⟩ := C06_divProb_value y x pscale pscale (.flt 1) a a (.lin 1) hs hs
    (by simp [evalPscale]) (by simp [PSpec.truthy]) ha ha one_pos hy hx trivial
  rw [show Spec.value (.lin 1) z = z by simp [Spec.value]] at hv
  simp [metropolisScores, hz, bind, Except.bind, pure, Except.pure, hv]

/-- C35: the score lies in `[0,1]` and is one for steps to equal or larger
probability. -/
theorem C35_score_bounds (w w' : ℝ) (hw' : 0 ≤ w') :
    0 ≤ min 1 (w' / max npz w) ∧ min 1 (w' / max npz w) ≤ 1 ∧
    (w ≤ w' → npz ≤ w' → min 1 (w' / max npz w) = 1) := by
  have hm : 0 < max npz w := lt_of_lt_of_le npz_pos (le_max_left _ _)
  refine ⟨le_min zero_le_one (div_nonneg hw' hm.le), min_le_left _ _, fun h h' => ?_⟩
  apply min_eq_left
  rw [le_div_iff₀ hm, one_mul]
  exact max_le h' h

/-- Weights the code treats exactly: zero or at least the smallest normal float. -/
def Spec.Normal (w : ℝ) : Prop := w = 0 ∨ npz ≤ w

/-- C35 detailed balance: with symmetric proposal density `q`, for all weights, also those below
the smallest normal float, for which the score is not the ratio of the weights. -/
theorem C35_detailed_balance (w w' q : ℝ) (h : 0 ≤ w) (h' : 0 ≤ w') :
    w * q * min 1 (w' / max npz w) = w' * q * min 1 (w / max npz w') := by
  have hn := npz_pos
  have hle : ∀ a b : ℝ, npz ≤ b → a ≤ b → a / b ≤ 1 := fun a b hb hab => (div_le_one (hn.trans_le hb)).mpr hab
  have hge : ∀ a b : ℝ, 0 < a → a ≤ b → 1 ≤ b / a := fun a b ha hab => (one_le_div ha).mpr hab
  rcases le_total npz w with hw | hw <;> rcases le_total npz w' with hw' | hw'
  · rw [max_eq_right hw, max_eq_right hw']
    have h0 : 0 < w := hn.trans_le hw
    have h0' : 0 < w' := hn.trans_le hw'
    rcases le_total w w' with hl | hl
    · rw [min_eq_left (hge _ _ h0 hl), min_eq_right (hle _ _ hw' hl)]
      field_simp
    · rw [min_eq_right (hle _ _ hw hl), min_eq_left (hge _ _ h0' hl)]
      field_simp
  · rw [max_eq_right hw, max_eq_left hw', min_eq_right (hle _ _ hw (hw'.trans hw)), min_eq_left (hge _ _ hn hw)]
    have h0 : 0 < w := hn.trans_le hw
    field_simp
  · rw [max_eq_left hw, max_eq_right hw', min_eq_left (hge _ _ hn hw'), min_eq_right (hle _ _ hw' (hw.trans hw'))]
    have h0' : 0 < w' := hn.trans_le hw'
    field_simp
  · rw [max_eq_left hw, max_eq_left hw', min_eq_right (hle _ _ le_rfl hw'), min_eq_right (hle _ _ le_rfl hw)]
    ring

/-- Weights below the smallest normal float, for which the score is not the ratio. -/
example : min 1 (npz / 4 / max npz (npz / 2)) = 1 / 4 ∧
    npz / 2 * 1 * min 1 (npz / 4 / max npz (npz / 2)) = npz / 4 * 1 * min 1 (npz / 2 / max npz (npz / 4)) := by
  have hn := npz_pos
  refine ⟨?_, C35_detailed_balance _ _ _ (by linarith) (by linarith)⟩
  rw [max_eq_left (by linarith), show npz / 4 / npz = 1 / 4 by field_simp]
  norm_num

/-- The transition matrix of a proposal/acceptance chain on a finite state space:
propose by `q`, accept by `a`, otherwise stay. -/
noncomputable def Spec.kernel {ι : Type} [Fintype ι] [DecidableEq ι] (q a : ι → ι → ℝ) (x y : ι) : ℝ :=
  if x = y then 1 - ∑ z ∈ Finset.univ.erase x, q x z * a x z else q x y * a x y

/-- C35 invariance: on any finite state space and for any weights, the Metropolis
chain with a symmetric proposal leaves the target invariant. -/
theorem C35_invariant {ι : Type} [Fintype ι] [DecidableEq ι] (w : ι → ℝ) (q : ι → ι → ℝ)
    (hw : ∀ x, 0 ≤ w x) (hq : ∀ x y, q x y = q y x) (y : ι) :
    ∑ x, w x * Spec.kernel q (fun x y => min 1 (w y / max npz (w x))) x y = w y := by
  rw [← Finset.add_sum_erase _ _ (Finset.mem_univ y)]
  have hoff : ∀ x ∈ Finset.univ.erase y,
      w x * Spec.kernel q (fun x y => min 1 (w y / max npz (w x))) x y
        = w y * (q y x * min 1 (w x / max npz (w y))) := by
    intro x hx
    have hne : x ≠ y := (Finset.mem_erase.mp hx).1
    unfold Spec.kernel
    rw [if_neg hne, hq x y]
    have := C35_detailed_balance (w x) (w y) (q y x) (hw x) (hw y)
    linarith
  rw [Finset.sum_congr rfl hoff, ← Finset.mul_sum]
  unfold Spec.kernel
  rw [if_pos rfl]
  ring

/-- C35: the weights entering the score are those of the distributions on any
scale, so scores on two scales representing the same probabilities agree. -/
theorem C35_scale_independent (s t : PSpec) (a b : PScale) (x y x' y' : ℝ) (q r q' r' : Option SA)
    (hs : evalPscale s = .ok a) (ht : evalPscale t = .ok b)
    (ha : Spec.Valid a) (hb : Spec.Valid b)
    (hx : Spec.Unclamped x a (.lin 1)) (hy : Spec.Unclamped y a (.lin 1))
    (hx' : Spec.Unclamped x' b (.lin 1)) (hy' : Spec.Unclamped y' b (.lin 1))
    (h1 : Spec.value a x = Spec.value b x') (h2 : Spec.value a y = Spec.value b y') :
    metropolisScores id ⟨some (.scalar x), some (.scalar y), q, r⟩ s =
    metropolisScores id ⟨some (.scalar x'), some (.scalar y'), q', r'⟩ t := by
  rw [C35_score s a x y q r hs ha hx hy, C35_score t b x' y' q' r' ht hb hx' hy', h1, h2]

/-- C35 does not apply to processes with a proposal but no transition: there the
sample has no predecessor distribution (sd.py:250), hence no score, and every
proposal is accepted whatever its probability. -/
theorem C35_prop_accepts_all {σ Ω : Type} (T : PropOps σ SA Ω) (last : Option (OPQR SA)) (ω : Ω)
    (st : σ) (x : OPQR SA) (pscale : PSpec) (h : (sampleProp T last ω st).2 = .ok x)
    (y : ℝ) (hy : x.p = some (.scalar y)) :
    metropolisScores id x pscale = .ok none ∧ ∀ t, metropolisUpdate none t = some true := by
  refine ⟨?_, fun _ => rfl⟩
  have ho : x.o = none := by
    unfold sampleProp at h
    rcases last with _ | l
    · rcases hp : T.proposeArg ω st with ⟨st', e | prop⟩ <;> simp [hp] at h
      rcases hc : T.call prop ω with e | v <;>
        simp [hc, bind, Except.bind, pure, Except.pure] at h
      rw [← h]
    · rcases hq : l.q with _ | d <;> simp [hq] at h
      rcases hp : T.proposeFrom d ω st with ⟨st', e | prop⟩ <;> simp [hp] at h
      rcases hc : T.call prop ω with e | v <;>
        simp [hc, bind, Except.bind, pure, Except.pure] at h
      rw [← h]
  simp [metropolisScores, hy, ho]

/-! ### C36 Hastings -/

/-- C36 full claim: for linear scale 1 and any positive target weights and
proposal densities `q = q(x→y)`, `r = q(y→x)`, the score `a(x→y)` satisfies
detailed balance. -/
def C36_claim : Prop :=
  ∀ (x y q r axy ayx : ℝ), npz ≤ x → npz ≤ y → npz ≤ q → npz ≤ r →
    hastingsScores id ⟨some (.scalar x), some (.scalar y), some (.scalar q), some (.scalar r)⟩
      (.flt 1) = .ok (some axy) →
    hastingsScores id ⟨some (.scalar y), some (.scalar x), some (.scalar r), some (.scalar q)⟩
      (.flt 1) = .ok (some ayx) →
    x * q * axy = y * r * ayx

/-- What the code computes on linear scale 1. -/
theorem hastings_linear (x y q r : ℝ) (hq : 0 < q) (hr : 0 < r) :
    hastingsScores id ⟨some (.scalar x), some (.scalar y), some (.scalar q), some (.scalar r)⟩
      (.flt 1) = .ok (some (min 1 (y * q / max npz (x * r)))) := by
  simp [hastingsScores, rescale, evalPscale, bind, Except.bind, pure, Except.pure, rescaleE,
    not_le.mpr hq, not_le.mpr hr, divProb, PScale.spec, PSpec.truthy]

/-- C36 fails: the proposal ratio is upside down.  With equal target weights and
`q(x→y) = 1`, `q(y→x) = 1/2` the flow x→y is twice the flow y→x with correct
acceptance, and four times with the code's. -/
theorem C36_claim_fails : ¬ C36_claim := by
  intro h
  have := h 1 1 1 (1/2) _ _ (by unfold npz; norm_num) (by unfold npz; norm_num)
    (by unfold npz; norm_num) (by unfold npz; norm_num)
    (hastings_linear 1 1 1 (1/2) one_pos (by norm_num))
    (hastings_linear 1 1 (1/2) 1 (by norm_num) one_pos)
  have h1 : max npz (1/2 : ℝ) = 1/2 := max_eq_right (by unfold npz; norm_num)
  have h2 : max npz (1 : ℝ) = 1 := max_eq_right (by unfold npz; norm_num)
  simp only [one_mul, mul_one] at this
  rw [h1, h2] at this
  norm_num at this

/-- C36, what holds: when forward and reverse densities are equal (as they always
are for the reverse proposals the library itself produces, see
`C36_reverse_is_forward`), the score on linear scale 1 is Metropolis' and detailed
balance holds. -/
theorem C36_symmetric_partial (x y q : ℝ) (hx : npz ≤ x) (hy : npz ≤ y) (hq : npz ≤ q)
    (hxq : npz ≤ x * q) (hyq : npz ≤ y * q) :
    hastingsScores id ⟨some (.scalar x), some (.scalar y), some (.scalar q), some (.scalar q)⟩
      (.flt 1) = .ok (some (min 1 (y / x))) ∧
    x * q * min 1 (y / x) = y * q * min 1 (x / y) := by
  have hq0 : 0 < q := lt_of_lt_of_le npz_pos hq
  have hx0 : 0 < x := lt_of_lt_of_le npz_pos hx
  refine ⟨?_, ?_⟩
  · rw [hastings_linear x y q q hq0 hq0, max_eq_right hxq]
    congr 3
    field_simp
  · have := C35_detailed_balance x y q hx0.le (npz_pos.le.trans hy)
    rwa [max_eq_right hx, max_eq_right hy] at this

/-- C36 on the log scale full claim, already for symmetric proposals: the score is
the capped ratio of the target weights. -/
def C36_log_claim : Prop :=
  ∀ (lx ly lq : ℝ), lx ≤ 0 → ly ≤ 0 → lq ≤ 0 → Real.log npz ≤ lx → Real.log npz ≤ ly →
    Real.log npz ≤ lq →
    hastingsScores id ⟨some (.scalar lx), some (.scalar ly), some (.scalar lq), some (.scalar lq)⟩
      (.cplx 0 0) = .ok (some (min 1 (Real.exp ly / Real.exp lx)))

/-- C36 fails on the log scale even for symmetric proposals: log target weights
are multiplied by linear proposal densities. -/
theorem C36_log_claim_fails : ¬ C36_log_claim := by
  intro h
  have hlog : Real.log npz ≤ -2 := by
    have : Real.log npz ≤ Real.log (Real.exp (-2)) := by
      apply Real.log_le_log npz_pos
      have h1 : Real.exp 2 ≤ 9 := by
        have := Real.exp_one_lt_d9
        have h2 : Real.exp 2 = Real.exp 1 * Real.exp 1 := by rw [← Real.exp_add]; norm_num
        rw [h2]; nlinarith [Real.exp_pos 1]
      rw [Real.exp_neg]
      have h3 : (9:ℝ)⁻¹ ≤ (Real.exp 2)⁻¹ := inv_anti₀ (Real.exp_pos _) h1
      refine le_trans ?_ h3
      unfold npz; norm_num
    rwa [Real.log_exp] at this
  have hn2 : -Real.log 2 ≤ 0 := by have := Real.log_pos (by norm_num : (1:ℝ) < 2); linarith
  have hl2 : Real.log npz ≤ -Real.log 2 := by
    have : Real.log 2 ≤ 2 := by have := Real.log_le_sub_one_of_pos (by norm_num : (0:ℝ) < 2); linarith
    linarith
  have := h (-1) (-2) (-Real.log 2) (by norm_num) (by norm_num) hn2 (by linarith) hlog hl2
  have hNp : (0:ℝ) ≤ logNpi := logNpi_pos.le
  have hoff : logpOffs complexZero - logpOffs (.lin 1) = 0 := by
    simp [complexZero, logpOffs, npz_pos]
  have e1 : Real.exp (-Real.log 2) = 1/2 := by rw [Real.exp_neg, Real.exp_log (by norm_num)]; norm_num
  have hresc : ∀ z : ℝ, z ≤ 0 → rescaleE z complexZero (.lin 1) = Real.exp z := by
    intro z hz
    have hd : logpOffs (.log 0 0) - logpOffs (.lin 1) = 0 := hoff
    simp only [rescaleE, complexZero, hd, abs_zero, not_le.mpr npz_pos, if_false]
    rw [expLogp, if_pos (by linarith)]
  have hm : max npz (Real.exp (-1/2)) = Real.exp (-1/2) := by
    apply max_eq_right
    rw [← Real.log_le_iff_le_exp npz_pos]
    linarith
  have hev : evalPscale (.cplx 0 0) = .ok complexZero := by simp [evalPscale]
  have hun : ∀ z : ℝ, z ≤ 0 → Spec.Unclamped z complexZero (.lin 1) := by
    intro z hz
    refine ⟨?_, Or.inl ?_⟩
    · simp only [Spec.offset, abs_zero, if_pos npz_pos, Real.log_one, sub_zero, add_zero]
      exact hz.trans hNp
    · simp [Spec.offset, npz_pos]
  have hval : ∀ z, Spec.value complexZero z = Real.exp z := by
    intro z; simp [Spec.value, complexZero, Spec.offset, npz_pos]
  obtain ⟨z, hz, hv⟩ := C06_divProb_value (-2 * (1/2)) (-1 * (1/2)) (.cplx 0 0) (.cplx 0 0) (.flt 1)
    complexZero complexZero (.lin 1) hev hev (by simp [evalPscale]) (by simp [PSpec.truthy])
    trivial trivial one_pos (hun _ (by norm_num)) (hun _ (by norm_num)) trivial
  rw [hval, hval, show (-1 * (1/2) : ℝ) = -1/2 by norm_num, hm,
    show Spec.value (.lin 1) z = z by simp [Spec.value]] at hv
  have hr : rescale (-Real.log 2) (.cplx 0 0) (.flt 1) = .ok (1/2) := by
    have h1 : evalPscale (.flt 1) = .ok (.lin 1) := by simp [evalPscale]
    simp only [rescale, hev, h1, bind, Except.bind, pure, Except.pure]
    rw [hresc _ hn2, e1]
  have hs : hastingsScores id ⟨some (.scalar (-1)), some (.scalar (-2)),
      some (.scalar (-Real.log 2)), some (.scalar (-Real.log 2))⟩ (.cplx 0 0)
      = .ok (some (min 1 z)) := by
    simp only [hastingsScores, id, hr, bind, Except.bind, pure, Except.pure]
    rw [if_neg (by norm_num), if_neg (by norm_num), hz]
  rw [hs] at this
  simp only [Except.ok.injEq, Option.some.injEq] at this
  rw [hv, ← Real.exp_sub, ← Real.exp_sub, min_eq_right (Real.exp_le_one_iff.mpr (by norm_num)),
    min_eq_right (Real.exp_le_one_iff.mpr (by norm_num))] at this
  have := Real.exp_injective this
  norm_num at this

/-- C36 fails for moves that cannot be undone: with reverse density zero the
move is accepted with certainty, where balance requires it to be refused. -/
theorem C36_zero_reverse_fails (x y q : ℝ) (hx : 0 < x) (hq : 0 < q) :
    ∃ a, hastingsScores id ⟨some (.scalar x), some (.scalar y), some (.scalar q), some (.scalar 0)⟩
      (.flt 1) = .ok (some a) ∧ ∀ b : ℝ, x * q * a ≠ y * 0 * b := by
  refine ⟨1, ?_, ?_⟩
  · simp [hastingsScores, rescale, evalPscale, bind, Except.bind, pure, Except.pure, rescaleE,
      not_le.mpr hq]
  · intro b
    have := mul_pos hx hq
    simp only [mul_one, mul_zero, zero_mul]
    exact this.ne'

/-- C36: the reverse proposal the library passes to the score always has the
forward probability. -/
theorem C36_reverse_is_forward (d : StepDist) : (revalTran d).prob = d.prob ∧
    (revalTran d).marg = d.cond ∧ (revalTran d).cond = d.marg := ⟨rfl, rfl, rfl⟩

/-- C36: given a uniform draw, the Hastings rule moves with the probability of its score, always
without a score, and otherwise answers with nothing (never with a refusal that would discard the
predecessor); the Gibbs rule always moves. -/
theorem C36_acceptance (s : ℝ) (h0 : 0 ≤ s) (h1 : s ≤ 1) :
    MeasureTheory.volume {t : ℝ | 0 ≤ t ∧ t < 1 ∧ hastingsUpdate (some s) t = some true} =
      ENNReal.ofReal s ∧
    (∀ t, hastingsUpdate none t = some true) ∧
    (∀ t, s < t → hastingsUpdate (some s) t = none) ∧ gibbsUpdate = some true := by
  refine ⟨(C35_acceptance s h0 h1).1, fun t => ?_, fun t ht => ?_, rfl⟩
  · simp [hastingsUpdate, metropolisUpdate]
  · simp [hastingsUpdate, metropolisUpdate, not_le.mpr ht]

/-- C36 for the chain as run by the library (reverse proposal from `reval_tran`),
full claim: with forward densities `q = q(x→y)` and `r = q(y→x)`, flows balance. -/
def C36_process_claim : Prop :=
  ∀ (x y q r axy ayx : ℝ) (ks kp : List String), npz ≤ x → npz ≤ y → npz ≤ q → npz ≤ r →
    hastingsScores StepDist.prob ⟨some ⟨kp, [], .scalar x⟩, some ⟨ks, [], .scalar y⟩,
      some ⟨ks, kp, .scalar q⟩, some (revalTran ⟨ks, kp, .scalar q⟩)⟩ (.flt 1) = .ok (some axy) →
    hastingsScores StepDist.prob ⟨some ⟨kp, [], .scalar y⟩, some ⟨ks, [], .scalar x⟩,
      some ⟨ks, kp, .scalar r⟩, some (revalTran ⟨ks, kp, .scalar r⟩)⟩ (.flt 1) = .ok (some ayx) →
    x * q * axy = y * r * ayx

/-- C36 fails for the chain as run: asymmetric transitions are not corrected at
all. -/
theorem C36_process_claim_fails : ¬ C36_process_claim := by
  intro h
  have hs : ∀ q : ℝ, npz ≤ q → hastingsScores StepDist.prob ⟨some ⟨["x"], [], .scalar 1⟩,
      some ⟨["x'"], [], .scalar 1⟩, some ⟨["x'"], ["x"], .scalar q⟩,
      some (revalTran ⟨["x'"], ["x"], .scalar q⟩)⟩ (.flt 1) = .ok (some 1) := by
    intro q hq
    have hq0 := lt_of_lt_of_le npz_pos hq
    have h1 := hastings_linear 1 1 q q hq0 hq0
    rw [one_mul, max_eq_right hq, div_self hq0.ne', min_self] at h1
    rw [← h1]; rfl
  have h1 : npz ≤ (1:ℝ) := by unfold npz; norm_num
  have h2 : npz ≤ (1/2:ℝ) := by unfold npz; norm_num
  have := h 1 1 1 (1/2) 1 1 ["x'"] ["x"] h1 h1 h1 h2 (hs 1 h1) (hs _ h2)
  norm_num at this

/-- Non-vacuity of `C35_score` (log scale) and `C35_invariant` (three states). -/
example : metropolisScores id ⟨some (.scalar (-1)), some (.scalar (-3)), none, none⟩ (.str "log") =
    .ok (some (min 1 (Spec.value complexZero (-3) / max npz (Spec.value complexZero (-1))))) := by
  apply C35_score _ complexZero _ _ _ _ (by simp [evalPscale]) trivial <;>
  · refine ⟨?_, Or.inl (by simp [Spec.offset, npz_pos])⟩
    simp only [Spec.offset, abs_zero, if_pos npz_pos, Real.log_one, sub_zero, add_zero]
    have := logNpi_pos
    change _ ≤ logNpi
    linarith

example : ∑ x : Fin 3, (![0, 1/4, 3/4] x : ℝ) *
    Spec.kernel (fun _ _ => (1/3 : ℝ)) (fun x y => min 1 ((![0, 1/4, 3/4] y : ℝ) /
      max npz (![0, 1/4, 3/4] x))) x 2 = 3/4 := by
  apply C35_invariant (fun x => (![0, 1/4, 3/4] x : ℝ)) (fun _ _ => 1/3)
  · intro x
    fin_cases x <;> norm_num [Matrix.cons_val]
  · intros; rfl

end Probayes
