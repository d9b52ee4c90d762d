/-
C109: the sampler of examples/mcmc/mcmc_prob6.py.
-/
import Verif.Props.DeltaFnShift
import Mathlib.Analysis.Complex.ExponentialBounds

namespace Probayes

open MeasureTheory ProbabilityTheory

/-- Two independent normal numbers, the first of mean `a`, the second of mean zero. -/
noncomputable def shiftLaw (a : ℝ) : Measure (ℝ × ℝ) := (gaussianReal a 1).prod (gaussianReal 0 1)

instance (a : ℝ) : IsProbabilityMeasure (shiftLaw a) := by unfold shiftLaw; infer_instance

/-- The function given to `set_delta` (mcmc_prob6.py:67-68). -/
noncomputable def shiftDelta (ω : ℝ × ℝ) : Py (DeltaRet 2) := .ok (.delta ![ω.1, ω.2])

/-- The densities given to `set_tran` (mcmc_prob6.py:46-57): of `y`, with mean `x` shifted by `b`. -/
noncomputable def shiftStated (b : ℝ) (x y : Fin 2 → ℝ) : ℝ :=
  gaussianPDFReal (x 1) 1 (y 1) * gaussianPDFReal (x 0 + b) 1 (y 0)

/-- Two variables without limits of effect. -/
noncomputable def shiftAxes : Fin 2 → Spec.Axis := fun _ => ⟨.tuple (-1 : ℝ) (1 : ℝ), none⟩

/-- C109, full claim: with displacements of mean `a`, by the rule of Hastings and with a function or a
pair stating the densities of the moves there, or back, the process keeps every finite target. -/
def C109_claim : Prop :=
  ∀ (a b : ℝ) (pair : Bool) (start : Fin 2 → ℝ) (w : (Fin 2 → ℝ) → ℝ), b = a ∨ b = -a → Measurable w → (∀ x, 0 ≤ w x) →
    ∫⁻ x, ENNReal.ofReal (w x) ≠ ⊤ → Spec.KeepsWeight (shiftLaw a)
      (Spec.mover shiftAxes false shiftDelta w (shiftStated b) pair true start (.flt 1)) w w id

/-! ### Laws of pairs -/

theorem pair_law (a b : ℝ) {u v : NNReal} (hu : u ≠ 0) (hv : v ≠ 0) :
    ((gaussianReal a u).prod (gaussianReal b v)).map (fun ω : ℝ × ℝ => (![ω.1, ω.2] : Fin 2 → ℝ)) =
      volume.withDensity fun δ : Fin 2 → ℝ => ENNReal.ofReal (gaussianPDFReal a u (δ 0) * gaussianPDFReal b v (δ 1)) := by
  have hD : (fun ω : ℝ × ℝ => (![ω.1, ω.2] : Fin 2 → ℝ)) = (MeasurableEquiv.finTwoArrow (α := ℝ)).symm := by
    funext ω
    rfl
  have hp : MeasurePreserving (MeasurableEquiv.finTwoArrow (α := ℝ)).symm (volume.prod volume) volume :=
    (volume_preserving_finTwoArrow ℝ).symm _
  rw [hD, gaussianReal_of_var_ne_zero _ hu, gaussianReal_of_var_ne_zero _ hv,
    prod_withDensity (measurable_gaussianPDF _ _) (measurable_gaussianPDF _ _)]
  ext B hB
  rw [Measure.map_apply (MeasurableEquiv.measurable _) hB, withDensity_apply _ hB,
    withDensity_apply _ (MeasurableEquiv.measurable _ hB),
    ← hp.setLIntegral_comp_preimage_emb (MeasurableEquiv.measurableEmbedding _)]
  congr 1
  funext ω
  rw [ENNReal.ofReal_mul (gaussianPDFReal_nonneg _ _ _)]
  rfl

theorem shiftLaw_map (a : ℝ) : (shiftLaw a).map (fun ω : ℝ × ℝ => (![ω.1, ω.2] : Fin 2 → ℝ)) =
    volume.withDensity fun δ : Fin 2 → ℝ => ENNReal.ofReal (gaussianPDFReal a 1 (δ 0) * gaussianPDFReal 0 1 (δ 1)) :=
  pair_law a 0 one_ne_zero one_ne_zero

theorem pair_measurable : Measurable fun ω : ℝ × ℝ => (![ω.1, ω.2] : Fin 2 → ℝ) :=
  (MeasurableEquiv.finTwoArrow (α := ℝ)).symm.measurable

theorem stated_pos (b : ℝ) (x y : Fin 2 → ℝ) : 0 < shiftStated b x y :=
  mul_pos (gaussianPDFReal_pos _ _ _ one_ne_zero) (gaussianPDFReal_pos _ _ _ one_ne_zero)

theorem stated_continuous (b : ℝ) : Continuous fun p : (Fin 2 → ℝ) × (Fin 2 → ℝ) => shiftStated b p.1 p.2 := by
  unfold shiftStated gaussianPDFReal
  fun_prop

/-- C109: with displacements of negative mean `a`, the part of any finite target where the first variable
is below a bound gains in the first step, by either rule, whether a function or a pair is stated, of
the densities of the moves there or back, if the target is not negligible about that bound. -/
theorem C109_normal {a b : ℝ} (ha : a < 0) (hb : b = a ∨ b = -a) (pair hastings : Bool) (start : Fin 2 → ℝ)
    {w : (Fin 2 → ℝ) → ℝ} (hwm : Measurable w) (hw : ∀ x, 0 ≤ w x) (hfin : ∫⁻ x, ENNReal.ofReal (w x) ≠ ⊤) (c : ℝ)
    (hpos : 0 < (volume.prod volume) {p : (Fin 2 → ℝ) × (Fin 2 → ℝ) | p.1 0 < c ∧ c ≤ p.2 0 ∧ 0 < w p.1 ∧
      npz ≤ w p.2 ∧ npz ≤ w p.2 * shiftStated b p.2 p.1})
    (l : (Fin 2 → ℝ) → OPQR (Row (Fin 2 → ℝ))) (hl : ∀ x, Spec.At w (l x) x) :
    ∫⁻ s in {s | s 0 < c}, ENNReal.ofReal (w s) < ∫⁻ s, ENNReal.ofReal (w s) * Spec.arrives (shiftLaw a)
      (Spec.mover shiftAxes false shiftDelta w (shiftStated b) pair hastings start (.flt 1)) 1 (l s) {s | s 0 < c} := by
  have hlean : ∀ δ : Fin 2 → ℝ, 0 < δ 0 → gaussianPDFReal a 1 (δ 0) < gaussianPDFReal a 1 ((-δ) 0) := by
    intro δ h
    unfold gaussianPDFReal
    refine mul_lt_mul_of_pos_left (Real.exp_lt_exp.2 ?_) (by positivity)
    rw [Pi.neg_apply]
    refine div_lt_div_of_pos_right ?_ (by norm_num)
    nlinarith
  have heven : ∀ t : ℝ, gaussianPDFReal 0 1 (-t) = gaussianPDFReal 0 1 t := by
    intro t
    simp [gaussianPDFReal]
  refine C109_drift (fun _ => rfl) (fun _ => rfl) pair_measurable
    (g := fun δ => gaussianPDFReal a 1 (δ 0) * gaussianPDFReal 0 1 (δ 1))
    (((measurable_gaussianPDFReal _ _).comp (measurable_pi_apply 0)).mul
      ((measurable_gaussianPDFReal _ _).comp (measurable_pi_apply 1)))
    (fun δ => mul_nonneg (gaussianPDFReal_nonneg _ _ _) (gaussianPDFReal_nonneg _ _ _)) (shiftLaw_map a) hwm hw hfin
    (stated_continuous b).measurable (stated_pos b) pair hastings start (by simp [evalPscale]) 0 ?_ ?_ c hpos l hl
  · intro δ h
    rw [show (-δ) 1 = -(δ 1) from rfl, heven]
    exact mul_lt_mul_of_pos_right (hlean δ h) (gaussianPDFReal_pos _ _ _ one_ne_zero)
  · intro _ _ x y hxy
    have hg : ∀ x y : Fin 2 → ℝ, shiftStated a x y = gaussianPDFReal a 1 ((y - x) 0) * gaussianPDFReal 0 1 ((y - x) 1) := by
      intro x y
      simp only [shiftStated, gaussianPDFReal, Pi.sub_apply]
      rw [mul_comm]
      congr 3 <;> ring
    have hg' : ∀ x y : Fin 2 → ℝ, shiftStated (-a) x y = shiftStated a y x := by
      intro x y
      simp only [shiftStated, gaussianPDFReal]
      congr 3 <;> ring
    rw [← hg, ← hg]
    rcases hb with rfl | rfl
    · have h1 : shiftStated b x y ≤ shiftStated b y x := by
        rw [hg, hg]
        have := hlean (y - x) (by simpa using hxy)
        rw [neg_sub] at this
        refine mul_le_mul this.le (le_of_eq ?_) (gaussianPDFReal_nonneg _ _ _) (gaussianPDFReal_nonneg _ _ _)
        rw [← heven, ← Pi.neg_apply, neg_sub]
      exact mul_self_le_mul_self (stated_pos b x y).le h1
    · rw [hg', hg', mul_comm]

/-! ### The example -/

/-- The target of mcmc_prob6.py:62-63: the normal density of covariance `[[2, 1.2], [1.2, 2]]`, whose determinant
is `2.56` and whose inverse is `[[2, -1.2], [-1.2, 2]] / 2.56`. -/
noncomputable def bivariate (x : Fin 2 → ℝ) : ℝ :=
  Real.exp (-(2 * x 0 ^ 2 - 2 * (6 / 5) * x 0 * x 1 + 2 * x 1 ^ 2) / (2 * (64 / 25))) / (2 * Real.pi * (8 / 5))

theorem bivariate_continuous : Continuous bivariate := by
  unfold bivariate
  fun_prop

theorem bivariate_pos (x : Fin 2 → ℝ) : 0 < bivariate x := by unfold bivariate; positivity

theorem bivariate_finite : ∫⁻ x, ENNReal.ofReal (bivariate x) ≠ ⊤ := by
  have h1 : ∫⁻ δ : Fin 2 → ℝ, ENNReal.ofReal (gaussianPDFReal 0 4 (δ 0) * gaussianPDFReal 0 4 (δ 1)) = 1 := by
    have h := congrArg (fun μ => μ Set.univ) (pair_law 0 0 (u := 4) (v := 4) (by norm_num) (by norm_num))
    simp only [withDensity_apply _ MeasurableSet.univ, Measure.restrict_univ] at h
    rw [← h, Measure.map_apply pair_measurable MeasurableSet.univ]
    simp
  set K : ℝ := √(2 * Real.pi * (4 : NNReal)) ^ 2 / (2 * Real.pi * (8 / 5)) with hK
  have hle : ∀ x : Fin 2 → ℝ, ENNReal.ofReal (bivariate x) ≤
      ENNReal.ofReal K * ENNReal.ofReal (gaussianPDFReal 0 4 (x 0) * gaussianPDFReal 0 4 (x 1)) := by
    intro x
    rw [← ENNReal.ofReal_mul (by positivity)]
    refine ENNReal.ofReal_le_ofReal ?_
    have hr : 0 < √(2 * Real.pi * (4 : NNReal)) := by
      refine Real.sqrt_pos.2 (mul_pos (by positivity) ?_)
      norm_num
    have : K * (gaussianPDFReal 0 4 (x 0) * gaussianPDFReal 0 4 (x 1)) =
        Real.exp (-(x 0) ^ 2 / 8 + -(x 1) ^ 2 / 8) / (2 * Real.pi * (8 / 5)) := by
      rw [Real.exp_add]
      simp only [gaussianPDFReal, hK, sub_zero]
      have h8 : (2 * ((4 : NNReal) : ℝ)) = 8 := by norm_num
      rw [h8]
      field_simp
    rw [this]
    unfold bivariate
    refine div_le_div_of_nonneg_right (Real.exp_le_exp.2 ?_) (by positivity)
    have h5 : -(2 * x 0 ^ 2 - 2 * (6 / 5) * x 0 * x 1 + 2 * x 1 ^ 2) / (2 * (64 / 25)) =
        -(5 / 32) * (x 0 ^ 2 + x 1 ^ 2) - 15 / 64 * (x 0 - x 1) ^ 2 := by ring
    rw [h5]
    nlinarith [sq_nonneg (x 0 - x 1), sq_nonneg (x 0), sq_nonneg (x 1)]
  refine ne_top_of_le_ne_top ?_ (lintegral_mono hle)
  rw [lintegral_const_mul' _ _ ENNReal.ofReal_ne_top, h1, mul_one]
  exact ENNReal.ofReal_ne_top

theorem bivariate_about (b : ℝ) (hb : b = -2 ∨ b = 2) : 0 < (volume.prod volume) {p : (Fin 2 → ℝ) × (Fin 2 → ℝ) |
    p.1 0 < 0 ∧ 0 ≤ p.2 0 ∧ 0 < bivariate p.1 ∧ npz ≤ bivariate p.2 ∧ npz ≤ bivariate p.2 * shiftStated b p.2 p.1} := by
  have hpi : Real.pi ≤ 4 := Real.pi_le_four
  have hpi0 := Real.pi_pos
  set U : Set ((Fin 2 → ℝ) × (Fin 2 → ℝ)) := {p | p.1 0 < 0 ∧ 0 < p.2 0 ∧ npz < bivariate p.2 ∧
    npz < bivariate p.2 * shiftStated b p.2 p.1} with hU
  have hopen : IsOpen U := by
    have c1 : Continuous fun p : (Fin 2 → ℝ) × (Fin 2 → ℝ) => bivariate p.2 := bivariate_continuous.comp continuous_snd
    have c2 : Continuous fun p : (Fin 2 → ℝ) × (Fin 2 → ℝ) => shiftStated b p.2 p.1 :=
      (stated_continuous b).comp continuous_swap
    refine (isOpen_lt ((continuous_apply 0).comp continuous_fst) continuous_const).inter
      ((isOpen_lt continuous_const ((continuous_apply 0).comp continuous_snd)).inter
      ((isOpen_lt continuous_const c1).inter (isOpen_lt continuous_const (c1.mul c2))))
  have hthree : ∀ k : ℕ, (1 / 3 : ℝ) ^ k ≤ Real.exp (-(k : ℝ)) := by
    intro k
    have : Real.exp (-(k : ℝ)) = (Real.exp (-1)) ^ k := by
      rw [← Real.exp_nat_mul]
      congr 1
      ring
    rw [this]
    refine pow_le_pow_left₀ (by norm_num) ?_ k
    rw [Real.exp_neg, one_div]
    exact inv_anti₀ (Real.exp_pos 1) Real.exp_one_lt_three.le
  have hbv : (1 / 39 : ℝ) ≤ bivariate ![1, 0] := by
    unfold bivariate
    have h : Real.exp (-((1 : ℕ) : ℝ)) ≤
        Real.exp (-(2 * (![1, 0] : Fin 2 → ℝ) 0 ^ 2 - 2 * (6 / 5) * (![1, 0] : Fin 2 → ℝ) 0 * (![1, 0] : Fin 2 → ℝ) 1 +
          2 * (![1, 0] : Fin 2 → ℝ) 1 ^ 2) / (2 * (64 / 25))) := by
      refine Real.exp_le_exp.2 ?_
      simp
      norm_num
    have h3 := (hthree 1).trans h
    rw [le_div_iff₀ (by positivity)]
    refine le_trans ?_ h3
    rw [pow_one]
    nlinarith
  have hpdf : ∀ m t : ℝ, (t - m) ^ 2 ≤ 16 → (1 / 3 : ℝ) ^ 8 / 8 ≤ gaussianPDFReal m 1 t := by
    intro m t h
    unfold gaussianPDFReal
    have h1 : Real.exp (-((8 : ℕ) : ℝ)) ≤ Real.exp (-(t - m) ^ 2 / (2 * ((1 : NNReal) : ℝ))) := by
      refine Real.exp_le_exp.2 ?_
      rw [NNReal.coe_one]
      push_cast
      linarith
    have h2 : (1 / 8 : ℝ) ≤ (√(2 * Real.pi * (1 : NNReal)))⁻¹ := by
      rw [one_div]
      refine inv_anti₀ (Real.sqrt_pos.2 (by rw [NNReal.coe_one]; positivity)) ?_
      rw [NNReal.coe_one, Real.sqrt_le_left (by norm_num)]
      nlinarith
    calc (1 / 3 : ℝ) ^ 8 / 8 = 1 / 8 * (1 / 3) ^ 8 := by ring
      _ ≤ _ := mul_le_mul h2 ((hthree 8).trans h1) (by positivity) (by positivity)
  have hne : U.Nonempty := by
    refine ⟨(![-1, 0], ![1, 0]), by simp, by simp, ?_, ?_⟩
    · refine lt_of_lt_of_le ?_ hbv
      unfold npz; norm_num
    · have hst : ((1 / 3 : ℝ) ^ 8 / 8) * ((1 / 3 : ℝ) ^ 8 / 8) ≤ shiftStated b ![1, 0] ![-1, 0] := by
        refine mul_le_mul (hpdf _ _ ?_) (hpdf _ _ ?_) (by positivity) (gaussianPDFReal_nonneg _ _ _)
        · simp
        · rcases hb with rfl | rfl <;> simp <;> norm_num
      refine lt_of_lt_of_le ?_ (mul_le_mul hbv hst (by positivity) (bivariate_pos _).le)
      unfold npz; norm_num
  refine lt_of_lt_of_le (hopen.measure_pos (volume.prod volume) hne) (measure_mono ?_)
  rintro p ⟨h1, h2, h3, h4⟩
  exact ⟨h1, h2.le, bivariate_pos _, h3.le, h4.le⟩

/-- C109: in examples/mcmc/mcmc_prob6.py, started anywhere as the target has it, the first variable is
negative more often after one step than in the target. -/
theorem C109_example (start : Fin 2 → ℝ) (l : (Fin 2 → ℝ) → OPQR (Row (Fin 2 → ℝ))) (hl : ∀ x, Spec.At bivariate (l x) x) :
    ∫⁻ s in {s | s 0 < 0}, ENNReal.ofReal (bivariate s) < ∫⁻ s, ENNReal.ofReal (bivariate s) *
      Spec.arrives (shiftLaw (-2)) (Spec.mover shiftAxes false shiftDelta bivariate (shiftStated 2) true true start (.flt 1))
        1 (l s) {s | s 0 < 0} :=
  C109_normal (by norm_num) (Or.inr (by norm_num)) true true start bivariate_continuous.measurable
    (fun x => (bivariate_pos x).le) bivariate_finite 0 (bivariate_about 2 (Or.inr rfl)) l hl

/-- C109 fails, for functions and for pairs, of densities there and back: the target of the example is lost. -/
theorem C109_lost {b : ℝ} (hb : b = -2 ∨ b = 2) (pair hastings : Bool) (start : Fin 2 → ℝ) :
    ¬ Spec.KeepsWeight (shiftLaw (-2))
      (Spec.mover shiftAxes false shiftDelta bivariate (shiftStated b) pair hastings start (.flt 1))
      bivariate bivariate id := by
  intro h
  let l : (Fin 2 → ℝ) → OPQR (Row (Fin 2 → ℝ)) := fun x =>
    ⟨none, some ⟨x, .scalar (bivariate x)⟩, some ⟨x, .scalar (bivariate x)⟩, none⟩
  have hl : ∀ x, Spec.At bivariate (l x) x := fun x => ⟨rfl, _, rfl⟩
  have h1 := h l hl 1 {s | s 0 < 0} (measurableSet_lt (measurable_pi_apply 0) measurable_const)
  have h2 := C109_normal (a := -2) (b := b) (by norm_num) (hb.imp id fun h => by rw [h]; norm_num) pair hastings start
    bivariate_continuous.measurable (fun x => (bivariate_pos x).le) bivariate_finite 0 (bivariate_about b hb) l hl
  exact absurd h1 h2.ne'

theorem C109_claim_fails : ¬ C109_claim := fun h =>
  C109_lost (Or.inr rfl) true true (fun _ => 0) (h (-2) 2 true (fun _ => 0) bivariate (Or.inr (by norm_num))
    bivariate_continuous.measurable (fun x => (bivariate_pos x).le) bivariate_finite)

/-- C109, proved part: without a shift, and with a single function, every target of normal floats is kept.
What is missing is every shift, and pairs, which divide by products that may be less than the smallest normal float. -/
theorem C109_keeps_partial (hastings : Bool) (b : ℝ) (start : Fin 2 → ℝ) {w : (Fin 2 → ℝ) → ℝ}
    (hst : Spec.Stored w (.flt 1) w) (hw : Measurable w) :
    Spec.KeepsWeight (shiftLaw 0) (Spec.mover shiftAxes false shiftDelta w (shiftStated b) false hastings start (.flt 1))
      w w id := by
  have hun : Spec.untransformed shiftAxes = id := by
    funext s i
    simp [Spec.untransformed, shiftAxes, UFun.inv]
  have hsym : (shiftLaw 0).map (fun ω => - (![ω.1, ω.2] : Fin 2 → ℝ)) = (shiftLaw 0).map fun ω => ![ω.1, ω.2] := by
    have h : (fun ω : ℝ × ℝ => - (![ω.1, ω.2] : Fin 2 → ℝ)) =
        (fun ω : ℝ × ℝ => (![ω.1, ω.2] : Fin 2 → ℝ)) ∘ Prod.map (fun t : ℝ => -t) (fun t : ℝ => -t) := by
      funext ω i
      fin_cases i <;> simp
    have h2 : (shiftLaw 0).map (Prod.map (fun t : ℝ => -t) (fun t : ℝ => -t)) = shiftLaw 0 := by
      unfold shiftLaw
      rw [← Measure.map_prod_map _ _ measurable_neg measurable_neg, gaussianReal_map_neg, neg_zero]
    rw [h, ← Measure.map_map pair_measurable (measurable_neg.prodMap measurable_neg), h2]
  have := C90_keeps_partial (P := shiftLaw 0) (cs := shiftAxes) (f := shiftDelta) (q := shiftStated b) (pair := false)
    (hastings := hastings) (start := start)
    (fun i => ⟨fun _ => rfl, measurable_id⟩) (fun _ => rfl) pair_measurable hsym hst hw
    (fun x ω _ => ⟨fun _ => ⟨.lin 1, by simp [evalPscale], one_pos, trivial, by simpa [Spec.value] using stated_pos _ _ _⟩,
      fun h => by simp at h⟩)
  rwa [hun] at this

/-- Non-vacuity of `C109_keeps_partial`. -/
example : Spec.Stored (fun x : Fin 2 → ℝ => 1 + x 0 ^ 2) (.flt 1) (fun x => 1 + x 0 ^ 2) :=
  ⟨⟨.lin 1, by simp [evalPscale], one_pos, fun _ => trivial, fun _ => by simp [Spec.value]⟩,
    fun x => by positivity⟩

/-- The states from which `C109_example` starts. -/
example : ∀ x : Fin 2 → ℝ, Spec.At bivariate
    ⟨none, some ⟨x, .scalar (bivariate x)⟩, some ⟨x, .scalar (bivariate x)⟩, none⟩ x := fun x => ⟨rfl, _, rfl⟩

end Probayes
