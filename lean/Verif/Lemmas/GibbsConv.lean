/-
Resampling the variables of a multivariate normal distribution in turn, over and over, tends
to it from any start: helpers for C86.
-/
import Verif.Lemmas.GibbsLaw
import Mathlib.MeasureTheory.Function.ConvergenceInMeasure
import Mathlib.Analysis.SpecialFunctions.Gaussian.GaussianIntegral

namespace Probayes

open MeasureTheory ProbabilityTheory CondCov Filter Topology

/-! ### Normal distributions with different means -/

/-- How much a normal distribution moved by `δ` exceeds the one left where it is. -/
noncomputable def excess (δ : ℝ) : ENNReal :=
  ∫⁻ z, ENNReal.ofReal (gaussianPDFReal 0 1 (z - δ) - gaussianPDFReal 0 1 z)

theorem excess_bound (z δ : ℝ) (hδ : |δ| ≤ 1) :
    gaussianPDFReal 0 1 (z - δ) - gaussianPDFReal 0 1 z ≤
      (√(2 * Real.pi * (1 : NNReal)))⁻¹ * Real.exp (1 / 2) * Real.exp (-(1 / 4) * z ^ 2) := by
  have h1 := gaussianPDFReal_nonneg 0 1 z
  have h2 : gaussianPDFReal 0 1 (z - δ) ≤
      (√(2 * Real.pi * (1 : NNReal)))⁻¹ * Real.exp (1 / 2) * Real.exp (-(1 / 4) * z ^ 2) := by
    unfold gaussianPDFReal
    rw [mul_assoc _ (Real.exp (1 / 2)), ← Real.exp_add]
    refine mul_le_mul_of_nonneg_left (Real.exp_le_exp.mpr ?_) (by positivity)
    have hd : δ ^ 2 ≤ 1 := by
      rw [← sq_abs]
      nlinarith [abs_nonneg δ]
    simp only [NNReal.coe_one, mul_one, sub_zero]
    nlinarith [sq_nonneg (z - 2 * δ)]
  linarith

theorem excess_tendsto : Tendsto excess (𝓝 0) (𝓝 0) := by
  have hint : Integrable fun z : ℝ =>
      (√(2 * Real.pi * (1 : NNReal)))⁻¹ * Real.exp (1 / 2) * Real.exp (-(1 / 4) * z ^ 2) :=
    (integrable_exp_neg_mul_sq (by norm_num)).const_mul _
  have hlim : (∫⁻ z, (0 : ENNReal) ∂(volume : Measure ℝ)) = 0 := lintegral_zero
  unfold excess
  rw [show 𝓝 (0 : ENNReal) = 𝓝 (∫⁻ z, (0 : ENNReal) ∂(volume : Measure ℝ)) by rw [hlim]]
  refine tendsto_lintegral_filter_of_dominated_convergence (fun z => ENNReal.ofReal
      ((√(2 * Real.pi * (1 : NNReal)))⁻¹ * Real.exp (1 / 2) * Real.exp (-(1 / 4) * z ^ 2))) ?_ ?_
    hint.lintegral_lt_top.ne ?_
  · refine Eventually.of_forall fun δ => ?_
    have := measurable_gaussianPDFReal 0 1
    exact ((this.comp (measurable_id.sub_const δ)).sub this).ennreal_ofReal
  · have : ∀ᶠ δ in 𝓝 (0 : ℝ), |δ| ≤ 1 := by
      filter_upwards [Metric.ball_mem_nhds (0 : ℝ) one_pos] with δ hδ
      rw [Metric.mem_ball, Real.dist_eq, sub_zero] at hδ
      exact hδ.le
    filter_upwards [this] with δ hδ
    exact Eventually.of_forall fun z => ENNReal.ofReal_le_ofReal (excess_bound z δ hδ)
  · refine Eventually.of_forall fun z => ?_
    have hcont : Continuous fun δ : ℝ => ENNReal.ofReal (gaussianPDFReal 0 1 (z - δ) - gaussianPDFReal 0 1 z) := by
      refine ENNReal.continuous_ofReal.comp (Continuous.sub ?_ continuous_const)
      unfold gaussianPDFReal
      fun_prop
    have := hcont.tendsto 0
    simpa using this

theorem gauss_moved (h : ℝ → ENNReal) (hh : Measurable h) (a : ℝ) :
    ∫⁻ z, h (a + z) ∂gaussianReal 0 1 = ∫⁻ z, ENNReal.ofReal (gaussianPDFReal 0 1 (z - a)) * h z := by
  have hm : Measurable fun z => ENNReal.ofReal (gaussianPDFReal 0 1 (z - a)) * h z :=
    ((measurable_gaussianPDFReal 0 1).comp (measurable_id.sub_const a)).ennreal_ofReal.mul hh
  have hm2 : Measurable fun z => h (a + z) := hh.comp (measurable_const_add a)
  rw [gaussianReal_of_var_ne_zero 0 one_ne_zero,
    lintegral_withDensity_eq_lintegral_mul _ (measurable_gaussianPDF 0 1) hm2,
    ← lintegral_add_left_eq_self (fun z => ENNReal.ofReal (gaussianPDFReal 0 1 (z - a)) * h z) a]
  refine lintegral_congr fun z => ?_
  simp [gaussianPDF]

theorem gauss_close {h h' : ℝ → ENNReal} (hh : Measurable h) (hh' : Measurable h') (h1 : ∀ z, h' z ≤ 1) {ε : ENNReal}
    (hle : ∀ z, h z ≤ h' z + ε) (a b : ℝ) :
    ∫⁻ z, h (a + z) ∂gaussianReal 0 1 ≤ ∫⁻ z, h' (b + z) ∂gaussianReal 0 1 + (excess (a - b) + ε) := by
  have hm : ∀ a, Measurable fun z => ENNReal.ofReal (gaussianPDFReal 0 1 (z - a)) := fun a =>
    ((measurable_gaussianPDFReal 0 1).comp (measurable_id.sub_const a)).ennreal_ofReal
  have hstep : ∫⁻ z, h (a + z) ∂gaussianReal 0 1 ≤ ∫⁻ z, h' (a + z) ∂gaussianReal 0 1 + ε := by
    refine (lintegral_mono fun z => hle (a + z)).trans ?_
    rw [lintegral_add_right _ measurable_const]
    simp
  refine hstep.trans ?_
  rw [← add_assoc]
  gcongr
  rw [gauss_moved h' hh' a, gauss_moved h' hh' b]
  have hex : excess (a - b) = ∫⁻ z, ENNReal.ofReal (gaussianPDFReal 0 1 (z - a) - gaussianPDFReal 0 1 (z - b)) := by
    unfold excess
    rw [← lintegral_add_left_eq_self _ (-b)]
    refine lintegral_congr fun z => ?_
    rw [show -b + z - (a - b) = z - a by ring, show -b + z = z - b by ring]
  have hm2 : Measurable fun z => ENNReal.ofReal (gaussianPDFReal 0 1 (z - a) - gaussianPDFReal 0 1 (z - b)) := by
    have := measurable_gaussianPDFReal 0 1
    exact ((this.comp (measurable_id.sub_const a)).sub (this.comp (measurable_id.sub_const b))).ennreal_ofReal
  rw [hex, ← lintegral_add_right _ hm2]
  refine lintegral_mono fun z => ?_
  have h2 : ENNReal.ofReal (gaussianPDFReal 0 1 (z - a)) ≤ ENNReal.ofReal (gaussianPDFReal 0 1 (z - b)) +
      ENNReal.ofReal (gaussianPDFReal 0 1 (z - a) - gaussianPDFReal 0 1 (z - b)) := by
    refine le_trans (ENNReal.ofReal_le_ofReal ?_) ENNReal.ofReal_add_le
    linarith
  calc ENNReal.ofReal (gaussianPDFReal 0 1 (z - a)) * h' z
      ≤ (ENNReal.ofReal (gaussianPDFReal 0 1 (z - b)) +
          ENNReal.ofReal (gaussianPDFReal 0 1 (z - a) - gaussianPDFReal 0 1 (z - b))) * h' z := by gcongr
    _ ≤ _ := by
        rw [add_mul]
        gcongr
        exact mul_le_of_le_one_right' (h1 z)

/-! ### Close starts stay close -/

/-- The standardised conditional mean. -/
noncomputable def condMean {n : ℕ} (c : CondCov n) (i : Fin (n + 1)) (x : Fin (n + 1) → ℝ) : ℝ :=
  (c.mean i + c.shift i (fun j => x (i.succAbove j))) / c.stdv i

theorem condMean_uniform {n : ℕ} (c : CondCov n) (i : Fin (n + 1)) : UniformContinuous (condMean c i) := by
  have : UniformContinuous fun x : Fin (n + 1) → ℝ => ∑ j, c.coef i j * x (i.succAbove j) := by
    have he : (fun x : Fin (n + 1) → ℝ => ∑ j, c.coef i j * x (i.succAbove j)) =
        ⇑(∑ j, c.coef i j • ContinuousLinearMap.proj (R := ℝ) (φ := fun _ : Fin (n + 1) => ℝ) (i.succAbove j) :
          (Fin (n + 1) → ℝ) →L[ℝ] ℝ) := by
      funext x
      simp [ContinuousLinearMap.sum_apply]
    rw [he]
    exact ContinuousLinearMap.uniformContinuous _
  have h2 : condMean c i = fun x => (c.stdv i)⁻¹ * (c.mean i - ∑ j, c.coef i j * c.mean (i.succAbove j) +
      ∑ j, c.coef i j * x (i.succAbove j)) := by
    funext x
    simp only [condMean, shift, mul_sub, Finset.sum_sub_distrib]
    ring
  rw [h2]
  have h3 : UniformContinuous fun x : Fin (n + 1) → ℝ =>
      c.mean i - ∑ j, c.coef i j * c.mean (i.succAbove j) + ∑ j, c.coef i j * x (i.succAbove j) :=
    uniformContinuous_const.add this
  exact (uniformContinuous_const_smul (c.stdv i)⁻¹).comp h3

theorem resampled_eq {n : ℕ} (c : CondCov n) (i : Fin (n + 1)) (hs : 0 < c.stdv i) (G : (Fin (n + 1) → ℝ) → ENNReal)
    (x : Fin (n + 1) → ℝ) :
    resampled c G i x =
      ∫⁻ z, (fun y => G (Function.update x i (c.stdv i * y))) (condMean c i x + z) ∂gaussianReal 0 1 := by
  unfold resampled
  refine lintegral_congr fun z => ?_
  simp only [resample, condMean]
  congr 2
  field_simp

theorem resamples_close {n : ℕ} (c : CondCov n) (hs : ∀ i, 0 < c.stdv i) (w : List (Fin (n + 1))) :
    ∀ ε : ENNReal, 0 < ε → ∃ η > 0, ∀ G : (Fin (n + 1) → ℝ) → ENNReal, Measurable G → (∀ x, G x ≤ 1) →
      ∀ x x' : Fin (n + 1) → ℝ, (∀ j ∉ w, x j = x' j) → dist x x' < η →
        resamples c G w x ≤ resamples c G w x' + ε := by
  induction w with
  | nil =>
      intro ε _
      refine ⟨1, one_pos, fun G _ _ x x' h _ => ?_⟩
      have : x = x' := funext fun j => h j (by simp)
      rw [this]
      exact le_self_add
  | cons i w ih =>
      intro ε hε
      have hε2 : 0 < ε / 2 := ENNReal.half_pos hε.ne'
      obtain ⟨η₁, hη₁, h1⟩ := ih (ε / 2) hε2
      obtain ⟨η₂, hη₂, h2⟩ : ∃ η₂ > 0, ∀ δ : ℝ, |δ| < η₂ → excess δ ≤ ε / 2 := by
        have := excess_tendsto.eventually (Iic_mem_nhds hε2)
        obtain ⟨η₂, hη₂, h⟩ := Metric.eventually_nhds_iff.mp this
        exact ⟨η₂, hη₂, fun δ hδ => h (by rwa [Real.dist_eq, sub_zero])⟩
      obtain ⟨η₃, hη₃, h3⟩ := Metric.uniformContinuous_iff.mp (condMean_uniform c i) η₂ hη₂
      refine ⟨min η₁ η₃, lt_min hη₁ hη₃, fun G hG hG1 x x' hx hd => ?_⟩
      have hF := resamples_measurable c hG w
      have hF1 := resamples_le_one c hG1 w
      have hup : ∀ x : Fin (n + 1) → ℝ, Measurable fun y : ℝ => resamples c G w (Function.update x i (c.stdv i * y)) :=
        fun x => hF.comp ((measurable_update x).comp (measurable_const_mul _))
      simp only [resamples]
      rw [resampled_eq c i (hs i), resampled_eq c i (hs i)]
      refine (gauss_close (hup x) (hup x') (fun z => hF1 _) (ε := ε / 2) (fun z => ?_) (condMean c i x)
        (condMean c i x')).trans ?_
      · refine h1 G hG hG1 _ _ (fun j hj => ?_) ?_
        · by_cases hji : j = i
          · subst hji
            simp
          · rw [Function.update_of_ne hji, Function.update_of_ne hji]
            exact hx j (by simp [hji, hj])
        · refine lt_of_le_of_lt ?_ (hd.trans_le (min_le_left _ _))
          refine (dist_pi_le_iff dist_nonneg).mpr fun j => ?_
          by_cases hji : j = i
          · subst hji
            simp
          · rw [Function.update_of_ne hji, Function.update_of_ne hji]
            exact dist_le_pi_dist x x' j
      · gcongr
        have h5 : excess (condMean c i x - condMean c i x') ≤ ε / 2 := by
          refine h2 _ ?_
          rw [← Real.dist_eq]
          exact h3 (hd.trans_le (min_le_right _ _))
        calc _ ≤ ε / 2 + ε / 2 := by gcongr
          _ = ε := ENNReal.add_halves ε

/-! ### Starts come close -/

/-- What becomes of a difference when the variable `i` of both is resampled. -/
noncomputable def settle {n : ℕ} (c : CondCov n) (i : Fin (n + 1)) (d : Fin (n + 1) → ℝ) : Fin (n + 1) → ℝ :=
  fun k => d k - (∑ l, Spec.residual i (c.coef i) l * d l) * if k = i then 1 else 0

/-- And when the variables `w` are in turn. -/
noncomputable def settles {n : ℕ} (c : CondCov n) : List (Fin (n + 1)) → (Fin (n + 1) → ℝ) → Fin (n + 1) → ℝ
  | [], d => d
  | i :: w, d => settles c w (settle c i d)

theorem settles_append {n : ℕ} (c : CondCov n) (v w : List (Fin (n + 1))) (d : Fin (n + 1) → ℝ) :
    settles c (v ++ w) d = settles c w (settles c v d) := by
  induction v generalizing d with
  | nil => rfl
  | cons i v ih => simp only [List.cons_append, settles, ih]

theorem settle_smul {n : ℕ} (c : CondCov n) (i : Fin (n + 1)) (a : ℝ) (d : Fin (n + 1) → ℝ) :
    settle c i (a • d) = a • settle c i d := by
  funext k
  simp only [settle, Pi.smul_apply, smul_eq_mul]
  rw [show ∑ l, Spec.residual i (c.coef i) l * (a * d l) = a * ∑ l, Spec.residual i (c.coef i) l * d l by
    rw [Finset.mul_sum]; exact Finset.sum_congr rfl fun l _ => by ring]
  ring

theorem settles_smul {n : ℕ} (c : CondCov n) (w : List (Fin (n + 1))) (a : ℝ) (d : Fin (n + 1) → ℝ) :
    settles c w (a • d) = a • settles c w d := by
  induction w generalizing d with
  | nil => rfl
  | cons i w ih => simp only [settles, settle_smul, ih]

theorem settles_continuous {n : ℕ} (c : CondCov n) (w : List (Fin (n + 1))) : Continuous (settles c w) := by
  induction w with
  | nil => exact continuous_id
  | cons i w ih =>
      refine ih.comp ?_
      unfold settle
      fun_prop

theorem resample_add {n : ℕ} (c : CondCov n) (i : Fin (n + 1)) (x d : Fin (n + 1) → ℝ) (z : ℝ) :
    resample c i (x + d) z = resample c i x z + settle c i d := by
  funext k
  rw [Pi.add_apply, resample_eq, resample_eq]
  simp only [settle, Pi.add_apply]
  have : ∑ l, Spec.residual i (c.coef i) l * (x l + d l - c.mean l) =
      ∑ l, Spec.residual i (c.coef i) l * (x l - c.mean l) + ∑ l, Spec.residual i (c.coef i) l * d l := by
    rw [← Finset.sum_add_distrib]
    exact Finset.sum_congr rfl fun l _ => by ring
  rw [this]
  ring

theorem resamples_coupled {n : ℕ} (c : CondCov n) {G : (Fin (n + 1) → ℝ) → ENNReal} {ε : ENNReal}
    (w : List (Fin (n + 1))) (d : Fin (n + 1) → ℝ) (h : ∀ x, G (x + settles c w d) ≤ G x + ε)
    (x : Fin (n + 1) → ℝ) : resamples c G w (x + d) ≤ resamples c G w x + ε := by
  induction w generalizing d x with
  | nil => exact h x
  | cons i w ih =>
      simp only [resamples, resampled]
      refine (lintegral_mono fun z => ?_).trans
        (b := ∫⁻ z, (resamples c G w (resample c i x z) + ε) ∂gaussianReal 0 1) ?_
      · rw [resample_add]
        exact ih (settle c i d) h _
      · rw [lintegral_add_right _ measurable_const]
        simp

/-- The energy of a difference. -/
noncomputable def energy {n : ℕ} (c : CondCov n) (d : Fin (n + 1) → ℝ) : ℝ := d ⬝ᵥ c.cov⁻¹.mulVec d

theorem precision_col {n : ℕ} (c : CondCov n) (hc : Spec.IsCov c.cov) (i : Fin (n + 1)) (d : Fin (n + 1) → ℝ) :
    (c.cov⁻¹.mulVec d) i = (∑ l, Spec.residual i (c.coef i) l * d l) / c.stdv i ^ 2 := by
  have hs := (stdv_sq c hc i).1
  have hdet : IsUnit c.cov.det := (isCov_posDef hc).det_pos.ne'.isUnit
  have hvec : Matrix.vecMul (Spec.residual i (c.coef i)) c.cov = fun k => if k = i then c.stdv i ^ 2 else 0 :=
    funext fun k => residual_cov c hc i k
  have h2 : Spec.residual i (c.coef i) = Matrix.vecMul (fun k => if k = i then c.stdv i ^ 2 else 0) c.cov⁻¹ := by
    rw [← hvec, Matrix.vecMul_vecMul, Matrix.mul_nonsing_inv _ hdet, Matrix.vecMul_one]
  have h3 : ∑ l, Spec.residual i (c.coef i) l * d l = c.stdv i ^ 2 * (c.cov⁻¹.mulVec d) i := by
    have h4 : ∑ l, Spec.residual i (c.coef i) l * d l = Spec.residual i (c.coef i) ⬝ᵥ d := rfl
    have h5 : Matrix.vecMul (fun k => if k = i then c.stdv i ^ 2 else 0) c.cov⁻¹ ⬝ᵥ d =
        (fun k => if k = i then c.stdv i ^ 2 else 0) ⬝ᵥ c.cov⁻¹.mulVec d := (Matrix.dotProduct_mulVec _ _ _).symm
    rw [h4, h2, h5]
    simp [dotProduct]
  rw [h3]
  field_simp

theorem energy_settle {n : ℕ} (c : CondCov n) (hc : Spec.IsCov c.cov) (i : Fin (n + 1)) (d : Fin (n + 1) → ℝ) :
    energy c (settle c i d) = energy c d - (∑ l, Spec.residual i (c.coef i) l * d l) ^ 2 / c.stdv i ^ 2 := by
  set a := ∑ l, Spec.residual i (c.coef i) l * d l with ha
  set e : Fin (n + 1) → ℝ := fun k => if k = i then 1 else 0 with he
  have hsd : settle c i d = d - a • e := by
    funext k
    simp [settle, ha, he]
  have hdotr : ∀ v : Fin (n + 1) → ℝ, e ⬝ᵥ v = v i := by
    intro v
    simp [he, dotProduct]
  have hsymm : c.cov⁻¹.transpose = c.cov⁻¹ := by
    rw [Matrix.transpose_nonsing_inv]
    congr 1
    ext a b
    exact hc.1 b a
  have hcol : c.cov⁻¹.mulVec d ⬝ᵥ e = a / c.stdv i ^ 2 := by
    rw [dotProduct_comm, hdotr, precision_col c hc i d]
  have hcol2 : (c.cov⁻¹.mulVec e) i = 1 / c.stdv i ^ 2 := by
    rw [precision_col c hc i e]
    congr 1
    simp [he, Spec.residual]
  have hsw : d ⬝ᵥ c.cov⁻¹.mulVec e = a / c.stdv i ^ 2 := by
    rw [Matrix.dotProduct_mulVec, ← Matrix.mulVec_transpose, hsymm, hcol]
  have hde : e ⬝ᵥ c.cov⁻¹.mulVec d = a / c.stdv i ^ 2 := by
    rw [dotProduct_comm, hcol]
  unfold energy
  rw [hsd, Matrix.mulVec_sub, Matrix.mulVec_smul, sub_dotProduct, dotProduct_sub, dotProduct_sub, smul_dotProduct,
    smul_dotProduct, dotProduct_smul, dotProduct_smul, hsw, hde, hdotr, hcol2]
  simp only [smul_eq_mul]
  ring

theorem energy_pos {n : ℕ} (c : CondCov n) (hc : Spec.IsCov c.cov) {d : Fin (n + 1) → ℝ} (hd : d ≠ 0) :
    0 < energy c d := by
  have := (isCov_posDef hc).inv.dotProduct_mulVec_pos hd
  simpa [energy] using this

theorem energy_smul {n : ℕ} (c : CondCov n) (a : ℝ) (d : Fin (n + 1) → ℝ) : energy c (a • d) = a ^ 2 * energy c d := by
  unfold energy
  rw [Matrix.mulVec_smul, smul_dotProduct, dotProduct_smul]
  simp only [smul_eq_mul]
  ring

theorem energy_continuous {n : ℕ} (c : CondCov n) : Continuous (energy c) := by
  unfold energy
  exact Continuous.dotProduct continuous_id (Continuous.matrix_mulVec continuous_const continuous_id)

theorem energy_settles {n : ℕ} (c : CondCov n) (hc : Spec.IsCov c.cov) (w : List (Fin (n + 1)))
    (d : Fin (n + 1) → ℝ) : energy c (settles c w d) ≤ energy c d ∧
      (energy c (settles c w d) = energy c d → ∀ i ∈ w, (c.cov⁻¹.mulVec d) i = 0) := by
  induction w generalizing d with
  | nil => exact ⟨le_rfl, fun _ i hi => by simp at hi⟩
  | cons i w ih =>
      have hs := (stdv_sq c hc i).1
      have h := ih (settle c i d)
      have he := energy_settle c hc i d
      have hnn : 0 ≤ (∑ l, Spec.residual i (c.coef i) l * d l) ^ 2 / c.stdv i ^ 2 := by positivity
      simp only [settles]
      refine ⟨by linarith [h.1], fun heq => ?_⟩
      have h0 : (∑ l, Spec.residual i (c.coef i) l * d l) ^ 2 / c.stdv i ^ 2 = 0 := by linarith [h.1]
      have h0' : ∑ l, Spec.residual i (c.coef i) l * d l = 0 := by
        have : (∑ l, Spec.residual i (c.coef i) l * d l) ^ 2 = 0 := by
          have hs2 : c.stdv i ^ 2 ≠ 0 := by positivity
          simpa [div_eq_zero_iff, hs.ne'] using h0
        simpa using this
      have hsame : settle c i d = d := by
        funext k
        simp [settle, h0']
      rw [hsame] at heq h
      intro j hj
      rcases List.mem_cons.mp hj with rfl | hj
      · rw [precision_col c hc, h0', zero_div]
      · exact h.2 heq j hj

/-- Differences vanish when all variables are resampled over and over. -/
theorem settles_tendsto {n : ℕ} (c : CondCov n) (hc : Spec.IsCov c.cov) (w : List (Fin (n + 1))) (hw : ∀ i, i ∈ w)
    (d : Fin (n + 1) → ℝ) : Tendsto (fun m => (settles c w)^[m] d) atTop (𝓝 0) := by
  have hstrict : ∀ d, d ≠ 0 → energy c (settles c w d) < energy c d := by
    intro d hd
    refine lt_of_le_of_ne (energy_settles c hc w d).1 fun heq => hd ?_
    have h0 : c.cov⁻¹.mulVec d = 0 := funext fun i => (energy_settles c hc w d).2 heq i (hw i)
    by_contra hne
    have := energy_pos c hc hne
    rw [energy, h0, dotProduct_zero] at this
    exact this.false
  have hsph : IsCompact (Metric.sphere (0 : Fin (n + 1) → ℝ) 1) := isCompact_sphere _ _
  have hne : (Metric.sphere (0 : Fin (n + 1) → ℝ) 1).Nonempty := NormedSpace.sphere_nonempty.mpr zero_le_one
  have hz : ∀ d ∈ Metric.sphere (0 : Fin (n + 1) → ℝ) 1, d ≠ 0 := by
    intro d hd h0
    rw [h0, mem_sphere_zero_iff_norm, norm_zero] at hd
    exact zero_ne_one hd
  obtain ⟨d₀, hd₀, hmax⟩ := hsph.exists_isMaxOn hne
    (f := fun d => energy c (settles c w d) / energy c d)
    (((energy_continuous c).comp (settles_continuous c w)).continuousOn.div (energy_continuous c).continuousOn
      fun d hd => (energy_pos c hc (hz d hd)).ne')
  obtain ⟨d₁, hd₁, hmin⟩ := hsph.exists_isMinOn hne (energy_continuous c).continuousOn
  set q := energy c (settles c w d₀) / energy c d₀ with hq
  have hq1 : q < 1 := (div_lt_one (energy_pos c hc (hz d₀ hd₀))).mpr (hstrict d₀ (hz d₀ hd₀))
  have hnn : ∀ d, 0 ≤ energy c d := by
    intro d
    by_cases h : d = 0
    · simp [h, energy]
    · exact (energy_pos c hc h).le
  have hq0 : 0 ≤ q := div_nonneg (hnn _) (hnn _)
  have hscale : ∀ d : Fin (n + 1) → ℝ, d ≠ 0 → ‖d‖⁻¹ • d ∈ Metric.sphere (0 : Fin (n + 1) → ℝ) 1 := by
    intro d hd
    rw [mem_sphere_zero_iff_norm, norm_smul, norm_inv, norm_norm, inv_mul_cancel₀ (norm_ne_zero_iff.mpr hd)]
  have hcontr : ∀ d, energy c (settles c w d) ≤ q * energy c d := by
    intro d
    by_cases h : d = 0
    · subst h
      have := settles_smul c w 0 0
      rw [zero_smul, zero_smul] at this
      simp [this, energy]
    · have h1 : energy c (settles c w (‖d‖⁻¹ • d)) / energy c (‖d‖⁻¹ • d) ≤ q := hmax (hscale d h)
      have hn : ‖d‖ ≠ 0 := norm_ne_zero_iff.mpr h
      have hn2 : ‖d‖⁻¹ ^ 2 ≠ 0 := pow_ne_zero 2 (inv_ne_zero hn)
      rw [settles_smul, energy_smul, energy_smul, mul_div_mul_left _ _ hn2,
        div_le_iff₀ (energy_pos c hc h)] at h1
      exact h1
  have hlow : ∀ d, energy c d₁ * ‖d‖ ^ 2 ≤ energy c d := by
    intro d
    by_cases h : d = 0
    · simp [h, energy]
    · have h1 : energy c d₁ ≤ energy c (‖d‖⁻¹ • d) := hmin (hscale d h)
      have hn : 0 < ‖d‖ := norm_pos_iff.mpr h
      rw [energy_smul] at h1
      calc energy c d₁ * ‖d‖ ^ 2 ≤ ‖d‖⁻¹ ^ 2 * energy c d * ‖d‖ ^ 2 := by gcongr
        _ = energy c d := by field_simp
  have hpow : ∀ m, energy c ((settles c w)^[m] d) ≤ q ^ m * energy c d := by
    intro m
    induction m with
    | zero => simp
    | succ m ih =>
        rw [Function.iterate_succ_apply', pow_succ']
        calc _ ≤ q * energy c ((settles c w)^[m] d) := hcontr _
          _ ≤ q * (q ^ m * energy c d) := by gcongr
          _ = _ := by ring
  have hpos1 : 0 < energy c d₁ := energy_pos c hc (hz d₁ hd₁)
  have hsq : Tendsto (fun m => ‖(settles c w)^[m] d‖ ^ 2) atTop (𝓝 0) := by
    refine squeeze_zero (fun m => by positivity) (g := fun m => q ^ m * (energy c d / energy c d₁)) (fun m => ?_) ?_
    · rw [← mul_div_assoc, le_div_iff₀ hpos1, mul_comm]
      exact (hlow _).trans (hpow m)
    · have := (tendsto_pow_atTop_nhds_zero_of_lt_one hq0 hq1).mul_const (energy c d / energy c d₁)
      rwa [zero_mul] at this
  rw [tendsto_zero_iff_norm_tendsto_zero]
  have := hsq.sqrt
  simpa [Real.sqrt_sq (norm_nonneg _)] using this

/-! ### The limit -/

/-- The variables in turn, `m` times. -/
def sweeps (n m : ℕ) : List (Fin (n + 1)) := (List.replicate m (List.finRange (n + 1))).flatten

theorem sweeps_succ (n m : ℕ) : sweeps n (m + 1) = sweeps n m ++ List.finRange (n + 1) := by
  simp [sweeps, List.replicate_succ']

theorem settles_sweeps {n : ℕ} (c : CondCov n) (m : ℕ) (d : Fin (n + 1) → ℝ) :
    settles c (sweeps n m) d = (settles c (List.finRange (n + 1)))^[m] d := by
  induction m with
  | zero => rfl
  | succ m ih => rw [sweeps_succ, settles_append, ih, Function.iterate_succ_apply']

theorem resamples_converge {n : ℕ} (c : CondCov n) (hc : Spec.IsCov c.cov) (pre : List (Fin (n + 1)))
    (μ : Measure (Fin (n + 1) → ℝ)) [IsProbabilityMeasure μ] (ε : ENNReal) (hε : 0 < ε) :
    ∃ M, ∀ m ≥ M, ∀ tail : List (Fin (n + 1)), ∀ G : (Fin (n + 1) → ℝ) → ENNReal, Measurable G → (∀ x, G x ≤ 1) →
        ∫⁻ x, resamples c G (pre ++ sweeps n m ++ tail) x ∂μ ≤ ∫⁻ x, G x ∂Spec.normal c.mean c.cov + ε ∧
        ∫⁻ x, G x ∂Spec.normal c.mean c.cov ≤ ∫⁻ x, resamples c G (pre ++ sweeps n m ++ tail) x ∂μ + ε := by
  set N := Spec.normal c.mean c.cov with hN
  have hε2 : 0 < ε / 2 := ENNReal.half_pos hε.ne'
  obtain ⟨η, hη, hclose⟩ := resamples_close c (fun i => (stdv_sq c hc i).1) (List.finRange (n + 1)) (ε / 2) hε2
  set f : ℕ → (Fin (n + 1) → ℝ) × (Fin (n + 1) → ℝ) → Fin (n + 1) → ℝ := fun m p =>
    settles c (pre ++ sweeps n m) (p.2 - p.1) with hf
  have hfc : ∀ m, Continuous (f m) := fun m => (settles_continuous c _).comp (continuous_snd.sub continuous_fst)
  have hlim : ∀ y, Tendsto (fun m => f m y) atTop (𝓝 0) := by
    intro y
    simp only [hf, settles_append, settles_sweeps]
    exact settles_tendsto c hc _ (fun i => List.mem_finRange i) _
  have hmeas := tendstoInMeasure_of_tendsto_ae (μ := μ.prod N) (f := f) (g := fun _ => 0)
    (fun m => (hfc m).aestronglyMeasurable) (Eventually.of_forall hlim)
  have hsmall := (tendstoInMeasure_iff_dist.mp hmeas η hη).eventually (Iic_mem_nhds hε2)
  obtain ⟨M, hM⟩ := eventually_atTop.mp hsmall
  refine ⟨M + 1, fun m hm tail G hG hG1 => ?_⟩
  obtain ⟨m, rfl⟩ : ∃ k, m = k + 1 := ⟨m - 1, by omega⟩
  have hB : (μ.prod N) {y | η ≤ dist (f m y) 0} ≤ ε / 2 := hM m (by omega)
  set B : Set ((Fin (n + 1) → ℝ) × (Fin (n + 1) → ℝ)) := {y | η ≤ dist (f m y) 0} with hBdef
  have hBm : MeasurableSet B := measurableSet_le measurable_const ((hfc m).dist continuous_const).measurable
  set F := resamples c (resamples c G tail) (List.finRange (n + 1)) with hF
  set K := resamples c F (pre ++ sweeps n m) with hK
  have hword : resamples c G (pre ++ sweeps n (m + 1) ++ tail) = K := by
    rw [sweeps_succ, ← List.append_assoc, List.append_assoc (pre ++ sweeps n m), resamples_append,
      resamples_append c G]
  have hGt := resamples_measurable c hG tail
  have hGt1 := resamples_le_one c hG1 tail
  have hFm : Measurable F := resamples_measurable c hGt _
  have hKm : Measurable K := resamples_measurable c hFm _
  have hK1 : ∀ x, K x ≤ 1 := resamples_le_one c (resamples_le_one c hGt1 _) _
  have hmean : ∫⁻ y, K y ∂N = ∫⁻ x, G x ∂N := by
    rw [← hword]
    exact resamples_keeps c hc hG _
  have hFclose : ∀ x x' : Fin (n + 1) → ℝ, dist x x' < η → F x ≤ F x' + ε / 2 := fun x x' hd =>
    hclose _ hGt hGt1 x x' (fun j hj => (hj (List.mem_finRange j)).elim) hd
  have hnear : ∀ p ∉ B, K p.2 ≤ K p.1 + ε / 2 ∧ K p.1 ≤ K p.2 + ε / 2 := by
    intro p hy
    have hy' : dist (f m p) 0 < η := not_le.mp hy
    constructor
    · have := resamples_coupled c (G := F) (ε := ε / 2) (pre ++ sweeps n m) (p.2 - p.1) (fun x => hFclose _ _ (by
        rw [dist_eq_norm, add_sub_cancel_left, ← dist_zero_right]
        exact hy')) p.1
      rwa [add_sub_cancel] at this
    · have hneg : settles c (pre ++ sweeps n m) (p.1 - p.2) = - f m p := by
        rw [show p.1 - p.2 = (-1 : ℝ) • (p.2 - p.1) by simp, settles_smul]
        simp [hf]
      have := resamples_coupled c (G := F) (ε := ε / 2) (pre ++ sweeps n m) (p.1 - p.2) (fun x => hFclose _ _ (by
        rw [dist_eq_norm, add_sub_cancel_left, hneg, norm_neg, ← dist_zero_right]
        exact hy')) p.2
      rwa [add_sub_cancel] at this
  have hall : ∀ p, K p.2 ≤ K p.1 + ε / 2 + B.indicator 1 p ∧ K p.1 ≤ K p.2 + ε / 2 + B.indicator 1 p := by
    intro p
    by_cases hy : p ∈ B
    · rw [Set.indicator_of_mem hy]
      exact ⟨(hK1 p.2).trans le_add_self, (hK1 p.1).trans le_add_self⟩
    · rw [Set.indicator_of_notMem hy, add_zero, add_zero]
      exact hnear p hy
  have hind : Measurable (B.indicator (1 : (Fin (n + 1) → ℝ) × (Fin (n + 1) → ℝ) → ENNReal)) := measurable_one.indicator hBm
  have hfst : ∫⁻ p, K p.1 ∂μ.prod N = ∫⁻ x, K x ∂μ := by
    have hm1 : Measurable fun p : (Fin (n + 1) → ℝ) × (Fin (n + 1) → ℝ) => K p.1 := hKm.comp measurable_fst
    rw [lintegral_prod _ hm1.aemeasurable]
    simp
  have hsnd : ∫⁻ p, K p.2 ∂μ.prod N = ∫⁻ x, K x ∂N := by
    have hm1 : Measurable fun p : (Fin (n + 1) → ℝ) × (Fin (n + 1) → ℝ) => K p.2 := hKm.comp measurable_snd
    rw [lintegral_prod _ hm1.aemeasurable]
    simp
  have hsum : ∀ g : (Fin (n + 1) → ℝ) × (Fin (n + 1) → ℝ) → ENNReal,
      ∫⁻ p, (g p + ε / 2 + B.indicator 1 p) ∂μ.prod N ≤ ∫⁻ p, g p ∂μ.prod N + ε := by
    intro g
    rw [lintegral_add_right _ hind, lintegral_add_right _ measurable_const, lintegral_indicator_one hBm,
      lintegral_const, measure_univ, mul_one, add_assoc]
    gcongr
    calc _ ≤ ε / 2 + ε / 2 := by gcongr
      _ = ε := ENNReal.add_halves ε
  rw [hword, ← hmean, ← hfst, ← hsnd]
  exact ⟨(lintegral_mono fun p => (hall p).2).trans (hsum _), (lintegral_mono fun p => (hall p).1).trans (hsum _)⟩

end Probayes
