/-
Property C50: what conditional Gaussian sampling samples from.
-/
import Verif.Props.CondCov
import Mathlib.LinearAlgebra.Matrix.ToLinearEquiv
import Mathlib.Tactic.Linarith

namespace Probayes
open CondCov

/-! ### Specification -/

/-- The covariance matrix is symmetric and positive definite. -/
def Spec.IsCov {n : ℕ} (cov : Fin n → Fin n → ℝ) : Prop :=
  (∀ i j, cov i j = cov j i) ∧ ∀ x : Fin n → ℝ, x ≠ 0 → 0 < ∑ i, ∑ j, x i * x j * cov i j

/-- The weights of the variables in the error `xᵢ - ∑ⱼ wⱼ xⱼ` of predicting variable `i`
from the others with weights `w`. -/
def Spec.residual {n : ℕ} (i : Fin (n + 1)) (w : Fin n → ℝ) : Fin (n + 1) → ℝ :=
  i.insertNth 1 fun j => -w j

/-- The variance of the error of a linear prediction of variable `i`. -/
def Spec.errVar {n : ℕ} (cov : Fin (n + 1) → Fin (n + 1) → ℝ) (i : Fin (n + 1))
    (w : Fin n → ℝ) : ℝ :=
  ∑ k, ∑ l, Spec.residual i w k * Spec.residual i w l * cov k l

/-- The share of the truncated distribution below the `j`-th sample: random, or on a
grid if a positive number of samples was requested. -/
noncomputable def Spec.share (number : ℤ) (rand : ℕ → ℝ) (j : ℕ) : ℝ :=
  if number ≤ 0 then rand j else Spec.fraction number.natAbs j false false

/-! ### Helpers -/

theorem errVar_expand {n : ℕ} (c : CondCov n) (hc : Spec.IsCov c.cov) (i : Fin (n + 1))
    (w : Fin n → ℝ) :
    Spec.errVar c.cov i w = c.cov i i - 2 * ∑ j, w j * c.cov i (i.succAbove j) +
      ∑ j, ∑ k, w j * w k * c.cov (i.succAbove j) (i.succAbove k) := by
  unfold Spec.errVar Spec.residual
  rw [Fin.sum_univ_succAbove _ i]
  simp only [Fin.sum_univ_succAbove _ i, Fin.insertNth_apply_same, Fin.insertNth_apply_succAbove]
  have h1 : ∑ j, (1 : ℝ) * -w j * c.cov i (i.succAbove j) =
      -∑ j, w j * c.cov i (i.succAbove j) := by
    rw [← Finset.sum_neg_distrib]
    exact Finset.sum_congr rfl fun j _ => by ring
  have h2 : ∑ j, (-w j * 1 * c.cov (i.succAbove j) i +
        ∑ k, -w j * -w k * c.cov (i.succAbove j) (i.succAbove k)) =
      -∑ j, w j * c.cov i (i.succAbove j) +
        ∑ j, ∑ k, w j * w k * c.cov (i.succAbove j) (i.succAbove k) := by
    rw [Finset.sum_add_distrib, ← Finset.sum_neg_distrib]
    congr 1
    · exact Finset.sum_congr rfl fun j _ => by rw [hc.1 (i.succAbove j) i]; ring
    · exact Finset.sum_congr rfl fun j _ => Finset.sum_congr rfl fun k _ => by ring
  rw [h1, h2]
  ring

/-- The matrix of the other variables is positive definite as well. -/
theorem sub_pos_def {n : ℕ} (c : CondCov n) (hc : Spec.IsCov c.cov) (i : Fin (n + 1))
    (x : Fin n → ℝ) (hx : x ≠ 0) :
    0 < ∑ j, ∑ k, x j * x k * c.cov (i.succAbove j) (i.succAbove k) := by
  have h := hc.2 (i.insertNth 0 x) (by
    intro h
    apply hx
    funext j
    have := congrFun h (i.succAbove j)
    simpa using this)
  rw [Fin.sum_univ_succAbove _ i] at h
  simpa [Fin.sum_univ_succAbove _ i] using h

/-- The coefficients solve the normal equations. -/
theorem coef_normal {n : ℕ} (c : CondCov n) (hc : Spec.IsCov c.cov) (i : Fin (n + 1))
    (k : Fin n) :
    ∑ j, c.coef i j * c.cov (i.succAbove j) (i.succAbove k) = c.cov i (i.succAbove k) := by
  set S := c.cov.submatrix i.succAbove i.succAbove with hS
  have hdet : S.det ≠ 0 := by
    intro h
    obtain ⟨x, hx, hx0⟩ := Matrix.exists_mulVec_eq_zero_iff.mpr h
    have hp := sub_pos_def c hc i x hx
    have : ∑ j, ∑ k, x j * x k * c.cov (i.succAbove j) (i.succAbove k) = 0 := by
      refine Finset.sum_eq_zero fun j _ => ?_
      have hj := congrFun hx0 j
      simp only [Matrix.mulVec, dotProduct, hS, Matrix.submatrix_apply, Pi.zero_apply] at hj
      calc ∑ k, x j * x k * c.cov (i.succAbove j) (i.succAbove k)
          = x j * ∑ k, c.cov (i.succAbove j) (i.succAbove k) * x k := by
            rw [Finset.mul_sum]; exact Finset.sum_congr rfl fun k _ => by ring
        _ = 0 := by rw [hj, mul_zero]
    linarith
  have hcoef : c.coef i = Matrix.vecMul (fun k => c.cov i (i.succAbove k)) S⁻¹ := by
    funext j; rfl
  have h2 : Matrix.vecMul (c.coef i) S = fun k => c.cov i (i.succAbove k) := by
    rw [hcoef, Matrix.vecMul_vecMul, Matrix.nonsing_inv_mul _ (isUnit_iff_ne_zero.mpr hdet),
      Matrix.vecMul_one]
  exact congrFun h2 k

/-- Completing the square. -/
theorem errVar_eq {n : ℕ} (c : CondCov n) (hc : Spec.IsCov c.cov) (i : Fin (n + 1))
    (w : Fin n → ℝ) :
    Spec.errVar c.cov i w = Spec.errVar c.cov i (c.coef i) +
      ∑ j, ∑ k, (w j - c.coef i j) * (w k - c.coef i k) *
        c.cov (i.succAbove j) (i.succAbove k) := by
  have hr : ∀ v : Fin n → ℝ, ∑ j, ∑ k, c.coef i j * v k * c.cov (i.succAbove j) (i.succAbove k) =
      ∑ k, v k * c.cov i (i.succAbove k) := by
    intro v
    rw [Finset.sum_comm]
    refine Finset.sum_congr rfl fun k _ => ?_
    rw [← coef_normal c hc i k, Finset.mul_sum]
    exact Finset.sum_congr rfl fun j _ => by ring
  have hl : ∀ v : Fin n → ℝ, ∑ j, ∑ k, v j * c.coef i k * c.cov (i.succAbove j) (i.succAbove k) =
      ∑ k, v k * c.cov i (i.succAbove k) := by
    intro v
    rw [← hr v, Finset.sum_comm]
    refine Finset.sum_congr rfl fun k _ => Finset.sum_congr rfl fun j _ => ?_
    rw [hc.1 (i.succAbove j)]; ring
  have hsq : ∑ j, ∑ k, (w j - c.coef i j) * (w k - c.coef i k) *
        c.cov (i.succAbove j) (i.succAbove k) =
      ∑ j, ∑ k, w j * w k * c.cov (i.succAbove j) (i.succAbove k) -
      ∑ j, ∑ k, w j * c.coef i k * c.cov (i.succAbove j) (i.succAbove k) -
      ∑ j, ∑ k, c.coef i j * w k * c.cov (i.succAbove j) (i.succAbove k) +
      ∑ j, ∑ k, c.coef i j * c.coef i k * c.cov (i.succAbove j) (i.succAbove k) := by
    rw [← Finset.sum_sub_distrib, ← Finset.sum_sub_distrib, ← Finset.sum_add_distrib]
    refine Finset.sum_congr rfl fun j _ => ?_
    rw [← Finset.sum_sub_distrib, ← Finset.sum_sub_distrib, ← Finset.sum_add_distrib]
    exact Finset.sum_congr rfl fun k _ => by ring
  rw [errVar_expand c hc, errVar_expand c hc, hsq, hl w, hr w, hr (c.coef i)]
  ring

theorem residual_ne_zero {n : ℕ} (i : Fin (n + 1)) (w : Fin n → ℝ) : Spec.residual i w ≠ 0 := by
  intro h
  have := congrFun h i
  simp [Spec.residual] at this

theorem stdv_sq {n : ℕ} (c : CondCov n) (hc : Spec.IsCov c.cov) (i : Fin (n + 1)) :
    0 < c.stdv i ∧ c.stdv i ^ 2 = Spec.errVar c.cov i (c.coef i) := by
  have he : c.cov i i - ∑ j, c.coef i j * c.cov (i.succAbove j) i =
      Spec.errVar c.cov i (c.coef i) := by
    rw [errVar_expand c hc]
    have h1 : ∑ j, ∑ k, c.coef i j * c.coef i k * c.cov (i.succAbove j) (i.succAbove k) =
        ∑ k, c.coef i k * c.cov i (i.succAbove k) := by
      rw [Finset.sum_comm]
      refine Finset.sum_congr rfl fun k _ => ?_
      rw [← coef_normal c hc i k, Finset.mul_sum]
      exact Finset.sum_congr rfl fun j _ => by ring
    have h2 : ∑ j, c.coef i j * c.cov (i.succAbove j) i =
        ∑ k, c.coef i k * c.cov i (i.succAbove k) :=
      Finset.sum_congr rfl fun j _ => by rw [hc.1 (i.succAbove j) i]
    rw [h1, h2]; ring
  have hpos : 0 < Spec.errVar c.cov i (c.coef i) := hc.2 _ (residual_ne_zero i _)
  have : c.stdv i = Real.sqrt (Spec.errVar c.cov i (c.coef i)) := by rw [← he]; rfl
  rw [this]
  exact ⟨Real.sqrt_pos.mpr hpos, Real.sq_sqrt hpos.le⟩

/-- C50: the regression coefficients are the unique best linear predictor of the
variable from the others, and the conditional standard deviation is that of its
error. -/
theorem C50_best_predictor {n : ℕ} (c : CondCov n) (hc : Spec.IsCov c.cov) (i : Fin (n + 1)) :
    0 < c.stdv i ∧ c.stdv i ^ 2 = Spec.errVar c.cov i (c.coef i) ∧
      ∀ w, w ≠ c.coef i → c.stdv i ^ 2 < Spec.errVar c.cov i w := by
  obtain ⟨h1, h2⟩ := stdv_sq c hc i
  refine ⟨h1, h2, fun w hw => ?_⟩
  rw [h2, errVar_eq c hc i w]
  have := sub_pos_def c hc i (fun j => w j - c.coef i j) (by
    intro h
    apply hw
    funext j
    have := congrFun h j
    simp only [Pi.zero_apply] at this
    linarith)
  linarith

theorem ppf_share (Φ : EReal ≃o Set.Icc (0 : ℝ) 1) (loc scale : ℝ) (lo hi : EReal) (h : lo ≤ hi)
    (t : ℝ) (h0 : 0 ≤ t) (h1 : t ≤ 1) :
    ∃ z : EReal, lo ≤ z ∧ z ≤ hi ∧ (Φ z : ℝ) = (Φ lo : ℝ) + ((Φ hi : ℝ) - Φ lo) * t ∧
      ppf Φ loc scale ((Φ lo : ℝ) + ((Φ hi : ℝ) - Φ lo) * t) =
        some ((loc : EReal) + (scale : EReal) * z) := by
  have hle : (Φ lo : ℝ) ≤ (Φ hi : ℝ) := by exact_mod_cast Φ.monotone h
  set u := (Φ lo : ℝ) + ((Φ hi : ℝ) - Φ lo) * t with hu
  have hu1 : (Φ lo : ℝ) ≤ u := by nlinarith
  have hu2 : u ≤ (Φ hi : ℝ) := by nlinarith
  have hu01 : u ∈ Set.Icc (0 : ℝ) 1 := ⟨le_trans (Φ lo).2.1 hu1, le_trans hu2 (Φ hi).2.2⟩
  refine ⟨Φ.symm ⟨u, hu01⟩, ?_, ?_, by simp, dif_pos hu01⟩
  · rw [OrderIso.le_symm_apply]; exact hu1
  · rw [OrderIso.symm_apply_le]; exact hu2

/-- C50: each sample is the best linear prediction of the variable from the values
given for the others plus the standard deviation of its error times a standardised
value.  The standardised values are drawn from the standard distribution cut off at the
standardised limits, at random or on a grid, as many as requested. -/
theorem C50_samples (Φ : EReal ≃o Set.Icc (0 : ℝ) 1) (n : ℕ) (c : CondCov n)
    (hc : Spec.IsCov c.cov) (i : Fin (n + 1)) (number : ℤ) (others : Fin n → ℝ) (rand : ℕ → ℝ)
    (hr : ∀ j, 0 ≤ rand j ∧ rand j < 1) (hl : (c.lims i).1 ≤ (c.lims i).2) :
    ∃ (w : Fin n → ℝ) (σ : ℝ), (∀ w', w' ≠ w → Spec.errVar c.cov i w < Spec.errVar c.cov i w') ∧
      0 < σ ∧ σ ^ 2 = Spec.errVar c.cov i w ∧
      (c.interp Φ i number others rand).length = (if number = 0 then 1 else number.natAbs) ∧
      ∀ j v, (c.interp Φ i number others rand)[j]? = some v →
        ∃ z : EReal, ((c.lims i).1 - (c.mean i : EReal)) / (σ : EReal) ≤ z ∧
          z ≤ ((c.lims i).2 - (c.mean i : EReal)) / (σ : EReal) ∧
          (Φ z : ℝ) = (Φ (((c.lims i).1 - (c.mean i : EReal)) / (σ : EReal)) : ℝ) +
            ((Φ (((c.lims i).2 - (c.mean i : EReal)) / (σ : EReal)) : ℝ) -
              Φ (((c.lims i).1 - (c.mean i : EReal)) / (σ : EReal))) * Spec.share number rand j ∧
          v = some (((c.mean i + ∑ j, w j * (others j - c.mean (i.succAbove j)) : ℝ) : EReal) +
            (σ : EReal) * z) := by
  obtain ⟨hσ, h2, h3⟩ := C50_best_predictor c hc i
  have hσ' : (0 : EReal) ≤ (c.stdv i : EReal) := by exact_mod_cast hσ.le
  have hab : ((c.lims i).1 - (c.mean i : EReal)) / (c.stdv i : EReal) ≤
      ((c.lims i).2 - (c.mean i : EReal)) / (c.stdv i : EReal) :=
    EReal.div_le_div_right_of_nonneg hσ' (EReal.sub_le_sub hl le_rfl)
  have key := fun t h0 h1 => ppf_share Φ (c.mean i + c.shift i others) (c.stdv i) _ _ hab t h0 h1
  refine ⟨c.coef i, c.stdv i, fun w' hw' => h2 ▸ h3 w' hw', hσ, h2, ?_, ?_⟩
  · simp only [interp]
    rcases lt_trichotomy number 0 with hn | hn | hn
    · simp [uniform, hn.ne, hn]
    · subst hn; simp [uniform]
    · obtain ⟨k, rfl⟩ := Int.eq_ofNat_of_zero_le hn.le
      obtain ⟨xs, hxs, hlen, _⟩ := C07_grid (c.cdfs Φ i).1 (c.cdfs Φ i).2 k (by omega) false false
        rand
      rw [hxs]
      simp [hlen]
      omega
  · intro j v hv
    suffices fin : ∃ t, 0 ≤ t ∧ t ≤ 1 ∧ Spec.share number rand j = t ∧
        v = ppf Φ (c.mean i + c.shift i others) (c.stdv i)
          ((c.cdfs Φ i).1 + ((c.cdfs Φ i).2 - (c.cdfs Φ i).1) * t) by
      obtain ⟨t, h0, h1, hs, hv⟩ := fin
      obtain ⟨z, z1, z2, z3, z4⟩ := key t h0 h1
      exact ⟨z, z1, z2, by rw [z3, hs], by rw [hv]; exact z4⟩
    simp only [interp] at hv
    rcases lt_trichotomy number 0 with hn | hn | hn
    · simp only [uniform, hn.ne, hn, if_true, if_false, List.map_map, List.getElem?_map] at hv
      by_cases hj : j < number.natAbs
      · rw [List.getElem?_range hj] at hv
        simp only [Option.map_some, Option.some.injEq, Function.comp_apply] at hv
        exact ⟨rand j, (hr j).1, (hr j).2.le, by simp [Spec.share, hn.le], hv.symm⟩
      · rw [List.getElem?_eq_none (by simpa using hj)] at hv
        cases hv
    · subst hn
      simp only [uniform, if_true] at hv
      rcases j with _ | j
      · simp only [List.getElem?_cons_zero, Option.some.injEq] at hv
        exact ⟨rand 0, (hr 0).1, (hr 0).2.le, by simp [Spec.share], hv.symm⟩
      · simp at hv
    · obtain ⟨k, rfl⟩ := Int.eq_ofNat_of_zero_le hn.le
      obtain ⟨xs, hxs, hlen, hget⟩ := C07_grid (c.cdfs Φ i).1 (c.cdfs Φ i).2 k (by omega) false
        false rand
      rw [hxs] at hv
      simp only [List.getElem?_map] at hv
      by_cases hj : j < xs.length
      · rw [List.getElem?_eq_getElem hj, hget j hj] at hv
        simp only [Option.map_some, Option.some.injEq] at hv
        have hb := Spec.fraction_bounds k j (by omega) false false
        refine ⟨_, hb.1, hb.2.1, ?_, hv.symm⟩
        simp only [Spec.share, Int.natAbs_natCast]
        rw [if_neg (by omega)]
      · rw [List.getElem?_eq_none (by simpa using hj)] at hv
        cases hv

/-- Non-vacuity: the witness of two standard normals with correlation one half has a
positive definite covariance matrix. -/
theorem c50Witness_isCov : Spec.IsCov c50Witness.cov := by
  constructor
  · intro i j
    fin_cases i <;> fin_cases j <;> simp [c50Witness]
  · intro x hx
    have : 0 < x 0 ^ 2 + x 0 * x 1 + x 1 ^ 2 := by
      by_contra h
      have h0 : x 0 = 0 := by nlinarith [sq_nonneg (x 0 + 2 * x 1), sq_nonneg (x 0)]
      have h1 : x 1 = 0 := by nlinarith [sq_nonneg (x 1), sq_nonneg (x 0)]
      apply hx
      funext i
      fin_cases i
      · exact h0
      · exact h1
    simp [Fin.sum_univ_two, c50Witness]
    nlinarith

/-- Its samples are predicted as half the other variable. -/
example : (∀ w, w ≠ c50Witness.coef 0 → c50Witness.stdv 0 ^ 2 < Spec.errVar c50Witness.cov 0 w) ∧
    c50Witness.coef 0 0 = 1 / 2 ∧ (c50Witness.lims 0).1 ≤ (c50Witness.lims 0).2 :=
  ⟨(C50_best_predictor c50Witness c50Witness_isCov 0).2.2, c50Witness_coef, by simp [c50Witness]⟩

end Probayes
