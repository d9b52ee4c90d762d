/-
Conditional sampling of a multivariate normal distribution, one variable at a time, keeps
it: helpers for C86.
-/
import Verif.Props.CondCovBest
import Mathlib.Probability.Distributions.Gaussian.Multivariate
import Mathlib.Probability.CDF

namespace Probayes

open MeasureTheory ProbabilityTheory CondCov

/-! ### Residuals -/

theorem residual_cov {n : ℕ} (c : CondCov n) (hc : Spec.IsCov c.cov) (i k : Fin (n + 1)) :
    ∑ l, Spec.residual i (c.coef i) l * c.cov l k = if k = i then c.stdv i ^ 2 else 0 := by
  rw [Fin.sum_univ_succAbove _ i]
  simp only [Spec.residual, Fin.insertNth_apply_same, Fin.insertNth_apply_succAbove, one_mul]
  have hs := (stdv_sq c hc i).1
  rcases Fin.eq_self_or_eq_succAbove i k with rfl | ⟨m, rfl⟩
  · rw [if_pos rfl]
    unfold stdv at hs ⊢
    rw [Real.sq_sqrt (Real.sqrt_pos.mp hs).le, sub_eq_add_neg, ← Finset.sum_neg_distrib]
    simp
  · rw [if_neg (Fin.succAbove_ne i m), ← coef_normal c hc i m]
    simp

/-- The variable `i` sampled given the others: `z` is the standardised sample. -/
noncomputable def resample {n : ℕ} (c : CondCov n) (i : Fin (n + 1)) (x : Fin (n + 1) → ℝ) (z : ℝ) : Fin (n + 1) → ℝ :=
  Function.update x i (c.mean i + c.shift i (fun j => x (i.succAbove j)) + c.stdv i * z)

theorem resample_eq {n : ℕ} (c : CondCov n) (i : Fin (n + 1)) (x : Fin (n + 1) → ℝ) (z : ℝ) (k : Fin (n + 1)) :
    resample c i x z k = x k +
      (c.stdv i * z - ∑ l, Spec.residual i (c.coef i) l * (x l - c.mean l)) * if k = i then 1 else 0 := by
  rw [Fin.sum_univ_succAbove _ i]
  simp only [Spec.residual, Fin.insertNth_apply_same, Fin.insertNth_apply_succAbove, one_mul, resample, shift]
  by_cases h : k = i
  · subst h
    simp only [Function.update_self, if_true, neg_mul, Finset.sum_neg_distrib]
    ring
  · rw [Function.update_of_ne h, if_neg h]
    ring

theorem isCov_posDef {n : ℕ} {C : Matrix (Fin n) (Fin n) ℝ} (hc : Spec.IsCov C) : C.PosDef := by
  refine Matrix.PosDef.of_dotProduct_mulVec_pos ?_ fun x hx => ?_
  · ext i j
    simp [hc.1 j i]
  · have := hc.2 x hx
    simp only [star_trivial, dotProduct, Matrix.mulVec, Finset.mul_sum]
    refine this.trans_eq (Finset.sum_congr rfl fun i _ => Finset.sum_congr rfl fun j _ => by ring)

/-! ### The law of a resampled variable -/

/-- The multivariate normal distribution of mean `mean` and covariance `cov`. -/
noncomputable def Spec.normal {n : ℕ} (mean : Fin n → ℝ) (cov : Matrix (Fin n) (Fin n) ℝ) : Measure (Fin n → ℝ) :=
  (multivariateGaussian (WithLp.toLp 2 mean) cov).map WithLp.ofLp

instance {n : ℕ} (mean : Fin n → ℝ) (cov : Matrix (Fin n) (Fin n) ℝ) : IsProbabilityMeasure (Spec.normal mean cov) :=
  Measure.isProbabilityMeasure_map (by fun_prop)

theorem resample_measurable {n : ℕ} (c : CondCov n) (i : Fin (n + 1)) :
    Measurable fun p : (Fin (n + 1) → ℝ) × ℝ => resample c i p.1 p.2 := by
  refine measurable_pi_iff.mpr fun k => ?_
  simp only [resample_eq]
  fun_prop

theorem quad_residual {n : ℕ} (c : CondCov n) (hc : Spec.IsCov c.cov) (i : Fin (n + 1)) (t : Fin (n + 1) → ℝ) :
    (fun k => t k - t i * Spec.residual i (c.coef i) k) ⬝ᵥ
      c.cov.mulVec (fun k => t k - t i * Spec.residual i (c.coef i) k) =
      t ⬝ᵥ c.cov.mulVec t - c.stdv i ^ 2 * t i ^ 2 := by
  set r := Spec.residual i (c.coef i) with hr
  have hri : r i = 1 := by simp [hr, Spec.residual]
  have hvec : Matrix.vecMul r c.cov = fun k => if k = i then c.stdv i ^ 2 else 0 := by
    funext k
    exact residual_cov c hc i k
  have hsymm : c.cov.transpose = c.cov := by
    ext a b
    exact hc.1 b a
  have hmul : c.cov.mulVec r = fun k => if k = i then c.stdv i ^ 2 else 0 := by
    rw [← hvec, ← Matrix.mulVec_transpose, hsymm]
  have ht : (fun k => t k - t i * r k) = t - t i • r := by
    funext k
    simp
  have hdot : ∀ v : Fin (n + 1) → ℝ, (v ⬝ᵥ fun k => if k = i then c.stdv i ^ 2 else 0) = v i * c.stdv i ^ 2 := by
    intro v
    simp [dotProduct]
  have hdot' : ∀ v : Fin (n + 1) → ℝ, r ⬝ᵥ c.cov.mulVec v = v i * c.stdv i ^ 2 := by
    intro v
    rw [Matrix.dotProduct_mulVec, hvec, dotProduct_comm, hdot]
  rw [ht, Matrix.mulVec_sub, Matrix.mulVec_smul, sub_dotProduct, dotProduct_sub, dotProduct_sub, smul_dotProduct,
    smul_dotProduct, dotProduct_smul, dotProduct_smul, hmul, hdot', hdot, hdot, hri]
  simp only [smul_eq_mul]
  ring

/-- Resampling seen by the inner product with `t`. -/
theorem resample_dot {n : ℕ} (c : CondCov n) (i : Fin (n + 1)) (t x : Fin (n + 1) → ℝ) (z : ℝ) :
    ∑ k, t k * resample c i x z k = ∑ k, (t k - t i * Spec.residual i (c.coef i) k) * x k +
      t i * ∑ l, Spec.residual i (c.coef i) l * c.mean l + c.stdv i * t i * z := by
  have h1 : ∀ k, t k * resample c i x z k = t k * x k +
      (c.stdv i * z - ∑ l, Spec.residual i (c.coef i) l * (x l - c.mean l)) * (t k * if k = i then 1 else 0) := by
    intro k
    rw [resample_eq]
    ring
  have h2 : ∀ k, (t k - t i * Spec.residual i (c.coef i) k) * x k =
      t k * x k - t i * (Spec.residual i (c.coef i) k * x k) := by
    intro k
    ring
  simp only [h1, h2, Finset.sum_add_distrib, Finset.sum_sub_distrib, ← Finset.mul_sum, mul_sub]
  simp only [mul_ite, mul_one, mul_zero, Finset.sum_ite_eq', Finset.sum_ite_eq, Finset.mem_univ, if_true]
  ring

theorem normal_charFun {n : ℕ} (mean : Fin n → ℝ) (cov : Matrix (Fin n) (Fin n) ℝ) (hS : cov.PosSemidef)
    (t : Fin n → ℝ) :
    ∫ x, Complex.exp ((∑ k, t k * x k : ℝ) * Complex.I) ∂Spec.normal mean cov =
      Complex.exp ((∑ k, t k * mean k : ℝ) * Complex.I - (t ⬝ᵥ cov.mulVec t : ℝ) / 2) := by
  have h := charFun_multivariateGaussian (μ := WithLp.toLp 2 mean) hS (WithLp.toLp 2 t)
  have hm : AEStronglyMeasurable (fun x : Fin n → ℝ => Complex.exp ((∑ k, t k * x k : ℝ) * Complex.I))
      (Spec.normal mean cov) := by
    refine Measurable.aestronglyMeasurable ?_
    fun_prop
  unfold Spec.normal at hm ⊢
  rw [integral_map (by fun_prop) hm]
  rw [charFun_apply] at h
  simp only [PiLp.inner_apply, RCLike.inner_apply, conj_trivial] at h
  rw [h]
  simp only [mul_comm]

theorem ext_of_trig {n : ℕ} (μ ν : Measure (Fin n → ℝ)) [IsProbabilityMeasure μ] [IsProbabilityMeasure ν]
    (h : ∀ t : Fin n → ℝ, ∫ x, Complex.exp ((∑ k, t k * x k : ℝ) * Complex.I) ∂μ =
      ∫ x, Complex.exp ((∑ k, t k * x k : ℝ) * Complex.I) ∂ν) : μ = ν := by
  have hto : Measurable (WithLp.toLp 2 : (Fin n → ℝ) → EuclideanSpace ℝ (Fin n)) := by fun_prop
  have hof : Measurable (WithLp.ofLp : EuclideanSpace ℝ (Fin n) → Fin n → ℝ) := by fun_prop
  have hμ : IsProbabilityMeasure (μ.map (WithLp.toLp 2 : (Fin n → ℝ) → EuclideanSpace ℝ (Fin n))) :=
    Measure.isProbabilityMeasure_map hto.aemeasurable
  have hν : IsProbabilityMeasure (ν.map (WithLp.toLp 2 : (Fin n → ℝ) → EuclideanSpace ℝ (Fin n))) :=
    Measure.isProbabilityMeasure_map hto.aemeasurable
  have hch : ∀ (ρ : Measure (Fin n → ℝ)) (t : EuclideanSpace ℝ (Fin n)),
      charFun (ρ.map (WithLp.toLp 2 : (Fin n → ℝ) → EuclideanSpace ℝ (Fin n))) t =
        ∫ x, Complex.exp ((∑ k, t k * x k : ℝ) * Complex.I) ∂ρ := by
    intro ρ t
    rw [charFun_apply, integral_map hto.aemeasurable (by fun_prop)]
    simp only [PiLp.inner_apply, RCLike.inner_apply, conj_trivial]
  have := Measure.ext_of_charFun (μ := μ.map (WithLp.toLp 2 : (Fin n → ℝ) → EuclideanSpace ℝ (Fin n)))
    (ν := ν.map (WithLp.toLp 2 : (Fin n → ℝ) → EuclideanSpace ℝ (Fin n))) (by
      funext t
      rw [hch, hch, h])
  have h2 := congrArg (Measure.map (WithLp.ofLp : EuclideanSpace ℝ (Fin n) → Fin n → ℝ)) this
  rw [Measure.map_map hof hto, Measure.map_map hof hto] at h2
  have hid : (WithLp.ofLp : EuclideanSpace ℝ (Fin n) → Fin n → ℝ) ∘ WithLp.toLp 2 = id := rfl
  rwa [hid, Measure.map_id, Measure.map_id] at h2

/-- If the values follow the normal distribution, so they do with one resampled. -/
theorem resample_law {n : ℕ} (c : CondCov n) (hc : Spec.IsCov c.cov) (i : Fin (n + 1)) :
    ((Spec.normal c.mean c.cov).prod (gaussianReal 0 1)).map (fun p => resample c i p.1 p.2) =
      Spec.normal c.mean c.cov := by
  have hS : c.cov.PosSemidef := (isCov_posDef hc).posSemidef
  have hgm := resample_measurable c i
  have : IsProbabilityMeasure (((Spec.normal c.mean c.cov).prod (gaussianReal 0 1)).map
      fun p => resample c i p.1 p.2) := Measure.isProbabilityMeasure_map hgm.aemeasurable
  refine ext_of_trig _ _ fun t => ?_
  have hm : Measurable fun x : Fin (n + 1) → ℝ => Complex.exp ((∑ k, t k * x k : ℝ) * Complex.I) := by fun_prop
  rw [integral_map hgm.aemeasurable hm.aestronglyMeasurable]
  have hexp : ∀ p : (Fin (n + 1) → ℝ) × ℝ, Complex.exp ((∑ k, t k * resample c i p.1 p.2 k : ℝ) * Complex.I) =
      Complex.exp ((∑ k, (t k - t i * Spec.residual i (c.coef i) k) * p.1 k : ℝ) * Complex.I) *
        (Complex.exp ((t i * ∑ l, Spec.residual i (c.coef i) l * c.mean l : ℝ) * Complex.I) *
          Complex.exp ((c.stdv i * t i : ℝ) * p.2 * Complex.I)) := by
    intro p
    rw [resample_dot, ← Complex.exp_add, ← Complex.exp_add]
    congr 1
    push_cast
    ring
  simp only [hexp]
  rw [integral_prod_mul
    (fun x : Fin (n + 1) → ℝ => Complex.exp ((∑ k, (t k - t i * Spec.residual i (c.coef i) k) * x k : ℝ) * Complex.I))
    fun z : ℝ => Complex.exp ((t i * ∑ l, Spec.residual i (c.coef i) l * c.mean l : ℝ) * Complex.I) *
      Complex.exp ((c.stdv i * t i : ℝ) * z * Complex.I)]
  rw [integral_const_mul, ← charFun_apply_real, charFun_gaussianReal, normal_charFun _ _ hS, normal_charFun _ _ hS,
    ← Complex.exp_add, ← Complex.exp_add, quad_residual c hc i t]
  congr 1
  have hl : ∑ k, (t k - t i * Spec.residual i (c.coef i) k) * c.mean k +
      t i * ∑ l, Spec.residual i (c.coef i) l * c.mean l = ∑ k, t k * c.mean k := by
    rw [Finset.mul_sum, ← Finset.sum_add_distrib]
    exact Finset.sum_congr rfl fun k _ => by ring
  rw [← hl]
  push_cast
  ring

end Probayes
