/-
Means and covariances over the unit cube of what changes sign with its draws; used for C84
and C85.
-/
import Verif.Lemmas.WalkField
import Mathlib.MeasureTheory.Integral.IntervalIntegral.FundThmCalculus
import Mathlib.Analysis.SpecialFunctions.Integrals.Basic
import Mathlib.MeasureTheory.Integral.Bochner.Set

namespace Probayes

open MeasureTheory

/-- The draws `u` with those in `A` replaced by their opposites. -/
def flipOn {n : ℕ} (A : Finset (Fin n)) (u : Fin n → ℝ) : Fin n → ℝ := fun i => if i ∈ A then 1 - u i else u i

theorem flipOn_flipOn {n : ℕ} (A : Finset (Fin n)) (u : Fin n → ℝ) : flipOn A (flipOn A u) = u := by
  funext i
  simp only [flipOn]
  split <;> simp

theorem flipOn_measurable {n : ℕ} (A : Finset (Fin n)) : Measurable (flipOn A) := by
  refine measurable_pi_iff.mpr fun i => ?_
  unfold flipOn
  by_cases h : i ∈ A
  · simp only [h, if_true]
    exact measurable_const.sub (measurable_pi_apply i)
  · simp only [h, if_false]
    exact measurable_pi_apply i

/-- As an equivalence. -/
def flipEquiv {n : ℕ} (A : Finset (Fin n)) : (Fin n → ℝ) ≃ᵐ (Fin n → ℝ) where
  toFun := flipOn A
  invFun := flipOn A
  left_inv := flipOn_flipOn A
  right_inv := flipOn_flipOn A
  measurable_toFun := flipOn_measurable A
  measurable_invFun := flipOn_measurable A

theorem cubeLaw_pi (n : ℕ) : cubeLaw n = Measure.pi fun _ => unitLaw := by
  unfold cubeLaw
  rw [volume_pi]
  exact Measure.restrict_pi_pi _ _

theorem unitLaw_flip_preserving : MeasurePreserving (fun u : ℝ => 1 - u) unitLaw unitLaw := by
  have hm : Measurable fun u : ℝ => 1 - u := measurable_const.sub measurable_id
  refine ⟨hm, Measure.ext fun A hA => ?_⟩
  rw [Measure.map_apply hm hA, ← lintegral_indicator_one hA, ← unitLaw_flip, ← lintegral_indicator_one (hm hA)]
  rfl

theorem flipOn_preserving {n : ℕ} (A : Finset (Fin n)) : MeasurePreserving (flipOn A) (cubeLaw n) (cubeLaw n) := by
  rw [cubeLaw_pi]
  refine measurePreserving_pi (fun _ => unitLaw) (fun _ => unitLaw) (f := fun i x => if i ∈ A then 1 - x else x)
    fun i => ?_
  by_cases h : i ∈ A
  · simp only [h, if_true]
    exact unitLaw_flip_preserving
  · simp only [h, if_false]
    exact MeasurePreserving.id _

theorem odd_mean {α : Type*} [MeasurableSpace α] {μ : Measure α} (T : α ≃ᵐ α) (hT : MeasurePreserving T μ μ)
    (f : α → ℝ) (hf : ∀ᵐ u ∂μ, f (T u) = - f u) : ∫ u, f u ∂μ = 0 := by
  have h := hT.integral_comp T.measurableEmbedding f
  rw [integral_congr_ae hf, integral_neg] at h
  linarith

/-- Changing the sign of the `k`-th component with the `k`-th draw, and nothing else. -/
structure SignLike {n : ℕ} (μ : Measure (Fin n → ℝ)) (a : (Fin n → ℝ) → Fin n → ℝ) : Prop where
  flip : ∀ k, MeasurePreserving (flipOn {k}) μ μ
  own : ∀ k, ∀ᵐ u ∂μ, a (flipOn {k} u) k = - a u k
  other : ∀ k l, l ≠ k → ∀ᵐ u ∂μ, a (flipOn {k} u) l = a u l
  meas : ∀ k, Measurable fun u => a u k
  bounded : ∃ c, ∀ᵐ u ∂μ, ∀ k, |a u k| ≤ c

theorem SignLike.mean {n : ℕ} {μ : Measure (Fin n → ℝ)} {a : (Fin n → ℝ) → Fin n → ℝ} (h : SignLike μ a)
    (k : Fin n) : ∫ u, a u k ∂μ = 0 :=
  odd_mean (flipEquiv {k}) (h.flip k) _ (h.own k)

theorem SignLike.cross {n : ℕ} {μ : Measure (Fin n → ℝ)} {a : (Fin n → ℝ) → Fin n → ℝ} (h : SignLike μ a)
    (k l : Fin n) (hkl : l ≠ k) : ∫ u, a u k * a u l ∂μ = 0 := by
  refine odd_mean (flipEquiv {k}) (h.flip k) _ ?_
  filter_upwards [h.own k, h.other k l hkl] with u h1 h2
  show a (flipOn {k} u) k * a (flipOn {k} u) l = _
  rw [h1, h2, neg_mul]

theorem SignLike.integrable {n : ℕ} {μ : Measure (Fin n → ℝ)} [IsFiniteMeasure μ] {a : (Fin n → ℝ) → Fin n → ℝ}
    (h : SignLike μ a) (k : Fin n) : Integrable (fun u => a u k) μ := by
  obtain ⟨c, hc⟩ := h.bounded
  exact Integrable.of_bound (h.meas k).aestronglyMeasurable c (hc.mono fun u hu => by simpa using hu k)

theorem SignLike.integrable_mul {n : ℕ} {μ : Measure (Fin n → ℝ)} [IsFiniteMeasure μ]
    {a : (Fin n → ℝ) → Fin n → ℝ} (h : SignLike μ a) (k l : Fin n) : Integrable (fun u => a u k * a u l) μ := by
  obtain ⟨c, hc⟩ := h.bounded
  refine Integrable.of_bound ((h.meas k).mul (h.meas l)).aestronglyMeasurable (c * c) (hc.mono fun u hu => ?_)
  rw [Real.norm_eq_abs, abs_mul]
  exact mul_le_mul (hu k) (hu l) (abs_nonneg _) ((abs_nonneg _).trans (hu k))

/-- Means and covariances of a linear image. -/
theorem SignLike.linear {n : ℕ} {μ : Measure (Fin n → ℝ)} [IsFiniteMeasure μ] {a : (Fin n → ℝ) → Fin n → ℝ}
    (h : SignLike μ a) (L : Fin n → Fin n → ℝ) {v : ℝ} (hv : ∀ k, ∫ u, a u k * a u k ∂μ = v) :
    (∀ i, ∫ u, (∑ k, L i k * a u k) ∂μ = 0) ∧
      ∀ i j, ∫ u, (∑ k, L i k * a u k) * (∑ k, L j k * a u k) ∂μ = v * ∑ k, L i k * L j k := by
  constructor
  · intro i
    rw [integral_finsetSum _ fun k _ => (h.integrable k).const_mul _]
    refine Finset.sum_eq_zero fun k _ => ?_
    rw [integral_const_mul, h.mean, mul_zero]
  · intro i j
    have hexp : ∀ u, (∑ k, L i k * a u k) * (∑ k, L j k * a u k) =
        ∑ k, ∑ l, (L i k * L j l) * (a u k * a u l) := by
      intro u
      rw [Finset.sum_mul_sum]
      refine Finset.sum_congr rfl fun k _ => Finset.sum_congr rfl fun l _ => by ring
    simp only [hexp]
    rw [integral_finsetSum _ fun k _ => integrable_finsetSum _ fun l _ => (h.integrable_mul k l).const_mul _]
    have hk : ∀ k, ∫ u, ∑ l, (L i k * L j l) * (a u k * a u l) ∂μ = v * (L i k * L j k) := by
      intro k
      rw [integral_finsetSum _ fun l _ => (h.integrable_mul k l).const_mul _, Finset.sum_eq_single k]
      · rw [integral_const_mul, hv, mul_comm]
      · intro l _ hl
        rw [integral_const_mul, h.cross k l hl, mul_zero]
      · simp
    simp only [hk, Finset.mul_sum]

theorem unit_square : ∫ u, (2 * u - 1) * (2 * u - 1) ∂unitLaw = 1/3 := by
  unfold unitLaw
  rw [setIntegral_congr_set Ico_ae_eq_Ioc, ← intervalIntegral.integral_of_le zero_le_one]
  have : ∀ u : ℝ, (2 * u - 1) * (2 * u - 1) = 4 * u ^ 2 - 4 * u + 1 := fun u => by ring
  simp only [this]
  rw [intervalIntegral.integral_add, intervalIntegral.integral_sub]
  · rw [intervalIntegral.integral_const_mul, intervalIntegral.integral_const_mul, integral_pow, integral_id]
    norm_num
  all_goals exact Continuous.intervalIntegrable (by fun_prop) _ _

instance unitLaw_prob : IsProbabilityMeasure unitLaw := ⟨by simp [unitLaw]⟩

theorem cube_coord {n : ℕ} (k : Fin n) (f : ℝ → ℝ) (hf : Measurable f) :
    ∫ u, f (u k) ∂cubeLaw n = ∫ x, f x ∂unitLaw := by
  rw [cubeLaw_pi]
  have h := measurePreserving_eval (fun _ : Fin n => unitLaw) k
  have h2 := integral_map (μ := Measure.pi fun _ : Fin n => unitLaw) (φ := Function.eval k)
    (measurable_pi_apply k).aemeasurable (f := f) hf.aestronglyMeasurable
  rw [h.map_eq] at h2
  exact h2.symm

theorem swap_preserving {n : ℕ} (σ : Equiv.Perm (Fin n)) :
    MeasurePreserving (MeasurableEquiv.piCongrLeft (fun _ : Fin n => ℝ) σ) (cubeLaw n) (cubeLaw n) := by
  rw [cubeLaw_pi]
  exact measurePreserving_piCongrLeft (fun _ : Fin n => unitLaw) σ

end Probayes
