/-
Property C50: conditional Gaussian sampling and the declared limits.
-/
import Verif.Model.RF
import Verif.Props.Uniform
import Mathlib.Analysis.SpecialFunctions.Log.ENNRealLogExp
import Mathlib.Data.EReal.Operations

namespace Probayes
open CondCov

/-- All values of `uniform` without excluded ends lie between the ends. -/
theorem uniform_mem (v0 v1 : ℝ) (h : v0 ≤ v1) (n : ℤ) (rand : ℕ → ℝ)
    (hr : ∀ i, 0 ≤ rand i ∧ rand i < 1) :
    match uniform v0 v1 n false false rand with
    | .scalar u => u ∈ Set.Icc v0 v1
    | .array us => ∀ u ∈ us, u ∈ Set.Icc v0 v1 := by
  have hb : ∀ x : ℝ, 0 ≤ x → x ≤ 1 → v0 + (v1 - v0) * x ∈ Set.Icc v0 v1 := by
    intro x h0 h1
    constructor
    · nlinarith
    · nlinarith
  rcases lt_trichotomy n 0 with hn | hn | hn
  · simp only [uniform, if_neg hn.ne, if_pos hn]
    intro u hu
    obtain ⟨i, _, rfl⟩ := List.mem_map.mp hu
    exact hb _ (hr i).1 (hr i).2.le
  · subst hn
    simp only [uniform, if_pos]
    exact hb _ (hr 0).1 (hr 0).2.le
  · obtain ⟨k, rfl⟩ := Int.eq_ofNat_of_zero_le hn.le
    obtain ⟨xs, hxs, hlen, hget⟩ := C07_grid v0 v1 k (by omega) false false rand
    rw [hxs]
    intro u hu
    obtain ⟨i, hi, rfl⟩ := List.getElem_of_mem hu
    rw [hget i hi]
    have := Spec.fraction_bounds k i (by omega) false false
    exact hb _ this.1 this.2.1

/-- C50 full claim: every sampled value is within the variable's limits, whatever
the distribution function, the covariance (with positive conditional variance),
the values of the other variables, and the random outcomes. -/
def C50_claim : Prop :=
  ∀ (Φ : EReal ≃o Set.Icc (0 : ℝ) 1) (n : ℕ) (c : CondCov n) (i : Fin (n + 1)) (number : ℤ)
    (others : Fin n → ℝ) (rand : ℕ → ℝ),
    (∀ j, 0 ≤ rand j ∧ rand j < 1) → (c.lims i).1 ≤ (c.lims i).2 → 0 < c.stdv i →
    ∀ v ∈ c.interp Φ i number others rand,
      ∃ x, v = some x ∧ (c.lims i).1 ≤ x ∧ x ≤ (c.lims i).2

theorem affine_cancel (a : EReal) (m s σ : ℝ) (hσ : 0 < σ) :
    ((m + s : ℝ) : EReal) + (σ : EReal) * ((a - (m : EReal)) / (σ : EReal)) = a + (s : EReal) := by
  rw [EReal.mul_div_cancel (EReal.coe_ne_bot σ) (EReal.coe_ne_top σ) (by exact_mod_cast hσ.ne')]
  induction a using EReal.rec with
  | bot => simp
  | top => simp
  | coe a =>
      rw [← EReal.coe_sub, ← EReal.coe_add, ← EReal.coe_add]
      congr 1; ring

/-- C50, what holds: every sampled value lies within the limits *shifted by the
conditional mean's displacement* `shift`, for every number of samples and every
random outcome. -/
theorem C50_within_shifted_partial (Φ : EReal ≃o Set.Icc (0 : ℝ) 1) (n : ℕ) (c : CondCov n)
    (i : Fin (n + 1)) (number : ℤ) (others : Fin n → ℝ) (rand : ℕ → ℝ)
    (hr : ∀ j, 0 ≤ rand j ∧ rand j < 1) (hl : (c.lims i).1 ≤ (c.lims i).2)
    (hσ : 0 < c.stdv i) :
    ∀ v ∈ c.interp Φ i number others rand, ∃ x, v = some x ∧
      (c.lims i).1 + (c.shift i others : EReal) ≤ x ∧
      x ≤ (c.lims i).2 + (c.shift i others : EReal) := by
  have hσ' : (0 : EReal) ≤ (c.stdv i : EReal) := by exact_mod_cast hσ.le
  set a := ((c.lims i).1 - (c.mean i : EReal)) / (c.stdv i : EReal) with ha
  set b := ((c.lims i).2 - (c.mean i : EReal)) / (c.stdv i : EReal) with hb
  have hab : a ≤ b := EReal.div_le_div_right_of_nonneg hσ' (EReal.sub_le_sub hl le_rfl)
  have hcdf : c.cdfs Φ i = ((Φ a : ℝ), (Φ b : ℝ)) := rfl
  have hle : (Φ a : ℝ) ≤ (Φ b : ℝ) := by exact_mod_cast Φ.monotone hab
  have hsample : ∀ u ∈ Set.Icc (Φ a : ℝ) (Φ b : ℝ),
      ∃ x, ppf Φ (c.mean i + c.shift i others) (c.stdv i) u = some x ∧
        (c.lims i).1 + (c.shift i others : EReal) ≤ x ∧
        x ≤ (c.lims i).2 + (c.shift i others : EReal) := by
    intro u hu
    have hu01 : u ∈ Set.Icc (0 : ℝ) 1 :=
      ⟨le_trans (Φ a).2.1 hu.1, le_trans hu.2 (Φ b).2.2⟩
    refine ⟨_, dif_pos hu01, ?_, ?_⟩
    · rw [← affine_cancel (c.lims i).1 (c.mean i) (c.shift i others) (c.stdv i) hσ]
      refine add_le_add le_rfl (mul_le_mul_of_nonneg_left ?_ hσ')
      rw [← ha, OrderIso.le_symm_apply]
      exact hu.1
    · rw [← affine_cancel (c.lims i).2 (c.mean i) (c.shift i others) (c.stdv i) hσ]
      refine add_le_add le_rfl (mul_le_mul_of_nonneg_left ?_ hσ')
      rw [← hb, OrderIso.symm_apply_le]
      exact hu.2
  have hmem := uniform_mem (Φ a : ℝ) (Φ b : ℝ) hle number rand hr
  intro v hv
  simp only [interp, hcdf] at hv
  rcases hu : uniform (Φ a : ℝ) (Φ b : ℝ) number false false rand with u | us
  · rw [hu] at hv hmem
    simp only [List.mem_singleton] at hv
    subst hv
    exact hsample u hmem
  · rw [hu] at hv hmem
    obtain ⟨u, hu', rfl⟩ := List.mem_map.mp hv
    exact hsample u (hmem u hu')

/-- C50: the claim does hold whenever the conditional mean is the mean, in
particular for uncorrelated variables. -/
theorem C50_within_partial (Φ : EReal ≃o Set.Icc (0 : ℝ) 1) (n : ℕ) (c : CondCov n)
    (i : Fin (n + 1)) (number : ℤ) (others : Fin n → ℝ) (rand : ℕ → ℝ)
    (hr : ∀ j, 0 ≤ rand j ∧ rand j < 1) (hl : (c.lims i).1 ≤ (c.lims i).2)
    (hσ : 0 < c.stdv i) (h0 : ∀ j, j ≠ i → c.cov i j = 0) :
    ∀ v ∈ c.interp Φ i number others rand,
      ∃ x, v = some x ∧ (c.lims i).1 ≤ x ∧ x ≤ (c.lims i).2 := by
  have hs : c.shift i others = 0 := by
    simp [shift, coef, h0 _ (Fin.succAbove_ne i _)]
  intro v hv
  obtain ⟨x, h1, h2, h3⟩ := C50_within_shifted_partial Φ n c i number others rand hr hl hσ v hv
  refine ⟨x, h1, ?_, ?_⟩
  · simpa [hs] using h2
  · simpa [hs] using h3

/-- Two standard normals with correlation one half, limited to the unit
interval. -/
noncomputable def c50Witness : CondCov 1 where
  mean := 0
  cov := fun i j => if i = j then 1 else 1 / 2
  lims := fun _ => (0, 1)

theorem c50Witness_coef : c50Witness.coef 0 0 = 1 / 2 := by
  have hsub : c50Witness.cov.submatrix (Fin.succAbove 0) (Fin.succAbove 0) =
      (1 : Matrix (Fin 1) (Fin 1) ℝ) := by
    ext i j
    fin_cases i; fin_cases j
    simp [c50Witness, Matrix.submatrix_apply]
    rfl
  simp only [coef, hsub, inv_one]
  simp [c50Witness]

theorem c50Witness_stdv : 0 < c50Witness.stdv 0 := by
  have h1 : c50Witness.cov 0 0 = 1 := by simp [c50Witness]
  have h2 : c50Witness.cov (Fin.succAbove 0 0) 0 = 1 / 2 := by simp [c50Witness]
  rw [stdv, h1, Fin.sum_univ_one, c50Witness_coef, h2]
  exact Real.sqrt_pos.mpr (by norm_num)

/-- An order isomorphism of the extended reals with the unit interval (the
logistic distribution function) exists. -/
noncomputable def logisticCdf : EReal ≃o Set.Icc (0 : ℝ) 1 :=
  EReal.expOrderIso.trans ENNReal.orderIsoUnitIntervalBirational

/-- C50 fails, whatever the distribution function `Φ` (the normal one included):
for two standard normals with correlation one half, both limited to `[0,1]`,
sampling the first given the second at -1 can return -1/2. -/
theorem C50_claim_fails_for (Φ : EReal ≃o Set.Icc (0 : ℝ) 1) :
    c50Witness.interp Φ 0 0 (fun _ => -1) (fun _ => 0) = [some ((-1 / 2 : ℝ) : EReal)] := by
  have hs : c50Witness.shift 0 (fun _ => -1) = -1 / 2 := by
    rw [shift, Fin.sum_univ_one, c50Witness_coef]; simp [c50Witness]; norm_num
  have hl : c50Witness.lims 0 = (0, 1) := rfl
  have hm : c50Witness.mean 0 = 0 := rfl
  simp only [interp, cdfs, uniform, if_true, mul_zero, add_zero, hs, hl, hm]
  rw [ppf, dif_pos (Subtype.coe_prop _)]
  simp

theorem C50_claim_fails : ¬ C50_claim := by
  intro h
  obtain ⟨x, hx, h0, _⟩ := h logisticCdf 1 c50Witness 0 0 (fun _ => -1) (fun _ => 0)
    (by simp) (by simp [c50Witness]) c50Witness_stdv _
    (by rw [C50_claim_fails_for]; exact List.mem_singleton_self _)
  cases hx
  have hl : (c50Witness.lims 0).1 = 0 := rfl
  rw [hl] at h0
  have : (0 : ℝ) ≤ -1 / 2 := by exact_mod_cast h0
  norm_num at this

end Probayes
