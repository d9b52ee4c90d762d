/-
Convergence of reversible random walks with judged moves, by the decrease of the mean square of
the chance to be in a set.
-/
import Verif.Props.DeltaFn
import Mathlib.MeasureTheory.Function.L2Space
import Mathlib.MeasureTheory.Function.ConvergenceInMeasure
import Mathlib.MeasureTheory.Integral.Prod

namespace Probayes

open MeasureTheory Filter Topology

variable {n : ℕ} {Ω : Type} [MeasurableSpace Ω] {P : Measure Ω} [IsProbabilityMeasure P] {D : Ω → Fin n → ℝ}
  {w : (Fin n → ℝ) → ℝ}

/-! ### Reversibility -/

theorem afterF_split (hD : Measurable D) (hw : Measurable w) (hn : ∀ x, 0 ≤ w x) {F : (Fin n → ℝ) → ENNReal}
    (hF : Measurable F) (G : (Fin n → ℝ) → ENNReal) (hG : ∀ x, G x ≠ ⊤) (s : Fin n → ℝ) :
    ENNReal.ofReal (w s) * (G s * afterF P w (fun s ω => s + D ω) F s) =
      (∫⁻ ω, ENNReal.ofReal (w s * Spec.ratio (w s) (w (s + D ω))) * (F (s + D ω) * G s) ∂P) +
      ∫⁻ ω, ENNReal.ofReal (w s * (1 - Spec.ratio (w s) (w (s + D ω)))) * (F s * G s) ∂P := by
  have hm : Measurable fun ω => s + D ω := measurable_const.add hD
  have hr : Measurable fun ω => Spec.ratio (w s) (w (s + D ω)) :=
    ratio_measurable.comp (measurable_const.prodMk (hw.comp hm))
  have hA : Measurable fun ω => ENNReal.ofReal (w s * Spec.ratio (w s) (w (s + D ω))) * (F (s + D ω) * G s) :=
    (ENNReal.measurable_ofReal.comp (hr.const_mul _)).mul ((hF.comp hm).mul_const _)
  unfold afterF
  rw [← lintegral_const_mul' _ _ (hG s), ← lintegral_const_mul' _ _ ENNReal.ofReal_ne_top, ← lintegral_add_left hA]
  congr 1
  funext ω
  rw [ENNReal.ofReal_mul (hn s), ENNReal.ofReal_mul (hn s)]
  ring

/-- The step is symmetric with respect to the target. -/
theorem afterF_symm (hD : Measurable D) (hsym : P.map (fun ω => - D ω) = P.map D) (hw : Measurable w)
    (hn : ∀ x, 0 ≤ w x) {F G : (Fin n → ℝ) → ENNReal} (hF : Measurable F) (hG : Measurable G)
    (hFt : ∀ x, F x ≠ ⊤) (hGt : ∀ x, G x ≠ ⊤) :
    ∫⁻ s, ENNReal.ofReal (w s) * (G s * afterF P w (fun s ω => s + D ω) F s) =
      ∫⁻ s, ENNReal.ofReal (w s) * (F s * afterF P w (fun s ω => s + D ω) G s) := by
  have hbal : ∀ x y, w x * Spec.ratio (w x) (w y) = w y * Spec.ratio (w y) (w x) := by
    intro x y
    have := C35_detailed_balance (w x) (w y) 1 (hn x) (hn y)
    simpa [Spec.ratio] using this
  have hH : ∀ {F G : (Fin n → ℝ) → ENNReal}, Measurable F → Measurable G →
      Measurable fun p : (Fin n → ℝ) × (Fin n → ℝ) =>
        ENNReal.ofReal (w p.1 * Spec.ratio (w p.1) (w p.2)) * (F p.2 * G p.1) := fun hF hG =>
    (ENNReal.measurable_ofReal.comp ((hw.comp measurable_fst).mul
      (ratio_measurable.comp ((hw.comp measurable_fst).prodMk (hw.comp measurable_snd))))).mul
        ((hF.comp measurable_snd).mul (hG.comp measurable_fst))
  have m0 : Measurable fun p : (Fin n → ℝ) × Ω => p.1 + D p.2 := measurable_fst.add (hD.comp measurable_snd)
  have hrev := shift_reversible hD hsym (fun s z => ENNReal.ofReal (w s * Spec.ratio (w s) (w z)) * (F z * G s))
    (hH hF hG)
  simp only [Measure.restrict_univ] at hrev
  simp only [afterF_split hD hw hn hF G hGt, afterF_split hD hw hn hG F hFt]
  have mA : ∀ {F G : (Fin n → ℝ) → ENNReal}, Measurable F → Measurable G → Measurable fun s =>
      ∫⁻ ω, ENNReal.ofReal (w s * Spec.ratio (w s) (w (s + D ω))) * (F (s + D ω) * G s) ∂P := fun hF hG =>
    ((hH hF hG).comp (measurable_fst.prodMk m0)).lintegral_prod_right'
  rw [lintegral_add_left (mA hF hG), lintegral_add_left (mA hG hF), hrev]
  congr 1
  · congr 1
    funext s
    congr 1
    funext ω
    rw [hbal, mul_comm (F s)]
  · simp only [mul_comm (F _)]

/-! ### The step on numbers between zero and one -/

theorem bdd_integrable {α : Type} [MeasurableSpace α] {ν : Measure α} [IsFiniteMeasure ν] {g : α → ℝ} (hg : Measurable g)
    (h : ∀ a, |g a| ≤ 1) : Integrable g ν :=
  Integrable.of_bound hg.aestronglyMeasurable 1 (Eventually.of_forall fun a => by simpa using h a)

/-- Values between zero and one. -/
def Unit01 (φ : (Fin n → ℝ) → ℝ) : Prop := Measurable φ ∧ ∀ x, 0 ≤ φ x ∧ φ x ≤ 1

/-- The mean of a function over accepted moves. -/
noncomputable def taken (P : Measure Ω) (D : Ω → Fin n → ℝ) (w φ : (Fin n → ℝ) → ℝ) (x : Fin n → ℝ) : ℝ :=
  ∫ ω, Spec.ratio (w x) (w (x + D ω)) * φ (x + D ω) ∂P

section
variable (hD : Measurable D) (hw : Measurable w) (hn : ∀ x, 0 ≤ w x) {φ : (Fin n → ℝ) → ℝ} (hφ : Unit01 φ)
include hD hw hn

theorem taken_pair (φ : (Fin n → ℝ) → ℝ) (hφ : Measurable φ) : Measurable fun p : (Fin n → ℝ) × Ω =>
    Spec.ratio (w p.1) (w (p.1 + D p.2)) * φ (p.1 + D p.2) := by
  have m0 : Measurable fun p : (Fin n → ℝ) × Ω => p.1 + D p.2 := measurable_fst.add (hD.comp measurable_snd)
  exact (ratio_measurable.comp ((hw.comp measurable_fst).prodMk (hw.comp m0))).mul (hφ.comp m0)

theorem taken_measurable (hφ : Measurable φ) : Measurable (taken P D w φ) :=
  (StronglyMeasurable.integral_prod_right' (taken_pair hD hw hn φ hφ).stronglyMeasurable).measurable

include hφ

theorem taken_abs (x : Fin n → ℝ) (ω : Ω) : |Spec.ratio (w x) (w (x + D ω)) * φ (x + D ω)| ≤ 1 := by
  obtain ⟨r0, r1⟩ := ratio_bounds (w x) (w (x + D ω)) (hn _)
  obtain ⟨h0, h1⟩ := hφ.2 (x + D ω)
  rw [abs_of_nonneg (mul_nonneg r0 h0)]
  exact mul_le_one₀ r1 h0 h1

theorem taken_integrable (x : Fin n → ℝ) : Integrable (fun ω => Spec.ratio (w x) (w (x + D ω)) * φ (x + D ω)) P :=
  bdd_integrable ((taken_pair hD hw hn φ hφ.1).comp (measurable_const.prodMk measurable_id)) (taken_abs hD hw hn hφ x)

theorem taken_range (x : Fin n → ℝ) : 0 ≤ taken P D w φ x ∧ taken P D w φ x ≤ 1 := by
  refine ⟨integral_nonneg fun ω => mul_nonneg (ratio_bounds _ _ (hn _)).1 (hφ.2 _).1, ?_⟩
  calc taken P D w φ x ≤ ∫ _, (1 : ℝ) ∂P :=
        integral_mono (taken_integrable hD hw hn hφ x) (integrable_const _) fun ω =>
          (le_abs_self _).trans (taken_abs hD hw hn hφ x ω)
    _ = 1 := by simp

end

theorem unit01_one : Unit01 (fun _ : Fin n → ℝ => (1 : ℝ)) := ⟨measurable_const, fun _ => ⟨zero_le_one, le_rfl⟩⟩

theorem Unit01.sq {φ : (Fin n → ℝ) → ℝ} (h : Unit01 φ) : Unit01 fun x => φ x ^ 2 :=
  ⟨h.1.pow_const 2, fun x => ⟨sq_nonneg _, pow_le_one₀ (h.2 x).1 (h.2 x).2⟩⟩

/-- The step on numbers. -/
theorem afterF_ofReal (hD : Measurable D) (hw : Measurable w) (hn : ∀ x, 0 ≤ w x) {φ : (Fin n → ℝ) → ℝ} (hφ : Unit01 φ)
    (x : Fin n → ℝ) :
    afterF P w (fun s ω => s + D ω) (fun x => ENNReal.ofReal (φ x)) x =
      ENNReal.ofReal (taken P D w φ x + (1 - taken P D w (fun _ => 1) x) * φ x) := by
  have h1 := taken_integrable hD hw hn hφ (P := P) x
  have h2 : Integrable (fun ω => Spec.ratio (w x) (w (x + D ω))) P := by
    simpa using taken_integrable hD hw hn unit01_one (P := P) x
  have h3 : Integrable (fun ω => (1 - Spec.ratio (w x) (w (x + D ω))) * φ x) P :=
    ((integrable_const 1).sub h2).mul_const _
  have e : taken P D w φ x + (1 - taken P D w (fun _ => 1) x) * φ x =
      ∫ ω, (Spec.ratio (w x) (w (x + D ω)) * φ (x + D ω) + (1 - Spec.ratio (w x) (w (x + D ω))) * φ x) ∂P := by
    have h4 : ∫ ω, (1 - Spec.ratio (w x) (w (x + D ω))) * φ x ∂P = (1 - taken P D w (fun _ => 1) x) * φ x := by
      rw [integral_mul_const, integral_sub (integrable_const _) h2]
      simp [taken]
    rw [integral_add h1 h3, h4, taken]
  have h5 : Integrable (fun ω => Spec.ratio (w x) (w (x + D ω)) * φ (x + D ω) +
      (1 - Spec.ratio (w x) (w (x + D ω))) * φ x) P := h1.add h3
  rw [e, ofReal_integral_eq_lintegral_ofReal h5 (Eventually.of_forall fun ω => by
    obtain ⟨r0, r1⟩ := ratio_bounds (w x) (w (x + D ω)) (hn _)
    exact add_nonneg (mul_nonneg r0 (hφ.2 _).1) (mul_nonneg (sub_nonneg.2 r1) (hφ.2 _).1))]
  unfold afterF
  congr 1
  funext ω
  obtain ⟨r0, r1⟩ := ratio_bounds (w x) (w (x + D ω)) (hn _)
  rw [ENNReal.ofReal_add (mul_nonneg r0 (hφ.2 _).1) (mul_nonneg (sub_nonneg.2 r1) (hφ.2 _).1), ENNReal.ofReal_mul r0,
    ENNReal.ofReal_mul (sub_nonneg.2 r1)]

/-- The step of numbers between zero and one. -/
noncomputable def stepR (P : Measure Ω) (D : Ω → Fin n → ℝ) (w φ : (Fin n → ℝ) → ℝ) (x : Fin n → ℝ) : ℝ :=
  taken P D w φ x + (1 - taken P D w (fun _ => 1) x) * φ x

/-- What a step takes from the mean square at least. -/
noncomputable def scatter (P : Measure Ω) (D : Ω → Fin n → ℝ) (w φ : (Fin n → ℝ) → ℝ) (x : Fin n → ℝ) : ℝ :=
  taken P D w (fun _ => 1) x * taken P D w (fun y => φ y ^ 2) x - taken P D w φ x ^ 2

section
variable (hD : Measurable D) (hw : Measurable w) (hn : ∀ x, 0 ≤ w x) {φ : (Fin n → ℝ) → ℝ} (hφ : Unit01 φ)
include hD hw hn hφ

/-- The mean over accepted moves of the square of a distance. -/
theorem taken_dist (x : Fin n → ℝ) (a b : ℝ) :
    ∫ ω, Spec.ratio (w x) (w (x + D ω)) * (a * φ (x + D ω) - b) ^ 2 ∂P =
      a ^ 2 * taken P D w (fun y => φ y ^ 2) x - 2 * a * b * taken P D w φ x + b ^ 2 * taken P D w (fun _ => 1) x := by
  have h1 := taken_integrable hD hw hn hφ (P := P) x
  have h2 := taken_integrable hD hw hn unit01_one (P := P) x
  have h3 := taken_integrable hD hw hn hφ.sq (P := P) x
  have e : ∀ ω, Spec.ratio (w x) (w (x + D ω)) * (a * φ (x + D ω) - b) ^ 2 =
      a ^ 2 * (Spec.ratio (w x) (w (x + D ω)) * φ (x + D ω) ^ 2) -
        2 * a * b * (Spec.ratio (w x) (w (x + D ω)) * φ (x + D ω)) + b ^ 2 * (Spec.ratio (w x) (w (x + D ω)) * 1) := by
    intro ω; ring
  have i1 : Integrable (fun ω => a ^ 2 * (Spec.ratio (w x) (w (x + D ω)) * φ (x + D ω) ^ 2)) P := h3.const_mul _
  have i2 : Integrable (fun ω => 2 * a * b * (Spec.ratio (w x) (w (x + D ω)) * φ (x + D ω))) P := h1.const_mul _
  have i3 : Integrable (fun ω => b ^ 2 * (Spec.ratio (w x) (w (x + D ω)) * 1)) P := h2.const_mul _
  have i4 : Integrable (fun ω => a ^ 2 * (Spec.ratio (w x) (w (x + D ω)) * φ (x + D ω) ^ 2) -
        2 * a * b * (Spec.ratio (w x) (w (x + D ω)) * φ (x + D ω))) P := i1.sub i2
  simp only [e]
  rw [integral_add i4 i3, integral_sub i1 i2, integral_const_mul, integral_const_mul, integral_const_mul]
  rfl

theorem taken_dist_nonneg (x : Fin n → ℝ) (a b : ℝ) :
    0 ≤ ∫ ω, Spec.ratio (w x) (w (x + D ω)) * (a * φ (x + D ω) - b) ^ 2 ∂P :=
  integral_nonneg fun _ => mul_nonneg (ratio_bounds _ _ (hn _)).1 (sq_nonneg _)

theorem taken_le (x : Fin n → ℝ) : taken P D w φ x ≤ taken P D w (fun _ => 1) x :=
  integral_mono (taken_integrable hD hw hn hφ x) (taken_integrable hD hw hn unit01_one x) fun _ =>
    mul_le_mul_of_nonneg_left (hφ.2 _).2 (ratio_bounds _ _ (hn _)).1

theorem scatter_nonneg (x : Fin n → ℝ) : 0 ≤ scatter P D w φ x := by
  have h := taken_dist_nonneg hD hw hn hφ (P := P) x (taken P D w (fun _ => 1) x) (taken P D w φ x)
  rw [taken_dist hD hw hn hφ] at h
  have hM := taken_range hD hw hn hφ (P := P) x
  have hR := taken_range hD hw hn unit01_one (P := P) x
  have hMR := taken_le hD hw hn hφ (P := P) x
  unfold scatter
  rcases hR.1.eq_or_lt with h0 | h0
  · rw [← h0] at hMR ⊢
    rw [le_antisymm hMR hM.1]
    simp
  · by_contra hc
    have := mul_neg_of_pos_of_neg h0 (not_le.1 hc)
    nlinarith

theorem scatter_le (x : Fin n → ℝ) : scatter P D w φ x ≤ 1 := by
  have hS := taken_range hD hw hn hφ.sq (P := P) x
  have hR := taken_range hD hw hn unit01_one (P := P) x
  unfold scatter
  have := mul_le_one₀ hR.2 hS.1 hS.2
  nlinarith [sq_nonneg (taken P D w φ x)]

theorem scatter_measurable : Measurable (scatter P D w φ) :=
  ((taken_measurable hD hw hn measurable_const).mul (taken_measurable hD hw hn hφ.sq.1)).sub
    ((taken_measurable hD hw hn hφ.1).pow_const 2)

theorem stepR_unit : Unit01 (stepR P D w φ) := by
  refine ⟨(taken_measurable hD hw hn hφ.1).add ((measurable_const.sub (taken_measurable hD hw hn measurable_const)).mul
    hφ.1), fun x => ?_⟩
  have hM := taken_range hD hw hn hφ (P := P) x
  have hR := taken_range hD hw hn unit01_one (P := P) x
  have hMR := taken_le hD hw hn hφ (P := P) x
  have h := hφ.2 x
  unfold stepR
  refine ⟨add_nonneg hM.1 (mul_nonneg (sub_nonneg.2 hR.2) h.1), ?_⟩
  nlinarith [mul_le_mul_of_nonneg_left h.2 (sub_nonneg.2 hR.2)]

theorem stepR_sq (x : Fin n → ℝ) : stepR P D w φ x ^ 2 + scatter P D w φ x ≤ stepR P D w (fun y => φ y ^ 2) x := by
  have h := taken_dist_nonneg hD hw hn hφ (P := P) x 1 (φ x)
  rw [taken_dist hD hw hn hφ] at h
  have hR := taken_range hD hw hn unit01_one (P := P) x
  have := mul_nonneg (sub_nonneg.2 hR.2) h
  unfold stepR scatter
  nlinarith

end

/-! ### The chance to be in a set -/

/-- The mean of a function after `k` steps; for the indicator of a set, the chance to be in it. -/
noncomputable def chanceIn (P : Measure Ω) (D : Ω → Fin n → ℝ) (w ψ : (Fin n → ℝ) → ℝ) :
    ℕ → (Fin n → ℝ) → ℝ
  | 0, x => ψ x
  | k + 1, x => stepR P D w (chanceIn P D w ψ k) x

/-- The target as a measure. -/
noncomputable def targetM (w : (Fin n → ℝ) → ℝ) : Measure (Fin n → ℝ) :=
  volume.withDensity fun x => ENNReal.ofReal (w x)

section
variable (hD : Measurable D) (hw : Measurable w) (hn : ∀ x, 0 ≤ w x) {ψ : (Fin n → ℝ) → ℝ} (hA : Unit01 ψ)
include hD hw hn hA

theorem chanceIn_unit (k : ℕ) : Unit01 (chanceIn P D w ψ k) := by
  induction k with
  | zero => exact hA
  | succ k ih => exact stepR_unit hD hw hn ih

theorem afterF_chance (k : ℕ) : (afterF P w fun s ω => s + D ω)^[k] (fun x => ENNReal.ofReal (ψ x)) =
    fun x => ENNReal.ofReal (chanceIn P D w ψ k x) := by
  induction k with
  | zero => rfl
  | succ k ih =>
      rw [Function.iterate_succ_apply', ih]
      funext x
      exact afterF_ofReal hD hw hn (chanceIn_unit hD hw hn hA k) x

end

theorem unit_mul {φ ψ : (Fin n → ℝ) → ℝ} (hφ : Unit01 φ) (hψ : Unit01 ψ) : Unit01 fun x => φ x * ψ x :=
  ⟨hφ.1.mul hψ.1, fun x => ⟨mul_nonneg (hφ.2 x).1 (hψ.2 x).1, mul_le_one₀ (hφ.2 x).2 (hψ.2 x).1 (hψ.2 x).2⟩⟩

theorem unit_integrable {ν : Measure (Fin n → ℝ)} [IsFiniteMeasure ν] {φ : (Fin n → ℝ) → ℝ} (hφ : Unit01 φ) :
    Integrable φ ν :=
  bdd_integrable hφ.1 fun x => by rw [abs_of_nonneg (hφ.2 x).1]; exact (hφ.2 x).2

section
variable (hw : Measurable w)
include hw

theorem integral_target {φ : (Fin n → ℝ) → ℝ} (hφ : Unit01 φ) :
    ∫ x, φ x ∂targetM w = (∫⁻ x, ENNReal.ofReal (w x) * ENNReal.ofReal (φ x)).toReal := by
  rw [integral_eq_lintegral_of_nonneg_ae (Eventually.of_forall fun x => (hφ.2 x).1) hφ.1.aestronglyMeasurable]
  unfold targetM
  rw [lintegral_withDensity_eq_lintegral_mul _ hw.ennreal_ofReal hφ.1.ennreal_ofReal]
  rfl

variable (hD : Measurable D) (hsym : P.map (fun ω => - D ω) = P.map D) (hn : ∀ x, 0 ≤ w x)
include hD hsym hn

theorem stepR_symm {φ ψ : (Fin n → ℝ) → ℝ} (hφ : Unit01 φ) (hψ : Unit01 ψ) :
    ∫ x, ψ x * stepR P D w φ x ∂targetM w = ∫ x, φ x * stepR P D w ψ x ∂targetM w := by
  have h := afterF_symm hD hsym hw hn hφ.1.ennreal_ofReal hψ.1.ennreal_ofReal (fun _ => ENNReal.ofReal_ne_top)
    (fun _ => ENNReal.ofReal_ne_top)
  simp only [afterF_ofReal hD hw hn hφ, afterF_ofReal hD hw hn hψ] at h
  rw [integral_target hw (unit_mul hψ (stepR_unit hD hw hn hφ)), integral_target hw (unit_mul hφ (stepR_unit hD hw hn hψ))]
  simp only [ENNReal.ofReal_mul (hψ.2 _).1, ENNReal.ofReal_mul (hφ.2 _).1]
  exact congrArg ENNReal.toReal h

theorem stepR_one : stepR P D w (fun _ => 1) = fun _ => 1 := by
  funext x
  unfold stepR
  ring

theorem stepR_keeps {φ : (Fin n → ℝ) → ℝ} (hφ : Unit01 φ) :
    ∫ x, stepR P D w φ x ∂targetM w = ∫ x, φ x ∂targetM w := by
  have := stepR_symm hw hD hsym hn hφ unit01_one
  rw [stepR_one hw hD hsym hn] at this
  simpa using this

variable {ψ : (Fin n → ℝ) → ℝ} (hA : Unit01 ψ)
include hA

theorem chanceIn_pair (j k : ℕ) : ∫ x, chanceIn P D w ψ (j + 1) x * chanceIn P D w ψ k x ∂targetM w =
    ∫ x, chanceIn P D w ψ j x * chanceIn P D w ψ (k + 1) x ∂targetM w := by
  have := stepR_symm hw hD hsym hn (chanceIn_unit (P := P) hD hw hn hA j) (chanceIn_unit (P := P) hD hw hn hA k)
  simp only [chanceIn] at this ⊢
  rw [← this]
  simp only [mul_comm]

theorem chanceIn_sum (j k : ℕ) : ∫ x, chanceIn P D w ψ j x * chanceIn P D w ψ k x ∂targetM w =
    ∫ x, chanceIn P D w ψ 0 x * chanceIn P D w ψ (j + k) x ∂targetM w := by
  induction j generalizing k with
  | zero => simp
  | succ j ih => rw [chanceIn_pair hw hD hsym hn hA, ih, show j + (k + 1) = j + 1 + k by ring]

theorem chanceIn_mean (k : ℕ) : ∫ x, chanceIn P D w ψ k x ∂targetM w = ∫ y, ψ y ∂targetM w := by
  induction k with
  | zero => rfl
  | succ k ih =>
      rw [← ih]
      exact stepR_keeps hw hD hsym hn (chanceIn_unit hD hw hn hA k)

variable [IsFiniteMeasure (targetM w)]

theorem chanceIn_drop (k : ℕ) : ∫ x, chanceIn P D w ψ (k + 1) x ^ 2 ∂targetM w +
    ∫ x, scatter P D w (chanceIn P D w ψ k) x ∂targetM w ≤ ∫ x, chanceIn P D w ψ k x ^ 2 ∂targetM w := by
  have hu := chanceIn_unit (P := P) hD hw hn hA k
  rw [← stepR_keeps hw hD hsym hn hu.sq, ← integral_add]
  · refine integral_mono ?_ (unit_integrable (stepR_unit hD hw hn hu.sq)) fun x => stepR_sq hD hw hn hu x
    exact (unit_integrable (chanceIn_unit (P := P) hD hw hn hA (k + 1)).sq).add
      (bdd_integrable (scatter_measurable hD hw hn hu) fun x => by
        rw [abs_of_nonneg (scatter_nonneg hD hw hn hu x)]; exact scatter_le hD hw hn hu x)
  · exact unit_integrable (chanceIn_unit (P := P) hD hw hn hA (k + 1)).sq
  · exact bdd_integrable (scatter_measurable hD hw hn hu) fun x => by
        rw [abs_of_nonneg (scatter_nonneg hD hw hn hu x)]; exact scatter_le hD hw hn hu x

theorem chanceIn_antitone : Antitone fun k => ∫ x, chanceIn P D w ψ k x ^ 2 ∂targetM w := by
  refine antitone_nat_of_succ_le fun k => ?_
  have := chanceIn_drop hw hD hsym hn hA (P := P) k
  have h0 : 0 ≤ ∫ x, scatter P D w (chanceIn P D w ψ k) x ∂targetM w :=
    integral_nonneg fun x => scatter_nonneg hD hw hn (chanceIn_unit (P := P) hD hw hn hA k) x
  linarith

theorem chanceIn_limit : ∃ L, Tendsto (fun k => ∫ x, chanceIn P D w ψ k x ^ 2 ∂targetM w) atTop (𝓝 L) :=
  ⟨_, tendsto_atTop_ciInf (chanceIn_antitone hw hD hsym hn hA) ⟨0, by
    rintro _ ⟨k, rfl⟩
    exact integral_nonneg fun x => sq_nonneg _⟩⟩

theorem scatter_tends : Tendsto (fun k => ∫ x, scatter P D w (chanceIn P D w ψ k) x ∂targetM w) atTop (𝓝 0) := by
  obtain ⟨L, hL⟩ := chanceIn_limit hw hD hsym hn hA (P := P)
  have h := hL.sub (hL.comp (tendsto_add_atTop_nat 1))
  rw [sub_self] at h
  refine tendsto_of_tendsto_of_tendsto_of_le_of_le tendsto_const_nhds h (fun k =>
    integral_nonneg fun x => scatter_nonneg hD hw hn (chanceIn_unit (P := P) hD hw hn hA k) x) fun k => ?_
  have := chanceIn_drop hw hD hsym hn hA (P := P) k
  simp only [Function.comp]
  linarith

theorem chanceIn_memLp (k : ℕ) : MemLp (chanceIn P D w ψ k) 2 (targetM w) :=
  MemLp.of_bound (chanceIn_unit (P := P) hD hw hn hA k).1.aestronglyMeasurable 1 (Eventually.of_forall fun x => by
    have := (chanceIn_unit (P := P) hD hw hn hA k).2 x
    rw [Real.norm_eq_abs, abs_of_nonneg this.1]
    exact this.2)

/-- At even times the chances have a limit, in part at almost every point. -/
theorem chanceIn_cluster : ∃ (ns : ℕ → ℕ) (g : (Fin n → ℝ) → ℝ), StrictMono ns ∧ Unit01 g ∧
    ∀ᵐ x ∂targetM w, Tendsto (fun i => chanceIn P D w ψ (ns i) x) atTop (𝓝 (g x)) := by
  obtain ⟨L, hL⟩ := chanceIn_limit hw hD hsym hn hA (P := P)
  set Φ : ℕ → Lp ℝ 2 (targetM w) := fun i => (chanceIn_memLp hw hD hsym hn hA (P := P) (2 * i)).toLp _ with hΦ
  have hin : ∀ i j, Inner.inner ℝ (Φ i) (Φ j) = ∫ x, chanceIn P D w ψ (i + j) x ^ 2 ∂targetM w := by
    intro i j
    rw [L2.inner_def]
    have h1 : ∫ x, chanceIn P D w ψ (i + j) x ^ 2 ∂targetM w =
        ∫ x, chanceIn P D w ψ (2 * i) x * chanceIn P D w ψ (2 * j) x ∂targetM w := by
      simp only [sq]
      rw [chanceIn_sum hw hD hsym hn hA, chanceIn_sum hw hD hsym hn hA (2 * i),
        show i + j + (i + j) = 2 * i + 2 * j by ring]
    rw [h1]
    refine integral_congr_ae ?_
    filter_upwards [(chanceIn_memLp hw hD hsym hn hA (P := P) (2 * i)).coeFn_toLp,
      (chanceIn_memLp hw hD hsym hn hA (P := P) (2 * j)).coeFn_toLp] with x h1 h2
    simp only [hΦ, h1, h2]
    simp [mul_comm]
  have hc : CauchySeq Φ := by
    rw [Metric.cauchySeq_iff]
    intro ε hε
    obtain ⟨N, hN⟩ := Metric.tendsto_atTop.1 hL (ε ^ 2 / 4) (by positivity)
    refine ⟨N, fun i hi j hj => ?_⟩
    rw [dist_eq_norm]
    have h := norm_sub_sq_real (Φ i) (Φ j)
    rw [← real_inner_self_eq_norm_sq, ← real_inner_self_eq_norm_sq (Φ i), ← real_inner_self_eq_norm_sq (Φ j), hin i i, hin j j,
      hin i j, real_inner_self_eq_norm_sq] at h
    have a1 := abs_lt.1 (Real.dist_eq _ _ ▸ hN (i + i) (by omega))
    have a2 := abs_lt.1 (Real.dist_eq _ _ ▸ hN (j + j) (by omega))
    have a3 := abs_lt.1 (Real.dist_eq _ _ ▸ hN (i + j) (by omega))
    have : ‖Φ i - Φ j‖ ^ 2 < ε ^ 2 := by rw [h]; linarith [a1.2, a2.2, a3.1]
    exact lt_of_pow_lt_pow_left₀ 2 hε.le this
  obtain ⟨G, hG⟩ := cauchySeq_tendsto_of_complete hc
  obtain ⟨ns, hns, hae⟩ := (tendstoInMeasure_of_tendsto_Lp hG).exists_seq_tendsto_ae
  have hm : ∀ᵐ x ∂targetM w, ∀ i, Φ i x = chanceIn P D w ψ (2 * i) x := by
    rw [ae_all_iff]
    exact fun i => (chanceIn_memLp hw hD hsym hn hA (P := P) (2 * i)).coeFn_toLp
  have hGm : Measurable (G : (Fin n → ℝ) → ℝ) := (Lp.stronglyMeasurable G).measurable
  refine ⟨fun i => 2 * ns i, fun x => max 0 (min 1 (G x)), fun i j h => by
    have := hns h
    show 2 * ns i < 2 * ns j
    omega, ⟨measurable_const.max (measurable_const.min hGm), fun x =>
      ⟨le_max_left _ _, max_le zero_le_one (min_le_left _ _)⟩⟩, ?_⟩
  filter_upwards [hae, hm] with x h1 h2
  have h3 : Tendsto (fun i => max 0 (min 1 (Φ (ns i) x))) atTop (𝓝 (max 0 (min 1 (G x)))) :=
    tendsto_const_nhds.max (tendsto_const_nhds.min h1)
  refine h3.congr fun i => ?_
  rw [h2]
  have := (chanceIn_unit (P := P) hD hw hn hA (2 * ns i)).2 x
  rw [min_eq_right this.2, max_eq_right this.1]

end

end Probayes
