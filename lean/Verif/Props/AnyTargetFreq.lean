/-
C111: the proportions of samples of random walks on any target.
-/
import Verif.Props.AnyTarget
import Verif.Props.FlatFreq
import Mathlib.Analysis.Asymptotics.SpecificAsymptotics

namespace Probayes

open MeasureTheory Filter Topology

variable {n : ℕ} {Ω : Type} [MeasurableSpace Ω] {P : Measure Ω} [IsProbabilityMeasure P] {D : Ω → Fin n → ℝ}
  {w : (Fin n → ℝ) → ℝ}

/-! ### Means over a step -/

/-- The integrand of a step. -/
noncomputable def stepAt (D : Ω → Fin n → ℝ) (w φ : (Fin n → ℝ) → ℝ) (x : Fin n → ℝ) (ω : Ω) : ℝ :=
  Spec.ratio (w x) (w (x + D ω)) * φ (x + D ω) + (1 - Spec.ratio (w x) (w (x + D ω))) * φ x

section
variable (hD : Measurable D) (hw : Measurable w) (hn : ∀ x, 0 ≤ w x)
include hD hw hn

theorem stepAt_integrable {φ : (Fin n → ℝ) → ℝ} (hφ : Unit01 φ) (x : Fin n → ℝ) : Integrable (stepAt D w φ x) P := by
  have h1 := taken_integrable hD hw hn hφ (P := P) x
  have h2 : Integrable (fun ω => Spec.ratio (w x) (w (x + D ω))) P := by
    simpa using taken_integrable hD hw hn unit01_one (P := P) x
  exact h1.add (((integrable_const 1).sub h2).mul_const _)

theorem stepAt_integral {φ : (Fin n → ℝ) → ℝ} (hφ : Unit01 φ) (x : Fin n → ℝ) :
    ∫ ω, stepAt D w φ x ω ∂P = stepR P D w φ x := by
  have h1 := taken_integrable hD hw hn hφ (P := P) x
  have h2 : Integrable (fun ω => Spec.ratio (w x) (w (x + D ω))) P := by
    simpa using taken_integrable hD hw hn unit01_one (P := P) x
  have h3 : Integrable (fun ω => (1 - Spec.ratio (w x) (w (x + D ω))) * φ x) P :=
    ((integrable_const 1).sub h2).mul_const _
  have h4 : ∫ ω, (1 - Spec.ratio (w x) (w (x + D ω))) * φ x ∂P = (1 - taken P D w (fun _ => 1) x) * φ x := by
    rw [integral_mul_const, integral_sub (integrable_const _) h2]
    simp [taken]
  unfold stepAt
  rw [integral_add h1 h3, h4]
  rfl

/-- How far the chances are from `π` is at most the mean of how far they were. -/
theorem chance_dev {ψ : (Fin n → ℝ) → ℝ} (hψ : Unit01 ψ) {π : ℝ} (hπ : 0 ≤ π ∧ π ≤ 1) (m : ℕ)
    (hdev : Unit01 fun x => |chanceIn P D w ψ m x - π|) (i : ℕ) (x : Fin n → ℝ) :
    |chanceIn P D w ψ (m + i) x - π| ≤ chanceIn P D w (fun x => |chanceIn P D w ψ m x - π|) i x := by
  induction i generalizing x with
  | zero => exact le_rfl
  | succ i ih =>
      have hu := chanceIn_unit (P := P) hD hw hn hψ (m + i)
      have hv := chanceIn_unit (P := P) hD hw hn hdev i
      rw [← add_assoc]
      simp only [chanceIn]
      rw [← stepAt_integral hD hw hn hu, ← stepAt_integral hD hw hn hv]
      have hπi : ∫ ω, stepAt D w (chanceIn P D w ψ (m + i)) x ω ∂P - π =
          ∫ ω, (stepAt D w (chanceIn P D w ψ (m + i)) x ω - π) ∂P := by
        rw [integral_sub (stepAt_integrable hD hw hn hu x) (integrable_const _)]
        simp
      rw [hπi]
      refine (abs_integral_le_integral_abs).trans (integral_mono
        ((stepAt_integrable hD hw hn hu x).sub (integrable_const _)).abs (stepAt_integrable hD hw hn hv x) fun ω => ?_)
      obtain ⟨r0, r1⟩ := ratio_bounds (w x) (w (x + D ω)) (hn _)
      unfold stepAt
      set r := Spec.ratio (w x) (w (x + D ω))
      have e : r * chanceIn P D w ψ (m + i) (x + D ω) + (1 - r) * chanceIn P D w ψ (m + i) x - π =
          r * (chanceIn P D w ψ (m + i) (x + D ω) - π) + (1 - r) * (chanceIn P D w ψ (m + i) x - π) := by ring
      show |_| ≤ _
      rw [e]
      refine (abs_add_le _ _).trans ?_
      rw [abs_mul, abs_mul, abs_of_nonneg r0, abs_of_nonneg (sub_nonneg.2 r1)]
      exact add_le_add (mul_le_mul_of_nonneg_left (ih _) r0) (mul_le_mul_of_nonneg_left (ih _) (sub_nonneg.2 r1))

end

theorem dev_unit {φ : (Fin n → ℝ) → ℝ} (hφ : Unit01 φ) {π : ℝ} (hπ : 0 ≤ π ∧ π ≤ 1) : Unit01 fun x => |φ x - π| :=
  ⟨(hφ.1.sub measurable_const).abs, fun x => ⟨abs_nonneg _, by
    have := hφ.2 x
    rw [abs_le]; constructor <;> linarith [hπ.1, hπ.2]⟩⟩

/-- The sum of the deviations of the chances over `k` steps. -/
noncomputable def devs (P : Measure Ω) (D : Ω → Fin n → ℝ) (w ψ : (Fin n → ℝ) → ℝ) (π : ℝ) (k : ℕ) (x : Fin n → ℝ) : ℝ :=
  ∑ j ∈ Finset.range k, (chanceIn P D w ψ (j + 1) x - π)

/-- The bound of the mean square. -/
noncomputable def devBound (P : Measure Ω) (D : Ω → Fin n → ℝ) (w φ : (Fin n → ℝ) → ℝ) (m k : ℕ) (x : Fin n → ℝ) : ℝ :=
  k * (1 + 2 * m) + 2 * k * ∑ j ∈ Finset.range (k + 1), chanceIn P D w φ j x

section
variable (hD : Measurable D) (hw : Measurable w) (hn : ∀ x, 0 ≤ w x) {ψ : (Fin n → ℝ) → ℝ} (hψ : Unit01 ψ) {π : ℝ}
  (hπ : 0 ≤ π ∧ π ≤ 1) (m : ℕ)
include hD hw hn hψ hπ

theorem devs_le (k : ℕ) (x : Fin n → ℝ) : |devs P D w ψ π k x| ≤ k ∧
    |devs P D w ψ π k x| ≤ m + ∑ j ∈ Finset.range (k + 1), chanceIn P D w (fun x => |chanceIn P D w ψ m x - π|) j x := by
  have hdev := dev_unit (chanceIn_unit (P := P) hD hw hn hψ m) hπ
  have ha := fun j => (chanceIn_unit (P := P) hD hw hn hdev j).2 x
  have hone : ∀ j, |chanceIn P D w ψ (j + 1) x - π| ≤ 1 := fun j =>
    ((dev_unit (chanceIn_unit (P := P) hD hw hn hψ (j + 1)) hπ).2 x).2
  have h1 : |devs P D w ψ π k x| ≤ ∑ j ∈ Finset.range k, |chanceIn P D w ψ (j + 1) x - π| :=
    Finset.abs_sum_le_sum_abs _ _
  refine ⟨h1.trans ?_, h1.trans ?_⟩
  · refine (Finset.sum_le_sum fun j _ => hone j).trans ?_
    simp
  · clear h1
    induction k with
    | zero =>
        simp only [Finset.range_zero, Finset.sum_empty]
        exact add_nonneg (Nat.cast_nonneg _) (Finset.sum_nonneg fun j _ => (ha j).1)
    | succ k ih =>
        rcases le_or_gt m (k + 1) with h | h
        · obtain ⟨i, hi⟩ := Nat.exists_eq_add_of_le h
          have hstep := chance_dev hD hw hn hψ hπ m hdev i x (P := P)
          rw [← hi] at hstep
          -- one more term of at most the term of the same number, or an earlier one
          have key : ∀ K, m ≤ K + 1 → ∑ j ∈ Finset.range (K + 1), |chanceIn P D w ψ (j + 1) x - π| ≤
              m + ∑ j ∈ Finset.range (K + 2 - m), chanceIn P D w (fun x => |chanceIn P D w ψ m x - π|) j x := by
            intro K hK
            induction K with
            | zero =>
                simp only [zero_add, Finset.range_one, Finset.sum_singleton]
                rcases Nat.eq_zero_or_pos m with hm | hm
                · subst hm
                  have h2 := chance_dev hD hw hn hψ hπ 0 hdev 1 x (P := P)
                  rw [Nat.cast_zero, zero_add]
                  refine h2.trans ?_
                  exact Finset.single_le_sum (f := fun j => chanceIn P D w (fun x => |chanceIn P D w ψ 0 x - π|) j x)
                    (fun j _ => (ha j).1) (by simp)
                · have : (1 : ℝ) ≤ m := by exact_mod_cast hm
                  have h3 : 0 ≤ ∑ j ∈ Finset.range (2 - m), chanceIn P D w (fun x => |chanceIn P D w ψ m x - π|) j x :=
                    Finset.sum_nonneg fun j _ => (ha j).1
                  linarith [hone 0]
            | succ K ihK =>
                rw [Finset.sum_range_succ]
                rcases Nat.lt_or_ge (K + 1) m with hlt | hge
                · have hm : m = K + 2 := by omega
                  have h4 : ∑ j ∈ Finset.range (K + 1 + 1), |chanceIn P D w ψ (j + 1) x - π| ≤ m := by
                    refine (Finset.sum_le_sum fun j _ => hone j).trans ?_
                    simp [hm]
                    linarith
                  rw [Finset.sum_range_succ] at h4
                  have h3 : 0 ≤ ∑ j ∈ Finset.range (K + 1 + 2 - m), chanceIn P D w (fun x => |chanceIn P D w ψ m x - π|) j x :=
                    Finset.sum_nonneg fun j _ => (ha j).1
                  linarith
                · obtain ⟨i, hi⟩ := Nat.exists_eq_add_of_le (show m ≤ K + 1 + 1 by omega)
                  have h5 := chance_dev hD hw hn hψ hπ m hdev i x (P := P)
                  rw [← hi] at h5
                  have h6 := ihK hge
                  rw [show K + 2 - m = i by omega] at h6
                  rw [show K + 1 + 2 - m = i + 1 by omega, Finset.sum_range_succ _ i]
                  linarith
          refine (key k h).trans (add_le_add le_rfl (Finset.sum_le_sum_of_subset_of_nonneg ?_ fun j _ _ => (ha j).1))
          intro j hj
          rw [Finset.mem_range] at hj ⊢
          omega
        · have h4 : ∑ j ∈ Finset.range (k + 1), |chanceIn P D w ψ (j + 1) x - π| ≤ m := by
            refine (Finset.sum_le_sum fun j _ => hone j).trans ?_
            simp only [Finset.sum_const, Finset.card_range, nsmul_eq_mul, mul_one]
            exact_mod_cast h.le
          have h3 : 0 ≤ ∑ j ∈ Finset.range (k + 1 + 1), chanceIn P D w (fun x => |chanceIn P D w ψ m x - π|) j x :=
            Finset.sum_nonneg fun j _ => (ha j).1
          linarith

/-- The bound is at least the square of the sum. -/
theorem devBound_ge (k : ℕ) (x : Fin n → ℝ) :
    devs P D w ψ π k x ^ 2 ≤ devBound P D w (fun x => |chanceIn P D w ψ m x - π|) m k x := by
  obtain ⟨h1, h2⟩ := devs_le hD hw hn hψ hπ m k x (P := P)
  have hdev := dev_unit (chanceIn_unit (P := P) hD hw hn hψ m) hπ
  have h3 : 0 ≤ ∑ j ∈ Finset.range (k + 1), chanceIn P D w (fun x => |chanceIn P D w ψ m x - π|) j x :=
    Finset.sum_nonneg fun j _ => ((chanceIn_unit (P := P) hD hw hn hdev j).2 x).1
  have h4 := mul_le_mul h1 h2 (abs_nonneg _) (Nat.cast_nonneg k)
  rw [← sq, sq_abs] at h4
  refine h4.trans ?_
  unfold devBound
  have hk : (0 : ℝ) ≤ k := Nat.cast_nonneg k
  have hm : (0 : ℝ) ≤ m := Nat.cast_nonneg m
  nlinarith [mul_nonneg hk hm, mul_nonneg hk h3]

/-- The mean, over a step, of the square of what is summed so far and after it. -/
theorem devBound_step (k : ℕ) (a : ℝ) (x : Fin n → ℝ) :
    ∫⁻ ω, (ENNReal.ofReal (Spec.ratio (w x) (w (x + D ω))) * ENNReal.ofReal ((a + (ψ (x + D ω) - π)) ^ 2 +
        2 * (a + (ψ (x + D ω) - π)) * devs P D w ψ π k (x + D ω) +
        devBound P D w (fun x => |chanceIn P D w ψ m x - π|) m k (x + D ω)) +
      ENNReal.ofReal (1 - Spec.ratio (w x) (w (x + D ω))) * ENNReal.ofReal ((a + (ψ x - π)) ^ 2 +
        2 * (a + (ψ x - π)) * devs P D w ψ π k x +
        devBound P D w (fun x => |chanceIn P D w ψ m x - π|) m k x)) ∂P ≤
      ENNReal.ofReal (a ^ 2 + 2 * a * devs P D w ψ π (k + 1) x +
        devBound P D w (fun x => |chanceIn P D w ψ m x - π|) m (k + 1) x) := by
  set φ : (Fin n → ℝ) → ℝ := fun x => |chanceIn P D w ψ m x - π| with hφ
  have hdev : Unit01 φ := dev_unit (chanceIn_unit (P := P) hD hw hn hψ m) hπ
  have hF := chanceIn_unit (P := P) hD hw hn hψ
  have hG := chanceIn_unit (P := P) hD hw hn hdev
  have hk0 : (0 : ℝ) ≤ k := Nat.cast_nonneg k
  have hm0 : (0 : ℝ) ≤ m := Nat.cast_nonneg m
  set C : ℝ := a ^ 2 - 2 * a * (k + 1) * π + (k + 1) * (1 + 2 * m) with hC
  let Q : (Fin n → ℝ) → ℝ := fun z => (a + (ψ z - π)) ^ 2 + 2 * (a + (ψ z - π)) * devs P D w ψ π k z + devBound P D w φ m k z
  let T : (Fin n → ℝ) → ℝ := fun z => C + ∑ j ∈ Finset.range (k + 1),
    (2 * a * chanceIn P D w ψ j z + 2 * (k + 1) * chanceIn P D w φ j z)
  have hsum : ∀ z, (ψ z - π) + devs P D w ψ π k z = ∑ j ∈ Finset.range (k + 1), chanceIn P D w ψ j z - (k + 1) * π := by
    intro z
    have : ∑ j ∈ Finset.range (k + 1), (chanceIn P D w ψ j z - π) =
        ∑ j ∈ Finset.range (k + 1), chanceIn P D w ψ j z - (k + 1) * π := by
      rw [Finset.sum_sub_distrib]
      simp
    rw [← this, Finset.sum_range_succ', add_comm]
    rfl
  have hQ0 : ∀ z, 0 ≤ Q z := by
    intro z
    have := devBound_ge hD hw hn hψ hπ m k z (P := P)
    simp only [Q]
    nlinarith [sq_nonneg (a + (ψ z - π) + devs P D w ψ π k z)]
  have hQT : ∀ z, Q z ≤ T z := by
    intro z
    obtain ⟨-, h2⟩ := devs_le hD hw hn hψ hπ m k z (P := P)
    have hh : |ψ z - π| ≤ 1 := ((dev_unit hψ hπ).2 z).2
    have h3 : (ψ z - π) * devs P D w ψ π k z ≤ m + ∑ j ∈ Finset.range (k + 1), chanceIn P D w φ j z := by
      refine (le_abs_self _).trans ?_
      rw [abs_mul]
      exact (mul_le_of_le_one_left (abs_nonneg _) hh).trans h2
    have h4 : (ψ z - π) ^ 2 ≤ 1 := by rw [← sq_abs]; exact pow_le_one₀ (abs_nonneg _) hh
    simp only [Q, T, devBound, hC]
    rw [Finset.sum_add_distrib, ← Finset.mul_sum, ← Finset.mul_sum]
    have h5 := hsum z
    have h6 : 2 * a * ((ψ z - π) + devs P D w ψ π k z) =
        2 * a * ∑ j ∈ Finset.range (k + 1), chanceIn P D w ψ j z - 2 * a * (k + 1) * π := by rw [h5]; ring
    nlinarith
  have hTi : ∀ j, Integrable (fun ω => 2 * a * stepAt D w (chanceIn P D w ψ j) x ω +
      2 * (k + 1) * stepAt D w (chanceIn P D w φ j) x ω) P := fun j =>
    ((stepAt_integrable hD hw hn (hF j) x).const_mul _).add ((stepAt_integrable hD hw hn (hG j) x).const_mul _)
  have hpoint : ∀ ω, stepAt D w T x ω = C + ∑ j ∈ Finset.range (k + 1), (2 * a * stepAt D w (chanceIn P D w ψ j) x ω +
      2 * (k + 1) * stepAt D w (chanceIn P D w φ j) x ω) := by
    intro ω
    simp only [stepAt, T]
    set r := Spec.ratio (w x) (w (x + D ω))
    rw [mul_add r C, mul_add (1 - r) C, Finset.mul_sum, Finset.mul_sum]
    have : r * C + (1 - r) * C = C := by ring
    have e : ∑ j ∈ Finset.range (k + 1), (2 * a * (r * chanceIn P D w ψ j (x + D ω) + (1 - r) * chanceIn P D w ψ j x) +
        2 * (k + 1) * (r * chanceIn P D w φ j (x + D ω) + (1 - r) * chanceIn P D w φ j x)) =
        ∑ j ∈ Finset.range (k + 1), r * (2 * a * chanceIn P D w ψ j (x + D ω) + 2 * (k + 1) * chanceIn P D w φ j (x + D ω)) +
        ∑ j ∈ Finset.range (k + 1), (1 - r) * (2 * a * chanceIn P D w ψ j x + 2 * (k + 1) * chanceIn P D w φ j x) := by
      rw [← Finset.sum_add_distrib]
      exact Finset.sum_congr rfl fun j _ => by ring
    rw [e]
    linarith
  have hint : Integrable (stepAt D w T x) P := by
    have : stepAt D w T x = fun ω => C + ∑ j ∈ Finset.range (k + 1), (2 * a * stepAt D w (chanceIn P D w ψ j) x ω +
      2 * (k + 1) * stepAt D w (chanceIn P D w φ j) x ω) := funext hpoint
    rw [this]
    exact (integrable_const _).add (integrable_finset_sum _ fun j _ => hTi j)
  have hval : ∫ ω, stepAt D w T x ω ∂P = C + ∑ j ∈ Finset.range (k + 1), (2 * a * chanceIn P D w ψ (j + 1) x +
      2 * (k + 1) * chanceIn P D w φ (j + 1) x) := by
    simp only [hpoint]
    rw [integral_add (integrable_const _) (integrable_finset_sum _ fun j _ => hTi j),
      integral_finset_sum _ fun j _ => hTi j]
    congr 1
    · simp
    · refine Finset.sum_congr rfl fun j _ => ?_
      rw [integral_add ((stepAt_integrable hD hw hn (hF j) x).const_mul _)
        ((stepAt_integrable hD hw hn (hG j) x).const_mul _), integral_const_mul, integral_const_mul,
        stepAt_integral hD hw hn (hF j), stepAt_integral hD hw hn (hG j)]
      rfl
  have hT0 : ∀ z, 0 ≤ T z := fun z => (hQ0 z).trans (hQT z)
  calc _ ≤ ∫⁻ ω, ENNReal.ofReal (stepAt D w T x ω) ∂P := by
        refine lintegral_mono fun ω => ?_
        obtain ⟨r0, r1⟩ := ratio_bounds (w x) (w (x + D ω)) (hn _)
        show _ ≤ ENNReal.ofReal (stepAt D w T x ω)
        unfold stepAt
        rw [ENNReal.ofReal_add (mul_nonneg r0 (hT0 _)) (mul_nonneg (sub_nonneg.2 r1) (hT0 _)), ENNReal.ofReal_mul r0,
          ENNReal.ofReal_mul (sub_nonneg.2 r1)]
        exact add_le_add (mul_le_mul' le_rfl (ENNReal.ofReal_le_ofReal (hQT _)))
          (mul_le_mul' le_rfl (ENNReal.ofReal_le_ofReal (hQT _)))
    _ = ENNReal.ofReal (∫ ω, stepAt D w T x ω ∂P) := by
        rw [ofReal_integral_eq_lintegral_ofReal hint (Eventually.of_forall fun ω => by
          obtain ⟨r0, r1⟩ := ratio_bounds (w x) (w (x + D ω)) (hn _)
          exact add_nonneg (mul_nonneg r0 (hT0 _)) (mul_nonneg (sub_nonneg.2 r1) (hT0 _)))]
    _ ≤ _ := by
        refine ENNReal.ofReal_le_ofReal ?_
        rw [hval, Finset.sum_add_distrib, ← Finset.mul_sum, ← Finset.mul_sum]
        have e1 : devs P D w ψ π (k + 1) x = ∑ j ∈ Finset.range (k + 1), chanceIn P D w ψ (j + 1) x - (k + 1) * π := by
          unfold devs
          rw [Finset.sum_sub_distrib]
          simp
        have e2 : devBound P D w φ m (k + 1) x = (k + 1) * (1 + 2 * m) + 2 * (k + 1) *
            (∑ j ∈ Finset.range (k + 1), chanceIn P D w φ (j + 1) x + chanceIn P D w φ 0 x) := by
          unfold devBound
          rw [Finset.sum_range_succ' _ (k + 1)]
          push_cast
          ring
        rw [e1, e2, hC]
        nlinarith [mul_nonneg (add_nonneg hk0 zero_le_one) ((hG 0).2 x).1]

end

/-! ### Proportions -/

/-- The mean square is at most the bound. -/
theorem squared_bound {cs : Fin n → Spec.Axis}
    (hcs : Spec.Invertible cs) {f : Ω → Py (DeltaRet n)} (hf : ∀ ω, f ω = .ok (.delta (D ω)))
    (hD : Measurable D) {prob : (Fin n → ℝ) → ℝ} {q : (Fin n → ℝ) → (Fin n → ℝ) → ℝ} {hastings : Bool}
    {start : Fin n → ℝ} {pscale : PSpec} (hst : Spec.Stored prob pscale w) (hw : Measurable w)
    (hj : ∀ x ω, Spec.Judgeable hastings false pscale w q x (Spec.displaced cs x (D ω)))
    {A : Set (Fin n → ℝ)} (hA : MeasurableSet A) {π : ℝ} (hπ : 0 ≤ π ∧ π ≤ 1) (m k : ℕ) :
    ∀ (l : OPQR (Row (Fin n → ℝ))) (s : Fin n → ℝ), Spec.At prob l (Spec.untransformed cs s) → ∀ a : ℝ,
    Spec.squared P (Spec.mover cs false f prob q false hastings start pscale) A π k l a ≤
      ENNReal.ofReal (a ^ 2 + 2 * a * devs P D (fun s => w (Spec.untransformed cs s))
          ((Spec.untransformed cs ⁻¹' A).indicator fun _ => 1) π k s +
        devBound P D (fun s => w (Spec.untransformed cs s)) (fun x => |chanceIn P D (fun s => w (Spec.untransformed cs s))
          ((Spec.untransformed cs ⁻¹' A).indicator fun _ => 1) m x - π|) m k s) := by
  classical
  set g := Spec.untransformed cs with hg
  have hgm : Measurable g := measurable_pi_iff.mpr fun i => (hcs i).2.comp (measurable_pi_apply i)
  have hwg : Measurable fun s => w (g s) := hw.comp hgm
  have hAm : MeasurableSet (g ⁻¹' A) := hgm hA
  have hn : ∀ s, 0 ≤ w (g s) := fun s => hst.nonneg _
  have hψ := indicator_unit hAm
  set ψ : (Fin n → ℝ) → ℝ := (g ⁻¹' A).indicator fun _ => 1 with hψd
  induction k with
  | zero =>
      intro l s _ a
      simp [Spec.squared, devs, devBound]
  | succ k ih =>
      intro l s hl a
      refine le_trans ?_ (devBound_step hD hwg hn hψ hπ m k a s (P := P))
      simp only [Spec.squared]
      refine lintegral_mono fun d => ?_
      let V : OPQR (Row (Fin n → ℝ)) → ENNReal := fun l' =>
        Spec.squared P (Spec.mover cs false f prob q false hastings start pscale) A π k l'
          (a + ((if ∃ x ∈ A, l'.p.map Row.val = some x then 1 else 0) - π))
      let Q : (Fin n → ℝ) → ENNReal := fun z => ENNReal.ofReal ((a + (ψ z - π)) ^ 2 +
        2 * (a + (ψ z - π)) * devs P D (fun s => w (g s)) ψ π k z +
        devBound P D (fun s => w (g s)) (fun x => |chanceIn P D (fun s => w (g s)) ψ m x - π|) m k z)
      have hV : ∀ l' z, Spec.At prob l' (g z) → V l' ≤ Q z := by
        intro l' z hz
        have e : ((if ∃ x ∈ A, l'.p.map Row.val = some x then (1 : ℝ) else 0) - π) = ψ z - π := by
          simp only [hz.1, Option.map_some, Option.some.injEq, hψd]
          by_cases hzA : g z ∈ A
          · rw [if_pos ⟨_, hzA, rfl⟩, Set.indicator_of_mem (s := g ⁻¹' A) hzA]
          · rw [if_neg (by rintro ⟨y, hy, rfl⟩; exact hzA hy), Set.indicator_of_notMem (s := g ⁻¹' A) hzA]
        simp only [V, e]
        exact ih l' z hz _
      have hle : ∀ t, V ((nextCore (Spec.mover cs false f prob q false hastings start pscale) (some l)
          ⟨d, t⟩ ()).2.1.getD l) ≤ if t ≤ Spec.ratio (w (g s)) (w (g (s + D d))) then Q (s + D d) else Q s := by
        intro t
        obtain ⟨l', smp, h1, h2, h3⟩ := mover_step cs false f prob w q false hastings start pscale hst l
          _ (g (s + D d)) ⟨d, t⟩ hl (by
            rw [deltaStep_ok cs f _ (D d) (fun i => by simp only [hg, Spec.untransformed, (hcs i).1]) ⟨d, t⟩ (hf _),
              displaced_back hcs]) (by rw [hg, ← displaced_back hcs]; exact hj _ _)
        rw [h1]
        simp only [Option.getD_some]
        by_cases ht : t ≤ Spec.ratio (w (g s)) (w (g (s + D d)))
        · rw [if_pos ht]
          exact hV l' _ (h2 ht).1
        · rw [if_neg ht, (h3 ht).1]
          exact hV l s hl
      refine (lintegral_mono hle).trans (le_of_eq ?_)
      obtain ⟨r0, r1⟩ := ratio_bounds (w (g s)) (w (g (s + D d))) (hn _)
      exact mean_le _ _ _ r0 r1

/-- What vanishes in mean square vanishes in the mean. -/
theorem mean_of_square {ν : Measure (Fin n → ℝ)} [IsFiniteMeasure ν] {φs : ℕ → (Fin n → ℝ) → ℝ} {s : ℝ}
    (hi : ∀ i, Integrable (fun x => (φs i x - s) ^ 2) ν) (ha : ∀ i, Integrable (fun x => |φs i x - s|) ν)
    (h : Tendsto (fun i => ∫ x, (φs i x - s) ^ 2 ∂ν) atTop (𝓝 0)) :
    Tendsto (fun i => ∫ x, |φs i x - s| ∂ν) atTop (𝓝 0) := by
  rw [Metric.tendsto_atTop]
  intro ε hε
  set U := ν.real Set.univ with hU
  have hU0 : 0 ≤ U := measureReal_nonneg
  set δ := ε / (2 * (U + 1)) with hδ
  have hδ0 : 0 < δ := by positivity
  obtain ⟨N, hN⟩ := Metric.tendsto_atTop.1 h (δ * ε / 2) (by positivity)
  refine ⟨N, fun i hii => ?_⟩
  have h1 := hN i hii
  rw [Real.dist_eq, sub_zero, abs_of_nonneg (integral_nonneg fun x => sq_nonneg _)] at h1
  rw [Real.dist_eq, sub_zero, abs_of_nonneg (integral_nonneg fun x => abs_nonneg _)]
  have h2 : ∫ x, |φs i x - s| ∂ν ≤ ∫ x, (δ + δ⁻¹ * (φs i x - s) ^ 2) ∂ν := by
    refine integral_mono (ha i) ((integrable_const _).add ((hi i).const_mul _)) fun x => ?_
    show |φs i x - s| ≤ δ + δ⁻¹ * (φs i x - s) ^ 2
    have h3 : 0 ≤ δ⁻¹ * (|φs i x - s| - δ) ^ 2 := by positivity
    have h4 : δ⁻¹ * (|φs i x - s| - δ) ^ 2 = δ⁻¹ * (φs i x - s) ^ 2 - 2 * |φs i x - s| + δ := by
      rw [← sq_abs (φs i x - s)]
      field_simp
      ring
    have h5 := abs_nonneg (φs i x - s)
    linarith
  rw [integral_add (integrable_const _) ((hi i).const_mul _), integral_const, integral_const_mul, smul_eq_mul, ← hU] at h2
  have h6 : U * δ ≤ ε / 2 := by
    rw [hδ, ← mul_div_assoc, div_le_iff₀ (by positivity)]
    nlinarith
  have h7 : δ⁻¹ * ∫ x, (φs i x - s) ^ 2 ∂ν < ε / 2 := by
    rw [inv_mul_lt_iff₀ hδ0]
    linarith
  linarith

/-- C111: the proportion of samples in a set tends, in mean square, to the part of the target there,
from any start. -/
theorem C111_proportions {cs : Fin n → Spec.Axis}
    (hcs : Spec.Invertible cs) {f : Ω → Py (DeltaRet n)} (hf : ∀ ω, f ω = .ok (.delta (D ω)))
    (hD : Measurable D) (hsym : P.map (fun ω => - D ω) = P.map D) (hev : Spec.Everywhere P D)
    {prob : (Fin n → ℝ) → ℝ} {q : (Fin n → ℝ) → (Fin n → ℝ) → ℝ} {hastings : Bool} {start : Fin n → ℝ}
    {pscale : PSpec} (hst : Spec.Stored prob pscale w) (hw : Measurable w)
    (hj : ∀ x ω, Spec.Judgeable hastings false pscale w q x (Spec.displaced cs x (D ω)))
    (h0 : ∫⁻ s, ENNReal.ofReal (w (Spec.untransformed cs s)) ≠ 0)
    (h1 : ∫⁻ s, ENNReal.ofReal (w (Spec.untransformed cs s)) ≠ ⊤)
    {A : Set (Fin n → ℝ)} (hA : MeasurableSet A) (l : OPQR (Row (Fin n → ℝ))) (s : Fin n → ℝ)
    (hl : Spec.At prob l (Spec.untransformed cs s)) :
    Tendsto (fun N : ℕ => Spec.squared P (Spec.mover cs false f prob q false hastings start pscale) A
      (Spec.partOf w (Spec.untransformed cs) A).toReal N l 0 / (N : ENNReal) ^ 2) atTop (𝓝 0) := by
  set g := Spec.untransformed cs with hg
  have hgm : Measurable g := measurable_pi_iff.mpr fun i => (hcs i).2.comp (measurable_pi_apply i)
  have hwg : Measurable fun s => w (g s) := hw.comp hgm
  have hAm : MeasurableSet (g ⁻¹' A) := hgm hA
  have hn : ∀ s, 0 ≤ w (g s) := fun s => hst.nonneg _
  have hψ := indicator_unit hAm
  have hac : P.map D ≪ volume := Measure.AbsolutelyContinuous.mk fun S hS h => by
    rw [Measure.map_apply hD hS]
    exact (hev S hS).2 h
  have hca : volume ≪ P.map D := Measure.AbsolutelyContinuous.mk fun S hS h => by
    rw [Measure.map_apply hD hS] at h
    exact (hev S hS).1 h
  have hval : ∀ {S : Set (Fin n → ℝ)}, MeasurableSet S →
      targetM (fun s => w (g s)) S = ∫⁻ s in S, ENNReal.ofReal (w (g s)) := fun hS => withDensity_apply _ hS
  have hall : targetM (fun s => w (g s)) Set.univ = ∫⁻ s, ENNReal.ofReal (w (g s)) := by
    rw [hval MeasurableSet.univ, Measure.restrict_univ]
  have hfin : IsFiniteMeasure (targetM fun s => w (g s)) := ⟨by rw [hall]; exact h1.lt_top⟩
  have hne : targetM (fun s => w (g s)) ≠ 0 := by
    rw [ne_eq, ← Measure.measure_univ_eq_zero, hall]
    exact h0
  set μ := targetM fun s => w (g s) with hμ
  set ψ : (Fin n → ℝ) → ℝ := (g ⁻¹' A).indicator fun _ => 1 with hψd
  set π := (Spec.partOf w g A).toReal with hπd
  have hU0 : 0 < μ.real Set.univ := by
    rw [measureReal_def, hall]
    exact ENNReal.toReal_pos h0 h1
  have hπe : (∫ y, ψ y ∂μ) / μ.real Set.univ = π := by
    rw [hψd, integral_indicator hAm, setIntegral_const, smul_eq_mul, mul_one, hπd, Spec.partOf, ENNReal.toReal_div,
      measureReal_def, measureReal_def, hall, hμ, hval hAm]
  have hπ : 0 ≤ π ∧ π ≤ 1 := by
    refine ⟨ENNReal.toReal_nonneg, ?_⟩
    rw [← hπe, div_le_one hU0, hψd, integral_indicator hAm, setIntegral_const, smul_eq_mul, mul_one]
    exact measureReal_mono (Set.subset_univ _)
  have hF := chanceIn_unit (P := P) hD hwg hn hψ
  have hsq := chanceIn_tends hD hsym hac hca hwg hn hne hψ (P := P)
  rw [← hμ, hπe] at hsq
  have hmean := mean_of_square (ν := μ) (φs := fun k => chanceIn P D (fun s => w (g s)) ψ k) (s := π)
    (fun k => by
      have e : ∀ y, (chanceIn P D (fun s => w (g s)) ψ k y - π) ^ 2 = |chanceIn P D (fun s => w (g s)) ψ k y - π| ^ 2 :=
        fun y => (sq_abs _).symm
      simp only [e]
      exact unit_integrable (dev_unit (hF k) hπ).sq) (fun k => unit_integrable (dev_unit (hF k) hπ)) hsq
  rw [ENNReal.tendsto_nhds_zero]
  intro ε hε
  set e := (min ε 1).toReal with he
  have he0 : 0 < e := ENNReal.toReal_pos (ne_of_gt (lt_min hε one_pos)) (ne_top_of_le_ne_top ENNReal.one_ne_top (min_le_right _ _))
  have hee : ENNReal.ofReal e ≤ ε := by
    rw [he, ENNReal.ofReal_toReal (ne_top_of_le_ne_top ENNReal.one_ne_top (min_le_right _ _))]
    exact min_le_left _ _
  obtain ⟨m, hm⟩ := (Metric.tendsto_atTop.1 hmean (μ.real Set.univ * e / 4) (by positivity))
  have hm := hm m le_rfl
  rw [Real.dist_eq, sub_zero, abs_of_nonneg (integral_nonneg fun x => abs_nonneg _)] at hm
  set φ : (Fin n → ℝ) → ℝ := fun x => |chanceIn P D (fun s => w (g s)) ψ m x - π| with hφ
  have hdev : Unit01 φ := dev_unit (hF m) hπ
  have hG := chanceIn_unit (P := P) hD hwg hn hdev
  have hpt := Filter.Tendsto.cesaro (chanceIn_point hD hsym hac hca hwg hn hne hdev s (P := P))
  have hlim : Tendsto (fun N : ℕ => (3 + 2 * m) * (N : ℝ)⁻¹ + 2 * ((N : ℝ)⁻¹ * ∑ j ∈ Finset.range N,
      chanceIn P D (fun s => w (g s)) φ j s)) atTop (𝓝 ((3 + 2 * m) * 0 + 2 * ((∫ y, φ y ∂μ) / μ.real Set.univ))) :=
    (tendsto_inv_atTop_nhds_zero_nat.const_mul _).add (hpt.const_mul 2)
  have hlt : (3 + 2 * (m : ℝ)) * 0 + 2 * ((∫ y, φ y ∂μ) / μ.real Set.univ) < e := by
    rw [mul_zero, zero_add, ← mul_div_assoc, div_lt_iff₀ hU0]
    nlinarith [mul_pos hU0 he0]
  filter_upwards [hlim.eventually (gt_mem_nhds hlt), eventually_gt_atTop 0] with N hN hN0
  have hb := squared_bound hcs hf hD hst hw hj hA hπ m N l s hl 0 (P := P) (start := start)
  rw [← hg, ← hψd, ← hφ] at hb
  have hNr : (0 : ℝ) < N := by exact_mod_cast hN0
  have hB : (0 : ℝ) ^ 2 + 2 * 0 * devs P D (fun s => w (g s)) ψ π N s + devBound P D (fun s => w (g s)) φ m N s ≤
      e * (N : ℝ) ^ 2 := by
    unfold devBound
    rw [Finset.sum_range_succ]
    have ha := ((hG N).2 s).2
    have e1 : (3 + 2 * (m : ℝ)) * (N : ℝ)⁻¹ + 2 * ((N : ℝ)⁻¹ * ∑ j ∈ Finset.range N,
      chanceIn P D (fun s => w (g s)) φ j s) = ((3 + 2 * m) * N + 2 * N * ∑ j ∈ Finset.range N,
      chanceIn P D (fun s => w (g s)) φ j s) / (N : ℝ) ^ 2 := by
      field_simp
    rw [e1, div_lt_iff₀ (by positivity)] at hN
    nlinarith [mul_le_mul_of_nonneg_left ha hNr.le]
  refine le_trans ?_ hee
  refine ENNReal.div_le_of_le_mul ?_
  refine hb.trans ((ENNReal.ofReal_le_ofReal hB).trans (le_of_eq ?_))
  rw [ENNReal.ofReal_mul he0.le, ENNReal.ofReal_pow (Nat.cast_nonneg N), ENNReal.ofReal_natCast]

/-- C111: normal displacements of several variables without transform. -/
theorem C111_normal_proportions {cs : Fin n → Spec.Axis} (hcs : ∀ i, (cs i).uf = none) {prob w : (Fin n → ℝ) → ℝ}
    (hst : Spec.Stored prob (.flt 1) w) (hw : Measurable w) (h0 : ∫⁻ x, ENNReal.ofReal (w x) ≠ 0)
    (h1 : ∫⁻ x, ENNReal.ofReal (w x) ≠ ⊤) {q : (Fin n → ℝ) → (Fin n → ℝ) → ℝ} (hq : ∀ x y, 0 < q x y)
    (hastings : Bool) (start : Fin n → ℝ) {A : Set (Fin n → ℝ)} (hA : MeasurableSet A)
    (l : OPQR (Row (Fin n → ℝ))) (x : Fin n → ℝ) (hl : Spec.At prob l x) :
    Tendsto (fun N : ℕ => Spec.squared (normals n)
      (Spec.mover cs false (fun δ => .ok (.delta δ)) prob q false hastings start (.flt 1)) A
      ((∫⁻ y in A, ENNReal.ofReal (w y)) / ∫⁻ y, ENNReal.ofReal (w y)).toReal N l 0 / (N : ENNReal) ^ 2) atTop (𝓝 0) := by
  have hun : Spec.untransformed cs = id := by
    funext s i
    simp [Spec.untransformed, hcs i, UFun.inv]
  have h := C111_proportions (P := normals n) (D := id) (cs := cs) (f := fun δ => .ok (.delta δ)) (q := q)
    (hastings := hastings) (start := start) (A := A) (l := l) (s := x)
    (fun i => by rw [hcs i]; exact ⟨fun _ => rfl, measurable_id⟩) (fun _ => rfl) measurable_id (normals_sym n)
    (normals_everywhere n) hst hw
    (fun x ω _ => ⟨fun _ => ⟨.lin 1, by simp [evalPscale], one_pos, trivial, by simpa [Spec.value] using hq _ _⟩,
      fun h => by simp at h⟩) (by rw [hun]; exact h0) (by rw [hun]; exact h1) hA (by rw [hun]; exact hl)
  rw [hun] at h
  exact h

/-- C111: examples/mcmc/mcmc_prob2.py: the proportion of samples in a set tends, in mean square, to its
probability under the normal law of mean 2 and variance 2. -/
theorem C111_prob2_proportions (hastings : Bool) (start : Fin 1 → ℝ) (l : OPQR (Row (Fin 1 → ℝ))) (x : Fin 1 → ℝ)
    (hl : Spec.At (fun x => ProbabilityTheory.gaussianPDFReal 2 2 (x 0)) l x) {B : Set ℝ} (hB : MeasurableSet B) :
    Tendsto (fun N : ℕ => Spec.squared (normals 1) (Spec.mover (fun _ => ⟨.tuple (-1 : ℝ) (1 : ℝ), none⟩) false
      (fun δ => .ok (.delta δ)) (fun x => ProbabilityTheory.gaussianPDFReal 2 2 (x 0))
      (fun x y => ProbabilityTheory.gaussianPDFReal (x 0) 1 (y 0)) false hastings start (.flt 1)) {s | s 0 ∈ B}
      ((ProbabilityTheory.gaussianReal 2 2).real B) N l 0 / (N : ENNReal) ^ 2) atTop (𝓝 0) := by
  have hm : Measurable (ProbabilityTheory.gaussianPDFReal 2 2) := ProbabilityTheory.measurable_gaussianPDFReal _ _
  have htot : ∫⁻ y : Fin 1 → ℝ, ENNReal.ofReal (ProbabilityTheory.gaussianPDFReal 2 2 (y 0)) = 1 := by
    have := one_lintegral hm MeasurableSet.univ
    simp only [Set.mem_univ, Set.setOf_true, Measure.restrict_univ] at this
    rw [this]
    exact ProbabilityTheory.lintegral_gaussianPDFReal_eq_one 2 two_ne_zero
  have h := C111_normal_proportions (n := 1) (cs := fun _ => ⟨.tuple (-1 : ℝ) (1 : ℝ), none⟩) (fun _ => rfl)
    (plain_stored (w := fun x : Fin 1 → ℝ => ProbabilityTheory.gaussianPDFReal 2 2 (x 0))
      fun x => ProbabilityTheory.gaussianPDFReal_nonneg _ _ _)
    (hm.comp (measurable_pi_apply 0)) (by rw [htot]; exact one_ne_zero) (by rw [htot]; exact ENNReal.one_ne_top)
    (q := fun x y => ProbabilityTheory.gaussianPDFReal (x 0) 1 (y 0))
    (fun x y => ProbabilityTheory.gaussianPDFReal_pos _ _ _ one_ne_zero) hastings start
    (A := {s | s 0 ∈ B}) (measurable_pi_apply 0 hB) l x hl
  rw [htot, div_one, one_lintegral hm hB] at h
  rw [measureReal_def, ProbabilityTheory.gaussianReal_apply 2 two_ne_zero]
  exact h

/-- C111: examples/mcmc/mcmc_prob4a.py. -/
theorem C111_prob4a_proportions (hastings : Bool) (start : Fin 2 → ℝ) (l : OPQR (Row (Fin 2 → ℝ))) (x : Fin 2 → ℝ)
    (hl : Spec.At bivariate l x) {A : Set (Fin 2 → ℝ)} (hA : MeasurableSet A) :
    Tendsto (fun N : ℕ => Spec.squared (normals 2) (Spec.mover (fun _ => ⟨.tuple (-1 : ℝ) (1 : ℝ), none⟩) false
      (fun δ => .ok (.delta δ)) bivariate
      (fun x y => ProbabilityTheory.gaussianPDFReal (x 1) 1 (y 1) * ProbabilityTheory.gaussianPDFReal (x 0) 1 (y 0))
      false hastings start (.flt 1)) A
      ((∫⁻ y in A, ENNReal.ofReal (bivariate y)) / ∫⁻ y, ENNReal.ofReal (bivariate y)).toReal N l 0 / (N : ENNReal) ^ 2)
      atTop (𝓝 0) := by
  refine C111_normal_proportions (fun _ => rfl) (plain_stored fun x => (bivariate_pos x).le)
    bivariate_continuous.measurable bivariate_nonzero bivariate_finite (fun x y => mul_pos
      (ProbabilityTheory.gaussianPDFReal_pos _ _ _ one_ne_zero) (ProbabilityTheory.gaussianPDFReal_pos _ _ _ one_ne_zero))
    hastings start hA l x hl

/-- A start of examples/mcmc/mcmc_prob2.py, and the set of samples above the mean. -/
example : (∃ l, Spec.At (fun x : Fin 1 → ℝ => ProbabilityTheory.gaussianPDFReal 2 2 (x 0)) l fun _ => 0) ∧
    MeasurableSet (Set.Ioi (2 : ℝ)) :=
  ⟨⟨⟨none, some ⟨_, .scalar _⟩, some ⟨_, .scalar 1⟩, none⟩, rfl, _, rfl⟩, measurableSet_Ioi⟩

end Probayes
