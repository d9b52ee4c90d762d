/-
The limit of the chances of a reversible random walk from every start.
-/
import Verif.Lemmas.ReversibleLimit

namespace Probayes

open MeasureTheory Filter Topology

variable {n : ℕ} {Ω : Type} [MeasurableSpace Ω] {P : Measure Ω} [IsProbabilityMeasure P] {D : Ω → Fin n → ℝ}
  {w : (Fin n → ℝ) → ℝ}

/-- Errors that shrink by a factor, up to terms that vanish, vanish. -/
theorem shrinking_tends {e δ : ℕ → ℝ} {a : ℝ} (ha0 : 0 ≤ a) (ha1 : a < 1) (h : ∀ k, e (k + 1) = a * e k + δ k)
    (hδ : Tendsto δ atTop (𝓝 0)) : Tendsto e atTop (𝓝 0) := by
  rw [Metric.tendsto_atTop]
  intro ε hε
  obtain ⟨N, hN⟩ := Metric.tendsto_atTop.1 hδ (ε / 2 * (1 - a)) (mul_pos (by linarith) (by linarith))
  have hstep : ∀ j, |e (N + j)| ≤ a ^ j * |e N| + ε / 2 := by
    intro j
    induction j with
    | zero => simp; linarith
    | succ j ih =>
        have hd := hN (N + j) (by omega)
        rw [Real.dist_eq, sub_zero] at hd
        rw [← add_assoc, h]
        calc |a * e (N + j) + δ (N + j)| ≤ |a * e (N + j)| + |δ (N + j)| := abs_add_le _ _
          _ = a * |e (N + j)| + |δ (N + j)| := by rw [abs_mul, abs_of_nonneg ha0]
          _ ≤ a * (a ^ j * |e N| + ε / 2) + ε / 2 * (1 - a) := add_le_add (mul_le_mul_of_nonneg_left ih ha0) hd.le
          _ = a ^ (j + 1) * |e N| + ε / 2 := by ring
  have hp : Tendsto (fun j => a ^ j * |e N|) atTop (𝓝 0) := by
    simpa using (tendsto_pow_atTop_nhds_zero_of_lt_one ha0 ha1).mul_const |e N|
  obtain ⟨K, hK⟩ := Metric.tendsto_atTop.1 hp (ε / 2) (by linarith)
  refine ⟨N + K, fun k hk => ?_⟩
  obtain ⟨j, rfl⟩ := Nat.exists_eq_add_of_le (show N ≤ k by omega)
  have h1 := hK j (by omega)
  rw [Real.dist_eq, sub_zero, abs_of_nonneg (mul_nonneg (pow_nonneg ha0 _) (abs_nonneg _))] at h1
  rw [Real.dist_eq, sub_zero]
  linarith [hstep j]

/-- What vanishes in mean square vanishes at almost every point, along some times. -/
theorem exists_ae_of_square {ν : Measure (Fin n → ℝ)} {φs : ℕ → (Fin n → ℝ) → ℝ} {s : ℝ}
    (hm : ∀ i, Measurable (φs i)) (hi : ∀ i, Integrable (fun x => (φs i x - s) ^ 2) ν)
    (h : Tendsto (fun i => ∫ x, (φs i x - s) ^ 2 ∂ν) atTop (𝓝 0)) :
    ∃ ms : ℕ → ℕ, StrictMono ms ∧ ∀ᵐ x ∂ν, Tendsto (fun i => φs (ms i) x) atTop (𝓝 s) := by
  have hin : TendstoInMeasure ν (fun i x => (φs i x - s) ^ 2) atTop (fun _ => 0) := by
    refine tendstoInMeasure_of_tendsto_eLpNorm one_ne_zero
      (fun i => (((hm i).sub measurable_const).pow_const 2).aestronglyMeasurable) aestronglyMeasurable_const ?_
    have he : ∀ i, eLpNorm ((fun x => (φs i x - s) ^ 2) - fun _ => (0 : ℝ)) 1 ν =
        ENNReal.ofReal (∫ x, (φs i x - s) ^ 2 ∂ν) := by
      intro i
      rw [eLpNorm_one_eq_lintegral_enorm, ofReal_integral_eq_lintegral_ofReal (hi i)
        (Eventually.of_forall fun x => sq_nonneg _)]
      congr 1
      funext x
      simp only [Pi.sub_apply, sub_zero]
      rw [Real.enorm_eq_ofReal (sq_nonneg _)]
    simp only [he]
    simpa using (ENNReal.tendsto_ofReal h)
  obtain ⟨ms, hms, hae⟩ := hin.exists_seq_tendsto_ae
  refine ⟨ms, hms, ?_⟩
  filter_upwards [hae] with x hx
  have h1 : Tendsto (fun i => Real.sqrt ((φs (ms i) x - s) ^ 2)) atTop (𝓝 (Real.sqrt 0)) :=
    (Real.continuous_sqrt.tendsto _).comp hx
  simp only [Real.sqrt_sq_eq_abs, Real.sqrt_zero] at h1
  have h2 := (tendsto_zero_iff_abs_tendsto_zero _).2 h1
  simpa using h2.add_const s

/-- There is a chance to move. -/
theorem taken_one_pos (hD : Measurable D) (hw : Measurable w) (hn : ∀ x, 0 ≤ w x) (hca : volume ≪ P.map D)
    (h0 : targetM w ≠ 0) (x : Fin n → ℝ) : 0 < taken P D w (fun _ => 1) x := by
  have hm : Measurable fun ω => x + D ω := measurable_const.add hD
  refine lt_of_le_of_ne (taken_range hD hw hn unit01_one x).1 fun hz => h0 ?_
  have hz' : ∫ ω, Spec.ratio (w x) (w (x + D ω)) * 1 ∂P = 0 := hz.symm
  rw [integral_eq_zero_iff_of_nonneg (fun ω => mul_nonneg (ratio_bounds _ _ (hn _)).1 zero_le_one)
    (taken_integrable hD hw hn unit01_one x)] at hz'
  have h1 : ∀ᵐ ω ∂P, w (x + D ω) = 0 := by
    filter_upwards [hz'] with ω hω
    exact ratio_zero (a := w x) (by simpa using hω)
  have h2 : ∀ᵐ y, w y = 0 := (moved_ca hD hca x).ae_le
    ((ae_map_iff hm.aemeasurable (measurableSet_eq_fun hw measurable_const)).2 h1)
  have h3 : ∀ᵐ y ∂targetM w, False := by
    rw [target_ae hw hn]
    filter_upwards [h2] with y hy h
    exact h hy
  rwa [ae_iff, show {a : Fin n → ℝ | ¬ False} = Set.univ by simp, Measure.measure_univ_eq_zero] at h3

/-- From every start, the chances to be in a set tend to its share of the target. -/
theorem chanceIn_point (hD : Measurable D) (hsym : P.map (fun ω => - D ω) = P.map D) (hac : P.map D ≪ volume)
    (hca : volume ≪ P.map D) (hw : Measurable w) (hn : ∀ x, 0 ≤ w x) (h0 : targetM w ≠ 0) [IsFiniteMeasure (targetM w)]
    {ψ : (Fin n → ℝ) → ℝ} (hA : Unit01 ψ) (x : Fin n → ℝ) :
    Tendsto (fun k => chanceIn P D w ψ k x) atTop (𝓝 ((∫ y, ψ y ∂targetM w) / (targetM w).real Set.univ)) := by
  have hu := chanceIn_unit (P := P) hD hw hn hA
  have hsq := chanceIn_tends hD hsym hac hca hw hn h0 hA (P := P)
  set s := (∫ y, ψ y ∂targetM w) / (targetM w).real Set.univ with hs
  set R := taken P D w (fun _ => 1) x with hR
  have hR0 : 0 < R := taken_one_pos hD hw hn hca h0 x
  have hR1 : R ≤ 1 := (taken_range hD hw hn unit01_one x).2
  have hconst : taken P D w (fun _ => s) x = R * s := by
    rw [hR]
    unfold taken
    rw [integral_mul_const]
    simp
  have hi : ∀ k, Integrable (fun y => (chanceIn P D w ψ k y - s) ^ 2) (targetM w) := by
    intro k
    have e : ∀ y, (chanceIn P D w ψ k y - s) ^ 2 = chanceIn P D w ψ k y ^ 2 - 2 * s * chanceIn P D w ψ k y + s ^ 2 :=
      fun y => by ring
    simp only [e]
    exact ((unit_integrable (hu k).sq).sub ((unit_integrable (hu k)).const_mul _)).add (integrable_const _)
  have hM : Tendsto (fun k => taken P D w (chanceIn P D w ψ k) x) atTop (𝓝 (R * s)) := by
    refine tendsto_of_subseq_tendsto fun ns hns => ?_
    obtain ⟨ms, -, hae⟩ := exists_ae_of_square (fun i => (hu (ns i)).1) (fun i => hi (ns i)) (hsq.comp hns)
    refine ⟨ms, ?_⟩
    rw [← hconst]
    exact taken_tends hD hw hn hac (fun i => hu (ns (ms i))) ((target_ae hw hn).1 hae) x
  have he := shrinking_tends (e := fun k => chanceIn P D w ψ k x - s)
    (δ := fun k => taken P D w (chanceIn P D w ψ k) x - R * s) (a := 1 - R) (by linarith) (by linarith)
    (fun k => by simp only [chanceIn, stepR, ← hR]; ring) (by simpa using hM.sub_const (R * s))
  simpa using he.add_const s

end Probayes
