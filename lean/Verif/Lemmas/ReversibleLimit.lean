/-
The limit of the chances of a reversible random walk whose moves may lead anywhere.
-/
import Verif.Lemmas.ReversibleConv

namespace Probayes

open MeasureTheory Filter Topology

variable {n : ℕ} {Ω : Type} [MeasurableSpace Ω] {P : Measure Ω} [IsProbabilityMeasure P] {D : Ω → Fin n → ℝ}
  {w : (Fin n → ℝ) → ℝ}

theorem moved_ac (hD : Measurable D) (hac : P.map D ≪ volume) (x : Fin n → ℝ) :
    P.map (fun ω => x + D ω) ≪ volume := by
  have h := hac.map (measurable_const_add x)
  rwa [Measure.map_map (measurable_const_add x) hD, map_add_left_eq_self] at h

theorem moved_ca (hD : Measurable D) (hca : volume ≪ P.map D) (x : Fin n → ℝ) :
    volume ≪ P.map (fun ω => x + D ω) := by
  have h := hca.map (measurable_const_add x)
  rwa [Measure.map_map (measurable_const_add x) hD, map_add_left_eq_self] at h

theorem ratio_zero {a b : ℝ} (h : Spec.ratio a b = 0) : b = 0 := by
  have hm : 0 < max npz a := npz_pos.trans_le (le_max_left _ _)
  unfold Spec.ratio at h
  rcases min_choice 1 (b / max npz a) with h1 | h1
  · rw [h1] at h; norm_num at h
  · rw [h1, div_eq_zero_iff] at h
    rcases h with h | h
    · exact h
    · exact absurd h hm.ne'

theorem ratio_of_zero (a : ℝ) : Spec.ratio a 0 = 0 := by
  unfold Spec.ratio
  rw [zero_div, min_eq_right zero_le_one]

section
variable (hD : Measurable D) (hw : Measurable w) (hn : ∀ x, 0 ≤ w x) (hac : P.map D ≪ volume)
include hD hw hn hac

theorem taken_tends {φs : ℕ → (Fin n → ℝ) → ℝ} {φ : (Fin n → ℝ) → ℝ} (hφs : ∀ i, Unit01 (φs i))
    (h : ∀ᵐ y, w y ≠ 0 → Tendsto (fun i => φs i y) atTop (𝓝 (φ y))) (x : Fin n → ℝ) :
    Tendsto (fun i => taken P D w (φs i) x) atTop (𝓝 (taken P D w φ x)) := by
  have hx : ∀ᵐ ω ∂P, w (x + D ω) ≠ 0 → Tendsto (fun i => φs i (x + D ω)) atTop (𝓝 (φ (x + D ω))) :=
    ae_of_ae_map (measurable_const.add hD).aemeasurable ((moved_ac hD hac x).ae_le h)
  refine tendsto_integral_of_dominated_convergence (fun _ => 1)
    (fun i => (taken_integrable hD hw hn (hφs i) x).aestronglyMeasurable) (integrable_const _)
    (fun i => Eventually.of_forall fun ω => by simpa using taken_abs hD hw hn (hφs i) x ω) ?_
  filter_upwards [hx] with ω hω
  by_cases h0 : w (x + D ω) = 0
  · simp only [h0, ratio_of_zero, zero_mul]
    exact tendsto_const_nhds
  · exact (hω h0).const_mul _

theorem scatter_point {φs : ℕ → (Fin n → ℝ) → ℝ} {φ : (Fin n → ℝ) → ℝ} (hφs : ∀ i, Unit01 (φs i))
    (h : ∀ᵐ y, w y ≠ 0 → Tendsto (fun i => φs i y) atTop (𝓝 (φ y))) (x : Fin n → ℝ) :
    Tendsto (fun i => scatter P D w (φs i) x) atTop (𝓝 (scatter P D w φ x)) := by
  have h2 : ∀ᵐ y, w y ≠ 0 → Tendsto (fun i => φs i y ^ 2) atTop (𝓝 (φ y ^ 2)) := by
    filter_upwards [h] with y hy h0
    exact (hy h0).pow 2
  exact ((taken_tends hD hw hn hac (fun i => (hφs i).sq) h2 x).const_mul _).sub
    ((taken_tends hD hw hn hac hφs h x).pow 2)

end

theorem target_ae (hw : Measurable w) (hn : ∀ x, 0 ≤ w x) {p : (Fin n → ℝ) → Prop} :
    (∀ᵐ x ∂targetM w, p x) ↔ ∀ᵐ x, w x ≠ 0 → p x := by
  unfold targetM
  rw [ae_withDensity_iff hw.ennreal_ofReal]
  have : ∀ x, ENNReal.ofReal (w x) ≠ 0 ↔ w x ≠ 0 := fun x => by
    rw [ne_eq, ENNReal.ofReal_eq_zero, not_le]
    exact ⟨fun h => h.ne', fun h => lt_of_le_of_ne (hn x) (Ne.symm h)⟩
  simp only [this]

/-- A function without spread is constant where the target is not zero. -/
theorem scatter_zero (hD : Measurable D) (hw : Measurable w) (hn : ∀ x, 0 ≤ w x) (hca : volume ≪ P.map D)
    (h0 : targetM w ≠ 0) {g : (Fin n → ℝ) → ℝ} (hg : Unit01 g) {x : Fin n → ℝ} (hx : scatter P D w g x = 0) :
    ∃ c, ∀ᵐ y ∂targetM w, g y = c := by
  have hm : Measurable fun ω => x + D ω := measurable_const.add hD
  have hback : ∀ {p : (Fin n → ℝ) → Prop}, MeasurableSet {y | p y} → (∀ᵐ ω ∂P, p (x + D ω)) → ∀ᵐ y, p y :=
    fun hp h => (moved_ca hD hca x).ae_le ((ae_map_iff hm.aemeasurable hp).2 h)
  set R := taken P D w (fun _ => 1) x with hR
  set M := taken P D w g x with hM
  have hR0 : 0 < R := by
    refine lt_of_le_of_ne (taken_range hD hw hn unit01_one x).1 fun hz => h0 ?_
    have hz' : ∫ ω, Spec.ratio (w x) (w (x + D ω)) * 1 ∂P = 0 := hz.symm
    rw [integral_eq_zero_iff_of_nonneg (fun ω => mul_nonneg (ratio_bounds _ _ (hn _)).1 zero_le_one)
      (taken_integrable hD hw hn unit01_one x)] at hz'
    have h1 : ∀ᵐ ω ∂P, w (x + D ω) = 0 := by
      filter_upwards [hz'] with ω hω
      exact ratio_zero (a := w x) (by simpa using hω)
    have h2 : ∀ᵐ y, w y = 0 := hback (p := fun y => w y = 0) (measurableSet_eq_fun hw measurable_const) h1
    have h3 : ∀ᵐ y ∂targetM w, False := by
      rw [target_ae hw hn]
      filter_upwards [h2] with y hy h
      exact h hy
    rwa [ae_iff, show {a : Fin n → ℝ | ¬ False} = Set.univ by simp, Measure.measure_univ_eq_zero] at h3
  refine ⟨M / R, (target_ae hw hn).2 ?_⟩
  have hd := taken_dist hD hw hn hg (P := P) x R M
  have hz : ∫ ω, Spec.ratio (w x) (w (x + D ω)) * (R * g (x + D ω) - M) ^ 2 ∂P = 0 := by
    rw [hd]
    unfold scatter at hx
    rw [← hR, ← hM] at hx ⊢
    linear_combination R * hx
  have hi : Integrable (fun ω => Spec.ratio (w x) (w (x + D ω)) * (R * g (x + D ω) - M) ^ 2) P := by
    refine bdd_integrable ?_ fun ω => ?_
    · exact (ratio_measurable.comp (measurable_const.prodMk (hw.comp hm))).mul
        ((((hg.1.comp hm).const_mul R).sub measurable_const).pow_const 2)
    · obtain ⟨r0, r1⟩ := ratio_bounds (w x) (w (x + D ω)) (hn _)
      have hR1 : R ≤ 1 := (taken_range hD hw hn unit01_one x).2
      have hM' : 0 ≤ M ∧ M ≤ 1 := taken_range hD hw hn hg x
      have hg' := hg.2 (x + D ω)
      have hb : |R * g (x + D ω) - M| ≤ 1 := by
        have h1 : R * g (x + D ω) ≤ 1 := mul_le_one₀ hR1 hg'.1 hg'.2
        have h2 : 0 ≤ R * g (x + D ω) := mul_nonneg hR0.le hg'.1
        rw [abs_le]; constructor <;> linarith
      rw [abs_of_nonneg (mul_nonneg r0 (sq_nonneg _))]
      exact mul_le_one₀ r1 (sq_nonneg _) (by rw [← sq_abs]; exact pow_le_one₀ (abs_nonneg _) hb)
  rw [integral_eq_zero_iff_of_nonneg (fun ω => mul_nonneg (ratio_bounds _ _ (hn _)).1 (sq_nonneg _)) hi] at hz
  have h1 : ∀ᵐ ω ∂P, w (x + D ω) = 0 ∨ g (x + D ω) = M / R := by
    filter_upwards [hz] with ω hω
    have hω' : Spec.ratio (w x) (w (x + D ω)) * (R * g (x + D ω) - M) ^ 2 = 0 := hω
    rcases mul_eq_zero.1 hω' with h | h
    · exact .inl (ratio_zero h)
    · refine .inr ?_
      rw [eq_div_iff hR0.ne']
      have := pow_eq_zero_iff (two_ne_zero) |>.1 h
      linarith
  have h2 : ∀ᵐ y, w y = 0 ∨ g y = M / R := hback (p := fun y => w y = 0 ∨ g y = M / R)
    ((measurableSet_eq_fun hw measurable_const).union (measurableSet_eq_fun hg.1 measurable_const)) h1
  filter_upwards [h2] with y hy h
  exact hy.resolve_left h

/-- The chances to be in a set tend to its share of the target, in mean square. -/
theorem chanceIn_tends (hD : Measurable D) (hsym : P.map (fun ω => - D ω) = P.map D) (hac : P.map D ≪ volume)
    (hca : volume ≪ P.map D) (hw : Measurable w) (hn : ∀ x, 0 ≤ w x) (h0 : targetM w ≠ 0) [IsFiniteMeasure (targetM w)]
    {ψ : (Fin n → ℝ) → ℝ} (hA : Unit01 ψ) :
    Tendsto (fun k => ∫ x, (chanceIn P D w ψ k x - (∫ y, ψ y ∂targetM w) / (targetM w).real Set.univ) ^ 2 ∂targetM w)
      atTop (𝓝 0) := by
  set μ := targetM w with hμ
  have hU0 : 0 < μ.real Set.univ := by
    rw [Measure.real, ENNReal.toReal_pos_iff]
    exact ⟨by rw [pos_iff_ne_zero, ne_eq, Measure.measure_univ_eq_zero]; exact h0, measure_lt_top _ _⟩
  have hu := chanceIn_unit (P := P) hD hw hn hA
  obtain ⟨L, hL⟩ := chanceIn_limit hw hD hsym hn hA (P := P)
  obtain ⟨ns, g, hns, hg, hae⟩ := chanceIn_cluster hw hD hsym hn hA (P := P)
  have hae' := (target_ae hw hn).1 hae
  have hdom : ∀ {φs : ℕ → (Fin n → ℝ) → ℝ} {φ : (Fin n → ℝ) → ℝ}, (∀ i, Measurable (φs i)) → (∀ i x, |φs i x| ≤ 1) →
      (∀ᵐ x ∂μ, Tendsto (fun i => φs i x) atTop (𝓝 (φ x))) →
      Tendsto (fun i => ∫ x, φs i x ∂μ) atTop (𝓝 (∫ x, φ x ∂μ)) := fun h1 h2 h3 =>
    tendsto_integral_of_dominated_convergence (fun _ => 1) (fun i => (h1 i).aestronglyMeasurable) (integrable_const _)
      (fun i => Eventually.of_forall fun x => by simpa using h2 i x) h3
  -- the limit has no spread
  have hs1 := hdom (fun i => scatter_measurable hD hw hn (hu (ns i)) (P := P))
    (fun i x => by rw [abs_of_nonneg (scatter_nonneg hD hw hn (hu _) x)]; exact scatter_le hD hw hn (hu _) x)
    (Eventually.of_forall fun x => scatter_point hD hw hn hac (fun i => hu (ns i)) hae' x)
  have hs0 : ∫ x, scatter P D w g x ∂μ = 0 :=
    tendsto_nhds_unique hs1 ((scatter_tends hw hD hsym hn hA (P := P)).comp hns.tendsto_atTop)
  rw [integral_eq_zero_iff_of_nonneg (fun x => scatter_nonneg hD hw hn hg x)
    (bdd_integrable (scatter_measurable hD hw hn hg) fun x => by
      rw [abs_of_nonneg (scatter_nonneg hD hw hn hg x)]; exact scatter_le hD hw hn hg x)] at hs0
  have : (ae μ).NeBot := ae_neBot.2 h0
  obtain ⟨x, hx⟩ := hs0.exists
  obtain ⟨c, hc⟩ := scatter_zero hD hw hn hca h0 hg hx
  -- the constant
  have hae2 : ∀ᵐ x ∂μ, Tendsto (fun i => chanceIn P D w ψ (ns i) x) atTop (𝓝 c) := by
    filter_upwards [hae, hc] with x h1 h2
    rwa [← h2]
  have habs : ∀ {φ : (Fin n → ℝ) → ℝ}, Unit01 φ → ∀ x, |φ x| ≤ 1 := fun h x => by
    rw [abs_of_nonneg (h.2 x).1]; exact (h.2 x).2
  have hm1 := hdom (fun i => (hu (ns i)).1) (fun i => habs (hu (ns i))) hae2
  simp only [hμ, chanceIn_mean hw hD hsym hn hA] at hm1
  have hcA : ∫ y, ψ y ∂targetM w = c * μ.real Set.univ := by
    have := tendsto_nhds_unique hm1 tendsto_const_nhds
    rw [integral_const, smul_eq_mul, mul_comm] at this
    exact this.symm
  have hm2 := hdom (fun i => (hu (ns i)).sq.1) (fun i => habs (hu (ns i)).sq) (φ := fun _ => c ^ 2) (by
    filter_upwards [hae2] with x h
    exact h.pow 2)
  rw [integral_const, smul_eq_mul, mul_comm] at hm2
  have hLc : L = c ^ 2 * μ.real Set.univ := tendsto_nhds_unique (hL.comp hns.tendsto_atTop) hm2
  have hshare : (∫ y, ψ y ∂μ) / μ.real Set.univ = c := by rw [hcA, mul_div_cancel_right₀ _ hU0.ne']
  have he : ∀ k, ∫ x, (chanceIn P D w ψ k x - (∫ y, ψ y ∂μ) / μ.real Set.univ) ^ 2 ∂μ =
      ∫ x, chanceIn P D w ψ k x ^ 2 ∂μ - c ^ 2 * μ.real Set.univ := by
    intro k
    rw [hshare]
    have e : ∀ x, (chanceIn P D w ψ k x - c) ^ 2 = chanceIn P D w ψ k x ^ 2 - 2 * c * chanceIn P D w ψ k x + c ^ 2 :=
      fun x => by ring
    simp only [e]
    have i1 : Integrable (fun x => chanceIn P D w ψ k x ^ 2) μ := unit_integrable (hu k).sq
    have i2 : Integrable (fun x => 2 * c * chanceIn P D w ψ k x) μ := (unit_integrable (hu k)).const_mul _
    have i3 : Integrable (fun x => chanceIn P D w ψ k x ^ 2 - 2 * c * chanceIn P D w ψ k x) μ := i1.sub i2
    rw [integral_add i3 (integrable_const _), integral_sub i1 i2, integral_const_mul, hμ,
      chanceIn_mean hw hD hsym hn hA, hcA, integral_const, smul_eq_mul]
    ring
  simp only [he]
  have := hL.sub_const (c ^ 2 * μ.real Set.univ)
  rwa [hLc, sub_self] at this

end Probayes
