/-
Property C89 on examples: the summary of the samples accepted, and the estimate of the area
of a circle in /repo/examples/omc/omc_rejection_sp_circle.py.
-/
import Verif.Props.RejectLaw
import Mathlib.MeasureTheory.Measure.Lebesgue.VolumeOfBalls
import Mathlib.MeasureTheory.Measure.Haar.InnerProductSpace
import Mathlib.Analysis.InnerProductSpace.PiL2

namespace Probayes

open MeasureTheory

/-- C89: calling the process with the samples of a sampler collects exactly those accepted:
as many probabilities as the tally counts, or none at all if none was accepted. -/
theorem C89_summary {n : ℕ} (vars : Fin n → CRV) (a b : Fin n → ℝ) (G : Fin n → ℝ → ℝ)
    (h : Spec.Drawing vars a b G) (f g : Dict Str ℝ → ℝ) (low high : ℝ) (S : SPState Unit Spot)
    (stop : Option ℤ) (m : ℕ) (hm : ∀ n, stop = some n → (m : ℤ) ≤ n) (ω : ℕ → RDraw n) :
    ∃ xs : List (Sample Spot),
      (drain (rejectProc vars f g low high) S.made ω m (mkSampler S stop)).2.1 = xs.map .sample ∧
      xs.length = m ∧ (((collect true xs).p).getD []).length = Spec.tally Set.univ (xs.map .sample) ∧
      ∀ d ∈ ((collect true xs).p).getD [], ∃ k < m, d = ⟨Spec.byName vars (Spec.drawnAt a b G (ω k).u),
        f (Spec.byName vars (Spec.drawnAt a b G (ω k).u))⟩ ∧ low + (high - low) * (ω k).t ≤ d.prob := by
  classical
  refine ⟨(List.range m).map fun k => Spec.rejectSample vars a b G f g low high (k = 0) (ω k), ?_, by simp, ?_, ?_⟩
  · rw [C89_run vars a b G h f g low high S stop m hm, List.map_map]
    rfl
  · rw [(C39_collect true _).2.1]
    have hall : ∀ ks : List ℕ, (((ks.map fun k => Spec.rejectSample vars a b G f g low high (k = 0) (ω k)).filter
        fun x => x.u ≠ some false).filterMap (·.p)).length = Spec.tally Set.univ
        ((ks.map fun k => Spec.rejectSample vars a b G f g low high (k = 0) (ω k)).map .sample) := by
      intro ks
      induction ks with
      | nil => rfl
      | cons k ks ih =>
        simp only [List.map_cons] at ih ⊢
        unfold Spec.tally at ih ⊢
        rw [List.countP_cons, ← ih]
        by_cases hc : low + (high - low) * (ω k).t ≤ f (Spec.byName vars (Spec.drawnAt a b G (ω k).u))
        · rw [if_pos ((@decide_eq_true_iff _ _).mpr ⟨_, _, rfl, by simpa [Spec.rejectSample] using hc, rfl,
            Set.mem_univ _⟩)]
          rw [List.filter_cons_of_pos (by simp [Spec.rejectSample, hc])]
          simp [Spec.rejectSample]
        · rw [if_neg, List.filter_cons_of_neg (by simpa [Spec.rejectSample] using hc)]
          · simp
          · intro hd
            obtain ⟨s, d, h1, h2, -⟩ := (@decide_eq_true_iff _ _).mp hd
            obtain rfl := Out.sample.inj h1
            exact hc (by simpa [Spec.rejectSample] using h2)
    rw [← hall]
    unfold Spec.collected
    simp only
    split
    · rename_i he; rw [he]; rfl
    · rfl
  · intro d hd
    rw [(C39_collect true _).2.1] at hd
    unfold Spec.collected at hd
    simp only at hd
    have hd' : d ∈ (((List.range m).map fun k => Spec.rejectSample vars a b G f g low high (k = 0) (ω k)).filter
        fun x => x.u ≠ some false).filterMap (·.p) := by
      split at hd
      · simp at hd
      · simpa using hd
    obtain ⟨x, hx, hxp⟩ := List.mem_filterMap.mp hd'
    obtain ⟨hx1, hx2⟩ := List.mem_filter.mp hx
    obtain ⟨k, hk, rfl⟩ := List.mem_map.mp hx1
    obtain rfl := Option.some.inj hxp
    exact ⟨k, List.mem_range.mp hk, rfl, by simpa [Spec.rejectSample] using hx2⟩

/-- A variable between `-r` and `r`, as the example makes it. -/
noncomputable def circleVar (name : Char) (r : ℝ) : CRV :=
  { name := [name], var := FloatVar.make (.list ⟨((-r : ℝ) : EReal), false⟩ ⟨(r : EReal), false⟩)
    ufun := none, pscale := .flt 1
    prob := .scalar (1 / (2 * r)), pfun := none, tran := .none, tfun := none, delta := none }

/-- `x` and `y` of the example. -/
noncomputable def circleVars (r : ℝ) : Fin 2 → CRV := ![circleVar 'x' r, circleVar 'y' r]

open Classical in
/-- `inside` of the example: 1 inside the circle, 0 outside. -/
noncomputable def circleInside (r : ℝ) (d : Dict Str ℝ) : ℝ :=
  if ((d.get? ['x']).getD 0) ^ 2 + ((d.get? ['y']).getD 0) ^ 2 ≤ r ^ 2 then 1 else 0

theorem circle_draws (name : Char) (r : ℝ) (hr : 0 < r) : Spec.DrawsBy (circleVar name r) (-r) r id := by
  have hlt : ¬ (r : EReal) < ((-r : ℝ) : EReal) := by
    rw [EReal.coe_lt_coe_iff]; linarith
  have hmake : FloatVar.make (.list ⟨((-r : ℝ) : EReal), false⟩ ⟨(r : EReal), false⟩) =
      ⟨⟨((-r : ℝ) : EReal), false⟩, ⟨(r : EReal), false⟩, ((-r : ℝ) : EReal), (r : EReal)⟩ := if_neg hlt
  refine .limits _ _ ?_ ?_ rfl rfl <;> simp only [circleVar, hmake]

theorem circle_drawing (r : ℝ) (hr : 0 < r) :
    Spec.Drawing (circleVars r) (fun _ => -r) (fun _ => r) (fun _ => id) where
  some := by norm_num
  distinct := by
    intro i j hij
    fin_cases i <;> fin_cases j <;> simp [circleVars, circleVar] at hij ⊢
  plain := by
    intro i
    fin_cases i <;> simp [circleVars, circleVar, Spec.Plain]
  draws := by
    intro i
    fin_cases i
    · exact circle_draws 'x' r hr
    · exact circle_draws 'y' r hr

theorem circle_byName (r : ℝ) (y : Fin 2 → ℝ) :
    Spec.byName (circleVars r) y = [(['x'], y 0), (['y'], y 1)] := by
  simp [Spec.byName, List.ofFn_succ, circleVars, circleVar]

theorem circle_inside (r : ℝ) (y : Fin 2 → ℝ) [Decidable ((y 0) ^ 2 + (y 1) ^ 2 ≤ r ^ 2)] :
    circleInside r (Spec.byName (circleVars r) y) = if (y 0) ^ 2 + (y 1) ^ 2 ≤ r ^ 2 then 1 else 0 := by
  rw [circle_byName]
  simp [circleInside, Dict.get?]

theorem disc_volume (r : ℝ) (hr : 0 < r) :
    volume {y : Fin 2 → ℝ | (y 0) ^ 2 + (y 1) ^ 2 ≤ r ^ 2} = ENNReal.ofReal (Real.pi * r ^ 2) := by
  have hset : {y : Fin 2 → ℝ | (y 0) ^ 2 + (y 1) ^ 2 ≤ r ^ 2} =
      (WithLp.toLp 2 : (Fin 2 → ℝ) → EuclideanSpace ℝ (Fin 2)) ⁻¹' Metric.closedBall 0 r := by
    ext y
    simp only [Set.mem_setOf_eq, Set.mem_preimage, Metric.mem_closedBall, dist_zero_right,
      EuclideanSpace.norm_eq, Fin.sum_univ_two, Real.norm_eq_abs, sq_abs]
    rw [Real.sqrt_le_left hr.le]
  rw [hset, (PiLp.volume_preserving_toLp (Fin 2)).measure_preimage measurableSet_closedBall.nullMeasurableSet,
    EuclideanSpace.volume_closedBall_fin_two]
  rw [← ENNReal.ofReal_pow hr.le, ENNReal.ofReal_mul Real.pi_pos.le, mul_comm]

/-- C89 on the example: whatever the proposal function, with thresholds up to any
`0 < c ≤ 1`, almost surely the estimate `4 r² · accepted / steps` of the area converges to
`π r²`. -/
theorem C89_circle (r : ℝ) (hr : 0 < r) (g : Dict Str ℝ → ℝ) (c : ℝ) (hc : 0 < c) (hc1 : c ≤ 1)
    (S : SPState Unit Spot) :
    ∀ᵐ ω ∂Measure.infinitePi fun _ : ℕ => Spec.unitDraws 2,
      Filter.Tendsto (fun m : ℕ => 4 * r ^ 2 * ((Spec.tally Set.univ
        (drain (rejectProc (circleVars r) (circleInside r) g 0 c) S.made
          (fun k => ⟨(ω k).1, (ω k).2⟩) m (mkSampler S none)).2.1 : ℝ) / m)) Filter.atTop
      (nhds (Real.pi * r ^ 2)) := by
  classical
  have hin : ∀ y : Fin 2 → ℝ, circleInside r (Spec.byName (circleVars r) fun i => id (y i)) =
      {y : Fin 2 → ℝ | (y 0) ^ 2 + (y 1) ^ 2 ≤ r ^ 2}.indicator 1 y := by
    intro y
    have := circle_inside r y
    simp only [id] at this ⊢
    rw [this]
    simp [Set.indicator]
  have hdm : MeasurableSet {y : Fin 2 → ℝ | (y 0) ^ 2 + (y 1) ^ 2 ≤ r ^ 2} :=
    measurableSet_le (by fun_prop) measurable_const
  have h := C89_estimate (circleVars r) (fun _ => -r) (fun _ => r) (fun _ => id) (circle_drawing r hr)
    (fun _ => by linarith) (circleInside r) g c hc
    (by simp only [hin]; exact measurable_one.indicator hdm)
    (by intro y _; rw [hin]; exact Set.indicator_nonneg (fun _ _ => zero_le_one) _) Set.univ (by simp) S
  have hval : ((∫⁻ y in Spec.box (fun _ : Fin 2 => -r) (fun _ => r) ∩
        {y | Spec.byName (circleVars r) (fun i => id (y i)) ∈ Set.univ},
        ENNReal.ofReal (min (circleInside r (Spec.byName (circleVars r) fun i => id (y i))) c)) /
        (ENNReal.ofReal c * ENNReal.ofReal (∏ _i : Fin 2, (r - -r)))).toReal = Real.pi / 4 := by
    have hint : ∀ y : Fin 2 → ℝ, ENNReal.ofReal (min (circleInside r (Spec.byName (circleVars r)
        fun i => id (y i))) c) =
        {y : Fin 2 → ℝ | (y 0) ^ 2 + (y 1) ^ 2 ≤ r ^ 2}.indicator (fun _ => ENNReal.ofReal c) y := by
      intro y
      rw [hin]
      by_cases hy : y ∈ {y : Fin 2 → ℝ | (y 0) ^ 2 + (y 1) ^ 2 ≤ r ^ 2}
      · rw [Set.indicator_of_mem hy, Set.indicator_of_mem hy, Pi.one_apply, min_eq_right hc1]
      · rw [Set.indicator_of_notMem hy, Set.indicator_of_notMem hy, min_eq_left hc.le, ENNReal.ofReal_zero]
    simp only [hint, Set.mem_univ, Set.setOf_true, Set.inter_univ]
    rw [lintegral_indicator hdm, setLIntegral_const, Measure.restrict_apply hdm]
    have hae : volume ({y : Fin 2 → ℝ | (y 0) ^ 2 + (y 1) ^ 2 ≤ r ^ 2} ∩ Spec.box (fun _ => -r) fun _ => r) =
        volume {y : Fin 2 → ℝ | (y 0) ^ 2 + (y 1) ^ 2 ≤ r ^ 2} := by
      have hnull : volume ({y : Fin 2 → ℝ | (y 0) ^ 2 + (y 1) ^ 2 ≤ r ^ 2} \
          Spec.box (fun _ => -r) fun _ => r) = 0 := by
        refine measure_mono_null (t := {y : Fin 2 → ℝ | y 0 = r} ∪ {y | y 1 = r}) ?_ ?_
        · rintro y ⟨hy1, hy2⟩
          simp only [Set.mem_setOf_eq] at hy1
          have h0 : |y 0| ≤ r := abs_le_of_sq_le_sq (by nlinarith [sq_nonneg (y 1)]) hr.le
          have h1 : |y 1| ≤ r := abs_le_of_sq_le_sq (by nlinarith [sq_nonneg (y 0)]) hr.le
          rw [abs_le] at h0 h1
          by_contra hc
          simp only [Set.mem_union, Set.mem_setOf_eq, not_or] at hc
          refine hy2 fun i _ => ?_
          fin_cases i
          · exact ⟨h0.1, lt_of_le_of_ne h0.2 hc.1⟩
          · exact ⟨h1.1, lt_of_le_of_ne h1.2 hc.2⟩
        · rw [measure_union_null_iff]
          have hp : ∀ i : Fin 2, volume {y : Fin 2 → ℝ | y i = r} = 0 := fun i => by
            rw [volume_pi]
            exact Measure.pi_hyperplane (α := fun _ : Fin 2 => ℝ) (fun _ => volume) i r
          exact ⟨hp 0, hp 1⟩
      have := measure_inter_add_diff (μ := volume) {y : Fin 2 → ℝ | (y 0) ^ 2 + (y 1) ^ 2 ≤ r ^ 2}
        (box_measurable (fun _ : Fin 2 => -r) fun _ => r)
      rw [hnull, add_zero] at this
      exact this
    rw [hae, disc_volume r hr, ← ENNReal.ofReal_mul hc.le, ← ENNReal.ofReal_mul hc.le,
      ← ENNReal.ofReal_div_of_pos (by simp; positivity), ENNReal.toReal_ofReal (by simp; positivity)]
    simp only [Fin.prod_univ_two]
    field_simp
    ring
  simp only [hval] at h
  filter_upwards [h] with ω hω
  have := hω.const_mul (4 * r ^ 2)
  rwa [show 4 * r ^ 2 * (Real.pi / 4) = Real.pi * r ^ 2 by ring] at this

/-- The hypotheses of `C89_accepted` are met by the circle of radius 1 and thresholds up to
1: half of the samples accepted lie where `x < 0`. -/
example (g : Dict Str ℝ → ℝ) (last : Option (OPQR Spot)) :
    Spec.unitDraws 2 {ω | Spec.Admits (rejectProc (circleVars 1) (circleInside 1) g 0 1)
        {d | (d.get? ['x']).getD 0 < 0} last ω} /
      Spec.unitDraws 2 {ω | Spec.Admits (rejectProc (circleVars 1) (circleInside 1) g 0 1) Set.univ last ω} =
    (∫⁻ y in Spec.box (fun _ : Fin 2 => -1) (fun _ => 1) ∩ {y | y 0 < 0},
      ENNReal.ofReal (circleInside 1 (Spec.byName (circleVars 1) y))) /
    ∫⁻ y in Spec.box (fun _ : Fin 2 => -1) (fun _ => 1),
      ENNReal.ofReal (circleInside 1 (Spec.byName (circleVars 1) y)) := by
  classical
  have hin : ∀ y : Fin 2 → ℝ, circleInside 1 (Spec.byName (circleVars 1) y) =
      {y : Fin 2 → ℝ | (y 0) ^ 2 + (y 1) ^ 2 ≤ 1 ^ 2}.indicator 1 y := by
    intro y
    rw [circle_inside 1 y]
    simp [Set.indicator]
  have hdm : MeasurableSet {y : Fin 2 → ℝ | (y 0) ^ 2 + (y 1) ^ 2 ≤ 1 ^ 2} :=
    measurableSet_le (by fun_prop) measurable_const
  have hx : ∀ y : Fin 2 → ℝ, Spec.byName (circleVars 1) y ∈ {d : Dict Str ℝ | (d.get? ['x']).getD 0 < 0} ↔
      y 0 < 0 := by
    intro y
    rw [circle_byName]
    simp [Dict.get?]
  have h := C89_accepted (circleVars 1) (fun _ => -1) (fun _ => 1) (fun _ => id) (circle_drawing 1 one_pos)
    (fun _ => by norm_num) (circleInside 1) g 1 one_pos
    (by simp only [id, hin]; exact measurable_one.indicator hdm)
    (by
      intro y _
      simp only [id, hin]
      exact ⟨Set.indicator_nonneg (fun _ _ => zero_le_one) _,
        Set.indicator_le_self' (fun _ _ => zero_le_one) _ |>.trans (by simp)⟩)
    (by
      simp only [id, hin]
      intro h0
      have h1 : ∀ y : Fin 2 → ℝ, ENNReal.ofReal ({y : Fin 2 → ℝ | (y 0) ^ 2 + (y 1) ^ 2 ≤ 1 ^ 2}.indicator 1 y) =
          {y : Fin 2 → ℝ | (y 0) ^ 2 + (y 1) ^ 2 ≤ 1 ^ 2}.indicator 1 y := by
        intro y
        by_cases hy : y ∈ {y : Fin 2 → ℝ | (y 0) ^ 2 + (y 1) ^ 2 ≤ 1 ^ 2}
        · rw [Set.indicator_of_mem hy, Set.indicator_of_mem hy]; simp
        · rw [Set.indicator_of_notMem hy, Set.indicator_of_notMem hy]; simp
      simp only [h1] at h0
      rw [lintegral_indicator_one hdm, Measure.restrict_apply hdm] at h0
      have h2 : volume (Spec.box (fun _ : Fin 2 => (0 : ℝ)) fun _ => 1 / 2) = 0 := by
        refine measure_mono_null (fun y hy => ?_) h0
        have h3 := hy 0 trivial
        have h4 := hy 1 trivial
        simp only [Set.mem_Ico] at h3 h4
        refine ⟨show (y 0) ^ 2 + (y 1) ^ 2 ≤ 1 ^ 2 by nlinarith, fun i _ => ?_⟩
        fin_cases i
        · exact ⟨show -1 ≤ y 0 by linarith, show y 0 < 1 by linarith⟩
        · exact ⟨show -1 ≤ y 1 by linarith, show y 1 < 1 by linarith⟩
      rw [Spec.box, volume_pi_pi] at h2
      simp at h2)
    {d | (d.get? ['x']).getD 0 < 0}
    (by simp only [id, hx]; exact measurableSet_lt (by fun_prop) measurable_const) last
  simp only [id, hx] at h
  exact h

/-- Variables with transforms and cumulative functions draw in their own coordinates. -/
example : Spec.DrawsBy { circleVar 'x' 1 with
      var := FloatVar.make (.list ⟨((1 : ℝ) : EReal), false⟩ ⟨((8 : ℝ) : EReal), false⟩)
      ufun := some (Real.log, Real.exp) } (Real.log 1) (Real.log 8) Real.exp := by
  have hlt : ¬ ((8 : ℝ) : EReal) < ((1 : ℝ) : EReal) := by
    rw [EReal.coe_lt_coe_iff]; norm_num
  have hmake : FloatVar.make (.list ⟨((1 : ℝ) : EReal), false⟩ ⟨((8 : ℝ) : EReal), false⟩) =
      ⟨⟨((1 : ℝ) : EReal), false⟩, ⟨((8 : ℝ) : EReal), false⟩, ((1 : ℝ) : EReal), ((8 : ℝ) : EReal)⟩ := if_neg hlt
  refine .transform 1 8 _ _ ?_ ?_ rfl rfl <;> simp only [hmake]

end Probayes
