/-
C90: the rule of Hastings does not correct functions that are not symmetric, and Gaussian
functions keep their target.
-/
import Verif.Props.DeltaFn
import Mathlib.Probability.Distributions.Gaussian.Real

namespace Probayes

open MeasureTheory

/-- Uniform numbers between 0 and 1. -/
noncomputable def upLaw : Measure ℝ := volume.restrict (Set.Ico 0 1)

instance : IsProbabilityMeasure upLaw := ⟨by simp [upLaw]⟩

theorem up_map : upLaw.map (fun u => fun _ : Fin 1 => u) =
    volume.withDensity fun δ : Fin 1 → ℝ => ENNReal.ofReal (unitBlock δ) := by
  rw [unitBlock_eq, withDensity_indicator_one (block_measurable 0 1)]
  have hmp : MeasurePreserving (fun u : ℝ => fun _ : Fin 1 => u) volume volume :=
    (volume_preserving_funUnique (Fin 1) ℝ).symm
  have := hmp.restrict_preimage (block_measurable 0 1)
  rw [upLaw, ← this.map_eq]
  congr 1

theorem up_stays {pair : Bool} {l : OPQR (Row (Fin 1 → ℝ))} {s : Fin 1 → ℝ} (hl : Spec.At unitBlock l s)
    (hs0 : 0 ≤ s 0) (hs1 : s 0 < 1) :
    Spec.arrives upLaw (Spec.mover (fun _ => ⟨.tuple (0 : ℝ) (1 : ℝ), none⟩) false
      (fun u : ℝ => .ok (.delta fun _ : Fin 1 => u)) unitBlock (fun x y => unitBlock (y - x)) pair true
      (fun _ => 0) (.flt 1)) 1 l {x | x 0 < 1/2} = if s 0 < 1/2 then 1/2 else 0 := by
  classical
  set R := Spec.mover (fun _ => ⟨.tuple (0 : ℝ) (1 : ℝ), none⟩) false
      (fun u : ℝ => .ok (.delta fun _ : Fin 1 => u)) unitBlock (fun x y => unitBlock (y - x)) pair true
      (fun _ => 0) (.flt 1) with hR
  have hws : unitBlock s = 1 := if_pos ⟨hs0, hs1⟩
  have hin : ∀ u ∈ Set.Ico (0 : ℝ) 1, Spec.mean (fun t =>
      Spec.arrives upLaw R 0 ((nextCore R (some l) ⟨u, t⟩ ()).2.1.getD l) {x | x 0 < 1/2}) =
      (Set.Ico 0 (1/2 - s 0) ∪ if s 0 < 1/2 then Set.Ico (1 - s 0) 1 else ∅).indicator 1 u := by
    intro u hu
    set y : Fin 1 → ℝ := Spec.displaced (fun _ => ⟨.tuple (0 : ℝ) (1 : ℝ), none⟩) s (fun _ => u) with hy
    have hy0 : y 0 = s 0 + u := by simp [hy, Spec.displaced, UFun.inv, UFun.fwd]
    have hq : unitBlock (y - s) = 1 := by
      refine if_pos ?_
      simp only [Pi.sub_apply, hy0, add_sub_cancel_left]
      exact hu
    have hstep : ∀ t, Spec.arrives upLaw R 0 ((nextCore R (some l) ⟨u, t⟩ ()).2.1.getD l) {x | x 0 < 1/2} =
        if t ≤ Spec.ratio 1 (unitBlock y) then (if y 0 < 1/2 then 1 else 0) else if s 0 < 1/2 then 1 else 0 := by
      intro t
      obtain ⟨l', smp, h1, h2, h3⟩ := C90_step (fun _ => ⟨.tuple (0 : ℝ) (1 : ℝ), none⟩)
        (fun u : ℝ => .ok (.delta fun _ : Fin 1 => u)) unitBlock unitBlock (fun x y => unitBlock (y - x)) pair true
        (fun _ => 0) (.flt 1) unitBlock_stored l s (fun _ => u) ⟨u, t⟩ hl (fun _ => rfl) rfl (by
          intro _
          refine ⟨fun _ => ⟨.lin 1, by simp [evalPscale], one_pos, trivial, ?_⟩, fun _ => ⟨by simp [evalPscale], ?_, ?_, ?_⟩⟩
          · simp only [Spec.value]
            rw [← hy, hq]; norm_num
          · rw [hws]
            unfold npz
            norm_num
          · change 0 < unitBlock (y - s)
            rw [hq]; norm_num
          · change npz ≤ unitBlock s * unitBlock (y - s)
            rw [hq, hws]
            unfold npz
            norm_num)
      rw [h1, ← hy] at *
      rw [hws] at h2 h3
      simp only [Option.getD_some]
      by_cases ht : t ≤ Spec.ratio 1 (unitBlock y)
      · rw [if_pos ht]
        obtain ⟨ha, -⟩ := h2 ht
        simp [Spec.arrives, ha.1]
      · rw [if_neg ht, (h3 ht).1]
        simp [Spec.arrives, hl.1]
    simp only [hstep]
    obtain ⟨r0, r1⟩ := ratio_bounds 1 (unitBlock y) (by unfold unitBlock; split <;> norm_num)
    rw [mean_le _ _ _ r0 r1, hy0]
    have hnpz : npz ≤ 1 := by unfold npz; norm_num
    obtain ⟨hu0, hu1⟩ := hu
    by_cases h1 : s 0 + u < 1
    · have hwy : unitBlock y = 1 := if_pos ⟨by rw [hy0]; linarith, by rw [hy0]; exact h1⟩
      have hr : Spec.ratio 1 (unitBlock y) = 1 := by rw [hwy]; simp [Spec.ratio, max_eq_right hnpz]
      rw [hr]
      by_cases h2 : s 0 + u < 1/2
      · rw [if_pos h2, Set.indicator_of_mem (Set.mem_union_left _ (show u ∈ Set.Ico 0 (1/2 - s 0) from ⟨hu0, by linarith⟩))]
        simp
      · rw [if_neg h2, Set.indicator_of_notMem]
        · simp
        · rintro (⟨_, h⟩ | h)
          · linarith
          · split at h
            · exact absurd h.1 (by simp only [not_le]; linarith)
            · exact h
    · have hwy : unitBlock y = 0 := if_neg fun h => h1 (by rw [← hy0]; exact h.2)
      have hr : Spec.ratio 1 (unitBlock y) = 0 := by rw [hwy]; simp [Spec.ratio]
      rw [hr]
      by_cases h3 : s 0 < 1/2
      · rw [if_pos h3, if_pos h3, Set.indicator_of_mem (Set.mem_union_right _ (show u ∈ Set.Ico (1 - s 0) 1 from ⟨by linarith, hu1⟩))]
        simp
      · rw [if_neg h3, if_neg h3, Set.indicator_of_notMem]
        · simp
        · rintro (⟨_, h⟩ | h)
          · linarith
          · exact h
  have hE : Spec.arrives upLaw R 1 l {x | x 0 < 1/2} =
      ∫⁻ u in Set.Ico 0 1, (Set.Ico 0 (1/2 - s 0) ∪ if s 0 < 1/2 then Set.Ico (1 - s 0) 1 else ∅).indicator 1 u := by
    rw [show Spec.arrives upLaw R 1 l {x | x 0 < 1/2} = ∫⁻ u, Spec.mean (fun t =>
      Spec.arrives upLaw R 0 ((nextCore R (some l) ⟨u, t⟩ ()).2.1.getD l) {x | x 0 < 1/2}) ∂upLaw from rfl]
    exact setLIntegral_congr_fun measurableSet_Ico hin
  rw [hE]
  by_cases h : s 0 < 1/2
  · rw [if_pos h, if_pos h, lintegral_indicator_one (measurableSet_Ico.union measurableSet_Ico),
      Measure.restrict_apply (measurableSet_Ico.union measurableSet_Ico),
      Set.inter_eq_left.mpr (Set.union_subset (Set.Ico_subset_Ico le_rfl (by linarith))
        (Set.Ico_subset_Ico (by linarith) le_rfl)),
      measure_union (by
        rw [Set.disjoint_left]
        rintro u ⟨_, h1⟩ ⟨h2, _⟩
        linarith) measurableSet_Ico, Real.volume_Ico, Real.volume_Ico,
      ← ENNReal.ofReal_add (by linarith) (by linarith)]
    rw [show 1/2 - s 0 - 0 + (1 - (1 - s 0)) = (1/2 : ℝ) by ring, ENNReal.ofReal_div_of_pos two_pos]
    simp
  · rw [if_neg h, if_neg h, Set.union_empty, Set.Ico_eq_empty (a := (0 : ℝ)) (b := 1/2 - s 0) (by linarith), Set.indicator_empty]
    simp

/-- C90 fails: a function that only goes up empties the lower half of its target, although its
density is stated. -/
theorem C90_claim_fails (pair : Bool) : ¬ C90_claim pair := by
  classical
  intro H
  have hk := H 1 ℝ inferInstance upLaw inferInstance (fun _ => ⟨.tuple (0 : ℝ) (1 : ℝ), none⟩)
    (fun u : ℝ => .ok (.delta fun _ : Fin 1 => u)) (fun u _ => u) unitBlock unitBlock unitBlock (fun _ => 0) (.flt 1)
    (fun _ => rfl) (fun _ => rfl) (measurable_pi_iff.mpr fun _ => measurable_id) unitBlock_measurable
    unitBlock_normal up_map (by simp [evalPscale]) unitBlock_stored unitBlock_measurable
    (by rw [unitBlock_eq, lintegral_indicator_one (block_measurable 0 1), block_volume]; simp)
    (fun x => ⟨none, some ⟨x, .scalar (unitBlock x)⟩, some ⟨x, .scalar 0⟩, none⟩) (fun x => ⟨rfl, _, rfl⟩) 1
    {x | x 0 < 1/2} (measurableSet_lt (measurable_pi_apply 0) measurable_const)
  have hL : ∀ s : Fin 1 → ℝ, ENNReal.ofReal (unitBlock (id s)) *
      Spec.arrives upLaw (Spec.mover (fun _ => ⟨.tuple (0 : ℝ) (1 : ℝ), none⟩) false
        (fun u : ℝ => .ok (.delta fun _ : Fin 1 => u)) unitBlock (fun x y => unitBlock (y - x)) pair true
        (fun _ => 0) (.flt 1)) 1 ⟨none, some ⟨id s, .scalar (unitBlock (id s))⟩, some ⟨id s, .scalar 0⟩, none⟩
          {x | x 0 < 1/2} =
      ({s : Fin 1 → ℝ | 0 ≤ s 0 ∧ s 0 < 1/2}).indicator (fun _ => 1/2) s := by
    intro s
    by_cases h : 0 ≤ s 0 ∧ s 0 < 1
    · rw [up_stays (pair := pair) (s := s) ⟨rfl, _, rfl⟩ h.1 h.2]
      have hb : unitBlock (id s) = 1 := if_pos h
      rw [hb]
      by_cases h2 : s 0 < 1/2
      · rw [if_pos h2, Set.indicator_of_mem (s := {s : Fin 1 → ℝ | 0 ≤ s 0 ∧ s 0 < 1/2}) ⟨h.1, h2⟩]
        simp
      · rw [if_neg h2, Set.indicator_of_notMem (s := {s : Fin 1 → ℝ | 0 ≤ s 0 ∧ s 0 < 1/2}) (fun h => h2 h.2), mul_zero]
    · have hb : unitBlock (id s) = 0 := if_neg h
      rw [hb, Set.indicator_of_notMem (s := {s : Fin 1 → ℝ | 0 ≤ s 0 ∧ s 0 < 1/2})
        (fun h' => h ⟨h'.1, by have := h'.2; linarith⟩)]
      simp
  simp only [hL] at hk
  rw [lintegral_indicator_const (block_measurable 0 (1/2)), block_volume] at hk
  have hR : ∫⁻ s in {s : Fin 1 → ℝ | id s ∈ {x : Fin 1 → ℝ | x 0 < 1/2}}, ENNReal.ofReal (unitBlock (id s)) =
      ENNReal.ofReal (1/2) := by
    have hm : MeasurableSet {s : Fin 1 → ℝ | id s ∈ {x : Fin 1 → ℝ | x 0 < 1/2}} :=
      measurableSet_lt (measurable_pi_apply 0) measurable_const
    have := unitBlock_eq
    rw [show (fun s : Fin 1 → ℝ => ENNReal.ofReal (unitBlock (id s))) = _ from this,
      lintegral_indicator_one (block_measurable 0 1), Measure.restrict_apply (block_measurable 0 1)]
    rw [show {s : Fin 1 → ℝ | 0 ≤ s 0 ∧ s 0 < 1} ∩ {s : Fin 1 → ℝ | id s ∈ {x : Fin 1 → ℝ | x 0 < 1/2}} =
      {s | 0 ≤ s 0 ∧ s 0 < 1/2} by
        ext s
        simp only [Set.mem_inter_iff, Set.mem_setOf_eq, id]
        constructor
        · rintro ⟨⟨a, b⟩, c⟩; exact ⟨a, c⟩
        · rintro ⟨a, c⟩; exact ⟨⟨a, by linarith⟩, c⟩, block_volume]
    norm_num
  rw [hR] at hk
  have h2 : ENNReal.ofReal (1/2 - 0) = 2⁻¹ := by
    rw [sub_zero, one_div, ENNReal.ofReal_inv_of_pos two_pos]; simp
  have h3 : ENNReal.ofReal (1/2) = 2⁻¹ := by
    rw [one_div, ENNReal.ofReal_inv_of_pos two_pos]; simp
  rw [h2, h3] at hk
  have := congrArg ENNReal.toReal hk
  simp at this

/-! ### Gaussian functions -/

/-- Independent standard normal numbers. -/
noncomputable def normals (n : ℕ) : Measure (Fin n → ℝ) := Measure.pi fun _ => ProbabilityTheory.gaussianReal 0 1

instance (n : ℕ) : IsProbabilityMeasure (normals n) := by unfold normals; infer_instance

theorem normals_sym (n : ℕ) : (normals n).map (fun δ => - id δ) = (normals n).map id := by
  have h : ∀ i : Fin n, MeasurePreserving (fun x : ℝ => -x) (ProbabilityTheory.gaussianReal 0 1)
      (ProbabilityTheory.gaussianReal 0 1) := by
    intro i
    refine ⟨measurable_neg, ?_⟩
    rw [ProbabilityTheory.gaussianReal_map_neg, neg_zero]
  have := measurePreserving_pi (fun _ : Fin n => ProbabilityTheory.gaussianReal 0 1)
    (fun _ : Fin n => ProbabilityTheory.gaussianReal 0 1) h
  rw [Measure.map_id]
  exact this.map_eq

/-- C90: steps of independent standard normal numbers keep every target, as in
examples/mcmc/mcmc_prob4a.py, whatever positive density is stated. -/
theorem C90_normal {n : ℕ} {cs : Fin n → Spec.Axis} (hcs : ∀ i, (cs i).uf = none) {prob w : (Fin n → ℝ) → ℝ}
    (hst : Spec.Stored prob (.flt 1) w) (hw : Measurable w) {q : (Fin n → ℝ) → (Fin n → ℝ) → ℝ}
    (hq : ∀ x y, 0 < q x y) (hastings : Bool) (start : Fin n → ℝ) :
    Spec.KeepsWeight (normals n) (Spec.mover cs false (fun δ => .ok (.delta δ)) prob q false hastings start (.flt 1))
      prob w id := by
  have hun : Spec.untransformed cs = id := by
    funext s i
    simp [Spec.untransformed, hcs i, UFun.inv]
  have := C90_keeps_partial (P := normals n) (D := id) (cs := cs) (f := fun δ => .ok (.delta δ)) (q := q) (pair := false)
    (hastings := hastings) (start := start)
    (fun i => by rw [hcs i]; exact ⟨fun _ => rfl, measurable_id⟩) (fun _ => rfl) measurable_id (normals_sym n) hst hw
    (fun x ω _ => ⟨fun _ => ⟨.lin 1, by simp [evalPscale], one_pos, trivial, by simpa [Spec.value] using hq _ _⟩,
      fun h => by simp at h⟩)
  rwa [hun] at this

theorem normals_open (n : ℕ) (U : Set (Fin n → ℝ)) (hU : IsOpen U) (hne : U.Nonempty) : 0 < normals n (id ⁻¹' U) := by
  have : (ProbabilityTheory.gaussianReal 0 1).IsOpenPosMeasure :=
    (ProbabilityTheory.gaussianReal_absolutelyContinuous' 0 one_ne_zero).isOpenPosMeasure
  have : (normals n).IsOpenPosMeasure := by unfold normals; infer_instance
  exact hU.measure_pos (normals n) hne

/-- Non-vacuity of `C90_normal`: two variables, by the rule of Hastings. -/
example : Spec.KeepsWeight (normals 2) (Spec.mover (fun _ => ⟨.tuple (-1 : ℝ) (1 : ℝ), none⟩) false
    (fun δ => .ok (.delta δ)) (fun x => 2 * (1 + x 0 ^ 2 + x 1 ^ 2))
    (fun x y => Real.exp (-(y 0 - x 0)^2 - (y 1 - x 1)^2)) false true (fun _ => 0) (.flt 1))
    (fun x => 2 * (1 + x 0 ^ 2 + x 1 ^ 2)) (fun x => 2 * (1 + x 0 ^ 2 + x 1 ^ 2)) id := by
  refine C90_normal (fun _ => rfl) ⟨⟨.lin 1, by simp [evalPscale], one_pos, fun _ => trivial,
    fun _ => by simp [Spec.value]⟩, fun x => ?_⟩ bowl_measurable (fun _ _ => Real.exp_pos _) true _
  positivity

/-- A positive variable, moved by its logarithm. -/
noncomputable def positive : Spec.Axis := ⟨.tuple (0 : ℝ) (10 : ℝ), some (Real.log, Real.exp)⟩

/-- Non-vacuity of `C90_keeps_partial` and `C90_reached`: a transformed variable, with a pair of
transition functions that are not those of the moves. -/
example : Spec.KeepsWeight (normals 1) (Spec.mover (fun _ => positive) false
    (fun δ => .ok (.delta δ)) (fun x => 1 + x 0 ^ 2) (fun x _ => 1 + x 0 ^ 2) true true (fun _ => 0) (.flt 1))
      (fun x => 1 + x 0 ^ 2) (fun x => 1 + x 0 ^ 2) (Spec.untransformed fun _ => positive) ∧
    ∀ k, 0 < Spec.arrives (normals 1) (Spec.mover (fun _ => positive) false
    (fun δ => .ok (.delta δ)) (fun x => 1 + x 0 ^ 2) (fun x _ => 1 + x 0 ^ 2) true true (fun _ => 0) (.flt 1))
      (k + 1) ⟨none, some ⟨fun _ => 1, .scalar 2⟩, some ⟨fun _ => 1, .scalar 2⟩, none⟩ {x | 5 < x 0} := by
  have h1 : npz ≤ 1 := by unfold npz; norm_num
  have hst : Spec.Stored (fun x : Fin 1 → ℝ => 1 + x 0 ^ 2) (.flt 1) (fun x => 1 + x 0 ^ 2) :=
    ⟨⟨.lin 1, by simp [evalPscale], one_pos, fun _ => trivial, fun _ => by simp [Spec.value]⟩,
      fun x => by positivity⟩
  have hcs : Spec.Invertible fun _ : Fin 1 => positive :=
    fun _ => ⟨fun s => Real.log_exp s, Real.measurable_exp⟩
  have hj : ∀ x ω, Spec.Judgeable true true (.flt 1) (fun x : Fin 1 → ℝ => 1 + x 0 ^ 2) (fun x _ => 1 + x 0 ^ 2) x
      (Spec.displaced (fun _ : Fin 1 => positive) x (id ω)) :=
    fun x ω _ => ⟨fun h => by simp at h, fun _ => ⟨by simp [evalPscale], by nlinarith [sq_nonneg (x 0)], by positivity,
      by nlinarith [sq_nonneg (x 0), sq_nonneg (x 0 ^ 2)]⟩⟩
  have hm : Measurable fun x : Fin 1 → ℝ => 1 + x 0 ^ 2 := measurable_const.add ((measurable_pi_apply 0).pow_const 2)
  refine ⟨C90_keeps_partial hcs (fun _ => rfl) measurable_id (normals_sym 1) hst hm hj, fun k =>
    C90_reached hcs (D := id) (fun _ => rfl) measurable_id (normals_open 1) hst hm hj _ ?_ ⟨fun _ => 10, ?_⟩
      (fun x _ => by positivity) _ (fun _ => 0) ?_ k⟩
  · have : Continuous fun s : Fin 1 → ℝ => Real.exp (s 0) := Real.continuous_exp.comp (continuous_apply 0)
    exact this.isOpen_preimage _ (isOpen_Ioi (a := (5 : ℝ)))
  · have := Real.add_one_le_exp (10 : ℝ)
    change 5 < Real.exp 10
    linarith
  · have h : (Spec.untransformed (fun _ : Fin 1 => positive) fun _ => 0) = fun _ => 1 := by
      funext i
      exact Real.exp_zero
    rw [h]
    exact ⟨by norm_num, _, rfl⟩

/-- Non-vacuity of `C90_unstated`: a move of stated density 0 to where the target is zero. -/
example : ∃ l' smp, nextCore (Spec.mover (fun _ => ⟨.tuple (0 : ℝ) (1 : ℝ), none⟩) false
    (fun u : ℝ => .ok (.delta fun _ : Fin 1 => u)) unitBlock (fun _ _ => 0) false true (fun _ => 0) (.flt 1))
    (some ⟨none, some ⟨fun _ => 1/2, .scalar (unitBlock fun _ => 1/2)⟩, some ⟨fun _ => 1/2, .scalar 1⟩, none⟩)
    ⟨3, 1/2⟩ () = ((), some l', .ok (.sample smp)) ∧ Spec.At unitBlock l' (fun _ => 7/2) ∧
    unitBlock (fun _ => 7/2) = 0 := by
  obtain ⟨l', smp, h1, h2, -⟩ := C90_unstated (fun _ : Fin 1 => ⟨.tuple (0 : ℝ) (1 : ℝ), none⟩)
    (fun u : ℝ => .ok (.delta fun _ : Fin 1 => u)) unitBlock (fun _ _ => 0) false (fun _ => 0) (.flt 1) (.lin 1)
    (by simp [evalPscale]) one_pos
    ⟨none, some ⟨fun _ => 1/2, .scalar (unitBlock fun _ => 1/2)⟩, some ⟨fun _ => 1/2, .scalar 1⟩, none⟩
    (fun _ => 1/2) (fun _ => 3) ⟨3, 1/2⟩ ⟨rfl, _, rfl⟩ (fun _ => rfl) rfl trivial (by simp [Spec.value])
  refine ⟨l', smp, h1, ?_, if_neg (by norm_num)⟩
  have : Spec.displaced (fun _ : Fin 1 => ⟨.tuple (0 : ℝ) (1 : ℝ), none⟩) (fun _ => 1/2) (fun _ => 3) = fun _ => 7/2 := by
    funext i
    simp only [Spec.displaced, UFun.inv, UFun.fwd]
    norm_num
  rwa [this] at h2

end Probayes
