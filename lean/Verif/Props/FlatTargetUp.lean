/-
C110: the samplers of examples/mcmc/mcmc_prob3.py and mcmc_prob4b.py.
-/
import Verif.Props.FlatTarget
import Verif.Props.DeltaFnUp
import Mathlib.MeasureTheory.Integral.Pi

namespace Probayes

open MeasureTheory ProbabilityTheory

/-- The density of independent standard normal numbers. -/
noncomputable def Spec.standard {n : ℕ} (δ : Fin n → ℝ) : ℝ := ∏ i, gaussianPDFReal 0 1 (δ i)

theorem standard_continuous {n : ℕ} : Continuous (Spec.standard (n := n)) := by
  unfold Spec.standard gaussianPDFReal
  fun_prop

theorem standard_pos {n : ℕ} (δ : Fin n → ℝ) : 0 < Spec.standard δ :=
  Finset.prod_pos fun _ _ => gaussianPDFReal_pos _ _ _ one_ne_zero

theorem normals_density (n : ℕ) : (normals n).map id = volume.withDensity fun δ : Fin n → ℝ => ENNReal.ofReal (Spec.standard δ) := by
  rw [Measure.map_id]
  refine Measure.pi_eq fun s hs => ?_
  have hi : Integrable (fun δ : Fin n → ℝ => Spec.standard δ) :=
    Integrable.fintype_prod fun _ => integrable_gaussianPDFReal 0 1
  rw [withDensity_apply _ (MeasurableSet.univ_pi hs), ← ofReal_integral_eq_lintegral_ofReal hi.integrableOn
    (Filter.Eventually.of_forall fun δ => (standard_pos δ).le)]
  have h1 : ∫ δ in Set.univ.pi s, Spec.standard δ = ∏ i, ∫ x in s i, gaussianPDFReal 0 1 x := by
    rw [volume_pi, Measure.restrict_pi_pi]
    exact integral_fintype_prod_eq_prod (fun _ => gaussianPDFReal 0 1)
  rw [h1, ENNReal.ofReal_prod_of_nonneg fun i _ => integral_nonneg fun x => gaussianPDFReal_nonneg _ _ _]
  exact Finset.prod_congr rfl fun i _ => (gaussianReal_apply_eq_integral 0 one_ne_zero (s i)).symm

theorem standard_even {n : ℕ} (δ : Fin n → ℝ) : Spec.standard (-δ) = Spec.standard δ := by
  simp [Spec.standard, gaussianPDFReal]

theorem standard_low {n : ℕ} (a b : Fin n → ℝ) :
    ∃ ε : ℝ, 0 < ε ∧ ∀ x ∈ Set.Icc a b, ∀ y ∈ Set.Icc a b, ε ≤ Spec.standard (y - x) := by
  refine ⟨Spec.standard (b - a), standard_pos _, fun x hx y hy => ?_⟩
  refine Finset.prod_le_prod (fun i _ => gaussianPDFReal_nonneg _ _ _) fun i _ => ?_
  unfold gaussianPDFReal
  refine mul_le_mul_of_nonneg_left (Real.exp_le_exp.2 ?_) (by positivity)
  refine div_le_div_of_nonneg_right ?_ (by positivity)
  simp only [Pi.sub_apply, sub_zero]
  have h1 := hx.1 i
  have h2 := hx.2 i
  have h3 := hy.1 i
  have h4 := hy.2 i
  nlinarith

theorem box_finite {n : ℕ} (a b : Fin n → ℝ) : volume (Set.Icc a b) ≠ ⊤ := by
  rw [Real.volume_Icc_pi]
  exact ENNReal.prod_ne_top fun i _ => ENNReal.ofReal_ne_top

theorem box_volume {n : ℕ} (a b : Fin n → ℝ) (hab : ∀ i, a i < b i) : volume (Set.Icc a b) ≠ 0 := by
  rw [Real.volume_Icc_pi, Finset.prod_ne_zero_iff]
  intro i _
  exact (ENNReal.ofReal_pos.2 (by linarith [hab i])).ne'

/-- C110: standard normal steps on a target that is flat within limits, judged by either rule with any
stated density: from any start, the chance to be in any part tends to its portion of the volume. -/
theorem C110_box {n : ℕ} (a b : Fin n → ℝ) (hab : ∀ i, a i < b i) {c : ℝ} (hc : npz ≤ c)
    {q : (Fin n → ℝ) → (Fin n → ℝ) → ℝ} (hq : ∀ x y, 0 < q x y) {cs : Fin n → Spec.Axis} (hcs : ∀ i, (cs i).uf = none)
    (hastings : Bool) (start : Fin n → ℝ) {A : Set (Fin n → ℝ)} (hA : MeasurableSet A) (l : OPQR (Row (Fin n → ℝ)))
    (x : Fin n → ℝ) (hl : Spec.At (Spec.flat (Set.Icc a b) c) l x) :
    Filter.Tendsto (fun k => (Spec.arrives (normals n) (Spec.mover cs false (fun δ => .ok (.delta δ))
      (Spec.flat (Set.Icc a b) c) q false hastings start (.flt 1)) k l A).toReal) Filter.atTop
      (nhds (Spec.portionOf (Set.Icc a b) A)) := by
  obtain ⟨ε, hε, hlow⟩ := standard_low a b
  refine C110_tends hcs (fun _ => rfl) measurable_id standard_continuous.measurable (fun δ => (standard_pos δ).le) standard_even
    (normals_density n) measurableSet_Icc hA hc hq hastings start (box_finite a b) (box_volume a b hab) hε hlow l x hl ?_
  · have hU : IsOpen {δ : Fin n → ℝ | ∀ i, a i < x i + δ i ∧ x i + δ i < b i} := by
      simp only [Set.setOf_forall]
      refine isOpen_iInter_of_finite fun i => ?_
      exact (isOpen_lt continuous_const (continuous_const.add (continuous_apply i))).inter
        (isOpen_lt (continuous_const.add (continuous_apply i)) continuous_const)
    have h := normals_open n _ hU ⟨fun i => (a i + b i) / 2 - x i, fun i => by
      constructor <;> linarith [hab i]⟩
    refine (lt_of_lt_of_le h (measure_mono ?_)).ne'
    intro δ hδ
    exact ⟨fun i => (hδ i).1.le, fun i => (hδ i).2.le⟩

theorem portion_prob3 (v : ℝ) (hv : 3 ≤ v ∧ v ≤ 7) :
    Spec.portionOf (Set.Icc (fun _ : Fin 1 => (3 : ℝ)) fun _ => 7) {s | s 0 ≤ v} = (v - 3) / 4 := by
  have hint : {s : Fin 1 → ℝ | s 0 ≤ v} ∩ Set.Icc (fun _ => 3) (fun _ => 7) = Set.Icc (fun _ => 3) fun _ => v := by
    ext s
    simp only [Set.mem_inter_iff, Set.mem_setOf_eq, Set.mem_Icc, Pi.le_def, Fin.forall_fin_one]
    constructor
    · rintro ⟨h1, h2, -⟩
      exact ⟨h2, h1⟩
    · rintro ⟨h1, h2⟩
      exact ⟨h2, h1, h2.trans hv.2⟩
  rw [Spec.portionOf, hint]
  simp only [measureReal_def, Real.volume_Icc_pi, Fin.prod_univ_one]
  rw [ENNReal.toReal_ofReal (by linarith), ENNReal.toReal_ofReal (by norm_num)]
  norm_num
/-- C110: examples/mcmc/mcmc_prob3.py: the chance of a sample between 3 and `v` tends to that of the
uniform distribution from 3 to 7, wherever the sampler starts. -/
theorem C110_prob3 (hastings : Bool) (start : Fin 1 → ℝ) (l : OPQR (Row (Fin 1 → ℝ))) (x : Fin 1 → ℝ)
    (hl : Spec.At (Spec.flat (Set.Icc (fun _ => 3) fun _ => 7) (1 / 4)) l x) (v : ℝ) (hv : 3 ≤ v ∧ v ≤ 7) :
    Filter.Tendsto (fun k => (Spec.arrives (normals 1) (Spec.mover (fun _ => ⟨.tuple (-1 : ℝ) (1 : ℝ), none⟩) false
      (fun δ => .ok (.delta δ)) (Spec.flat (Set.Icc (fun _ => 3) fun _ => 7) (1 / 4))
      (fun x y => gaussianPDFReal (x 0) 1 (y 0)) false hastings start (.flt 1)) k l {s | s 0 ≤ v}).toReal) Filter.atTop
      (nhds ((v - 3) / 4)) := by
  have h := C110_box (n := 1) (fun _ => 3) (fun _ => 7) (fun _ => by norm_num) (c := 1 / 4)
    (q := fun x y => gaussianPDFReal (x 0) 1 (y 0)) (by unfold npz; norm_num)
    (fun x y => gaussianPDFReal_pos _ _ _ one_ne_zero) (cs := fun _ => ⟨.tuple (-1 : ℝ) (1 : ℝ), none⟩) (fun _ => rfl)
    hastings start (A := {s | s 0 ≤ v}) (measurableSet_le (measurable_pi_apply 0) measurable_const) l x hl
  convert h using 2
  exact (portion_prob3 v hv).symm

/-- C110: examples/mcmc/mcmc_prob4b.py: the chance of a sample below `u` and `v` tends to that of the
uniform distribution on the rectangle. -/
theorem C110_prob4b (hastings : Bool) (start : Fin 2 → ℝ) (l : OPQR (Row (Fin 2 → ℝ))) (x : Fin 2 → ℝ)
    (hl : Spec.At (Spec.flat (Set.Icc ![3, 1] ![7, 9]) (1 / 4 * (1 / 8))) l x) (u v : ℝ) (hu : 3 ≤ u ∧ u ≤ 7)
    (hv : 1 ≤ v ∧ v ≤ 9) :
    Filter.Tendsto (fun k => (Spec.arrives (normals 2) (Spec.mover (fun _ => ⟨.tuple (-1 : ℝ) (1 : ℝ), none⟩) false
      (fun δ => .ok (.delta δ)) (Spec.flat (Set.Icc ![3, 1] ![7, 9]) (1 / 4 * (1 / 8)))
      (fun x y => gaussianPDFReal (x 1) 1 (y 1) * gaussianPDFReal (x 0) 1 (y 0)) false hastings start (.flt 1)) k l
        {s | s 0 ≤ u ∧ s 1 ≤ v}).toReal) Filter.atTop (nhds ((u - 3) / 4 * ((v - 1) / 8))) := by
  have h := C110_box (n := 2) ![3, 1] ![7, 9] (fun i => by fin_cases i <;> simp <;> norm_num) (c := 1 / 4 * (1 / 8))
    (q := fun x y => gaussianPDFReal (x 1) 1 (y 1) * gaussianPDFReal (x 0) 1 (y 0)) (by unfold npz; norm_num)
    (fun x y => mul_pos (gaussianPDFReal_pos _ _ _ one_ne_zero) (gaussianPDFReal_pos _ _ _ one_ne_zero))
    (cs := fun _ => ⟨.tuple (-1 : ℝ) (1 : ℝ), none⟩) (fun _ => rfl)
    hastings start (A := {s | s 0 ≤ u ∧ s 1 ≤ v}) ((measurableSet_le (measurable_pi_apply 0) measurable_const).inter
      (measurableSet_le (measurable_pi_apply 1) measurable_const)) l x hl
  convert h using 2
  have hint : {s : Fin 2 → ℝ | s 0 ≤ u ∧ s 1 ≤ v} ∩ Set.Icc ![3, 1] ![7, 9] = Set.Icc ![3, 1] ![u, v] := by
    ext s
    simp only [Set.mem_inter_iff, Set.mem_setOf_eq, Set.mem_Icc, Pi.le_def, Fin.forall_fin_two, Matrix.cons_val_zero,
      Matrix.cons_val_one]
    constructor
    · rintro ⟨⟨h1, h2⟩, ⟨h3, h4⟩, -⟩
      exact ⟨⟨h3, h4⟩, h1, h2⟩
    · rintro ⟨⟨h1, h2⟩, h3, h4⟩
      exact ⟨⟨h3, h4⟩, ⟨h1, h2⟩, h3.trans hu.2, h4.trans hv.2⟩
  rw [Spec.portionOf, hint]
  simp only [measureReal_def, Real.volume_Icc_pi, Fin.prod_univ_two, Matrix.cons_val_zero, Matrix.cons_val_one,
    ENNReal.toReal_mul]
  rw [ENNReal.toReal_ofReal (by linarith [hu.1]), ENNReal.toReal_ofReal (by linarith [hv.1]),
    ENNReal.toReal_ofReal (by norm_num), ENNReal.toReal_ofReal (by norm_num)]
  ring

/-- The start of examples/mcmc/mcmc_prob3.py, and one where the target is zero. -/
example : (∃ l, Spec.At (Spec.flat (Set.Icc (fun _ : Fin 1 => (3 : ℝ)) fun _ => 7) (1 / 4)) l fun _ => 5) ∧
    ∃ l, Spec.At (Spec.flat (Set.Icc (fun _ : Fin 1 => (3 : ℝ)) fun _ => 7) (1 / 4)) l fun _ => 0 :=
  ⟨⟨⟨none, some ⟨_, .scalar _⟩, some ⟨_, .scalar 1⟩, none⟩, rfl, _, rfl⟩,
    ⟨⟨none, some ⟨_, .scalar _⟩, some ⟨_, .scalar 1⟩, none⟩, rfl, _, rfl⟩⟩

end Probayes
