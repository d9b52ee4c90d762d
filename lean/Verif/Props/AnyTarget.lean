/-
C111: random walks tend to their target from any start, as in examples/mcmc/mcmc_prob2.py and
mcmc_prob4a.py.
-/
import Verif.Lemmas.ReversiblePoint
import Verif.Props.FlatTargetUp
import Verif.Props.DeltaFnShiftUp

namespace Probayes

open MeasureTheory ProbabilityTheory

variable {n : ℕ} {Ω : Type}

/-! ### Specification -/

/-- The part of the target `w` that is in `A`, integrated over the transformed values, of which
`g` gives the values. -/
noncomputable def Spec.partOf (w : (Fin n → ℝ) → ℝ) (g : (Fin n → ℝ) → Fin n → ℝ) (A : _root_.Set (Fin n → ℝ)) : ENNReal :=
  (∫⁻ s in g ⁻¹' A, ENNReal.ofReal (w (g s))) / ∫⁻ s, ENNReal.ofReal (w (g s))

/-- Laws under which steps to a set are possible if and only if its volume is not zero. -/
def Spec.Everywhere [MeasurableSpace Ω] (P : Measure Ω) (D : Ω → Fin n → ℝ) : Prop :=
  ∀ S : _root_.Set (Fin n → ℝ), MeasurableSet S → (P (D ⁻¹' S) = 0 ↔ volume S = 0)

/-! ### The limit -/

theorem indicator_unit {A : Set (Fin n → ℝ)} (hA : MeasurableSet A) : Unit01 (A.indicator fun _ => (1 : ℝ)) := by
  refine ⟨measurable_const.indicator hA, fun x => ?_⟩
  by_cases h : x ∈ A
  · rw [Set.indicator_of_mem h]; norm_num
  · rw [Set.indicator_of_notMem h]; norm_num

theorem indicator_ofReal (A : Set (Fin n → ℝ)) :
    A.indicator (1 : (Fin n → ℝ) → ENNReal) = fun x => ENNReal.ofReal (A.indicator (fun _ => (1 : ℝ)) x) := by
  funext x
  by_cases h : x ∈ A
  · simp [Set.indicator_of_mem h]
  · simp [Set.indicator_of_notMem h]

/-- C111: whatever the target, if its integral is finite and not zero, and whatever the start, the
probability that a sample is in `A` tends to the part of the target there, for functions whose
numbers are as likely as their opposites and may be anything, judged by either rule, with any one
positive density stated. -/
theorem C111_tends [MeasurableSpace Ω] {P : Measure Ω} [IsProbabilityMeasure P] {cs : Fin n → Spec.Axis}
    (hcs : Spec.Invertible cs) {f : Ω → Py (DeltaRet n)} {D : Ω → Fin n → ℝ} (hf : ∀ ω, f ω = .ok (.delta (D ω)))
    (hD : Measurable D) (hsym : P.map (fun ω => - D ω) = P.map D) (hev : Spec.Everywhere P D)
    {prob w : (Fin n → ℝ) → ℝ} {q : (Fin n → ℝ) → (Fin n → ℝ) → ℝ} {hastings : Bool} {start : Fin n → ℝ}
    {pscale : PSpec} (hst : Spec.Stored prob pscale w) (hw : Measurable w)
    (hj : ∀ x ω, Spec.Judgeable hastings false pscale w q x (Spec.displaced cs x (D ω)))
    (h0 : ∫⁻ s, ENNReal.ofReal (w (Spec.untransformed cs s)) ≠ 0)
    (h1 : ∫⁻ s, ENNReal.ofReal (w (Spec.untransformed cs s)) ≠ ⊤)
    {A : Set (Fin n → ℝ)} (hA : MeasurableSet A) (l : OPQR (Row (Fin n → ℝ))) (s : Fin n → ℝ)
    (hl : Spec.At prob l (Spec.untransformed cs s)) :
    Filter.Tendsto (fun k => Spec.arrives P (Spec.mover cs false f prob q false hastings start pscale) k l A)
      Filter.atTop (nhds (Spec.partOf w (Spec.untransformed cs) A)) := by
  set g := Spec.untransformed cs with hg
  have hgm : Measurable g := measurable_pi_iff.mpr fun i => (hcs i).2.comp (measurable_pi_apply i)
  have hwg : Measurable fun s => w (g s) := hw.comp hgm
  have hAm : MeasurableSet (g ⁻¹' A) := hgm hA
  have hn : ∀ s, 0 ≤ w (g s) := fun s => hst.nonneg _
  have hac : P.map D ≪ volume := Measure.AbsolutelyContinuous.mk fun S hS h => by
    rw [Measure.map_apply hD hS]
    exact (hev S hS).2 h
  have hca : volume ≪ P.map D := Measure.AbsolutelyContinuous.mk fun S hS h => by
    rw [Measure.map_apply hD hS] at h
    exact (hev S hS).1 h
  have hval : ∀ {S : Set (Fin n → ℝ)}, MeasurableSet S →
      targetM (fun s => w (g s)) S = ∫⁻ s in S, ENNReal.ofReal (w (g s)) := fun hS => withDensity_apply _ hS
  have hall : targetM (fun s => w (g s)) Set.univ = ∫⁻ s, ENNReal.ofReal (w (g s)) := by
    rw [hval MeasurableSet.univ, Measure.restrict_univ]
  have hfin : IsFiniteMeasure (targetM fun s => w (g s)) := ⟨by rw [hall]; exact h1.lt_top⟩
  have hne : targetM (fun s => w (g s)) ≠ 0 := by
    rw [ne_eq, ← Measure.measure_univ_eq_zero, hall]
    exact h0
  have h := ENNReal.tendsto_ofReal (chanceIn_point hD hsym hac hca hwg hn hne (indicator_unit hAm) s)
  rw [integral_indicator hAm, setIntegral_const, smul_eq_mul, mul_one] at h
  have hlim : ENNReal.ofReal ((targetM fun s => w (g s)).real (g ⁻¹' A) / (targetM fun s => w (g s)).real Set.univ) =
      Spec.partOf w g A := by
    rw [measureReal_def, measureReal_def, hall, ENNReal.ofReal_div_of_pos (ENNReal.toReal_pos h0 h1),
      ENNReal.ofReal_toReal (measure_ne_top _ _), ENNReal.ofReal_toReal h1, hval hAm]
    rfl
  rw [hlim] at h
  refine h.congr fun k => ?_
  rw [arrives_eq (P := P) (start := start) hcs hf hst hj A k l s hl, indicator_ofReal]
  exact (congrFun (afterF_chance hD hwg hn (indicator_unit hAm) k) s).symm

theorem normals_everywhere (n : ℕ) : Spec.Everywhere (normals n) (id : (Fin n → ℝ) → _) := by
  intro S hS
  have h := normals_density n
  rw [Measure.map_id] at h
  have hm : AEMeasurable (fun δ : Fin n → ℝ => ENNReal.ofReal (Spec.standard δ)) :=
    standard_continuous.measurable.ennreal_ofReal.aemeasurable
  rw [Set.preimage_id, h]
  refine ⟨fun h0 => ?_, fun h0 => withDensity_absolutelyContinuous _ _ h0⟩
  exact withDensity_absolutelyContinuous' hm (Filter.Eventually.of_forall fun δ => by
    rw [ne_eq, ENNReal.ofReal_eq_zero, not_le]; exact standard_pos δ) h0

/-- C111: independent normal steps of variables that are not transformed. -/
theorem C111_normal {cs : Fin n → Spec.Axis} (hcs : ∀ i, (cs i).uf = none) {prob w : (Fin n → ℝ) → ℝ}
    (hst : Spec.Stored prob (.flt 1) w) (hw : Measurable w) (h0 : ∫⁻ x, ENNReal.ofReal (w x) ≠ 0)
    (h1 : ∫⁻ x, ENNReal.ofReal (w x) ≠ ⊤) {q : (Fin n → ℝ) → (Fin n → ℝ) → ℝ} (hq : ∀ x y, 0 < q x y)
    (hastings : Bool) (start : Fin n → ℝ) {A : Set (Fin n → ℝ)} (hA : MeasurableSet A)
    (l : OPQR (Row (Fin n → ℝ))) (x : Fin n → ℝ) (hl : Spec.At prob l x) :
    Filter.Tendsto (fun k => Spec.arrives (normals n)
      (Spec.mover cs false (fun δ => .ok (.delta δ)) prob q false hastings start (.flt 1)) k l A)
      Filter.atTop (nhds ((∫⁻ y in A, ENNReal.ofReal (w y)) / ∫⁻ y, ENNReal.ofReal (w y))) := by
  have hun : Spec.untransformed cs = id := by
    funext s i
    simp [Spec.untransformed, hcs i, UFun.inv]
  have h := C111_tends (P := normals n) (D := id) (cs := cs) (f := fun δ => .ok (.delta δ)) (q := q)
    (hastings := hastings) (start := start) (A := A) (l := l) (s := x)
    (fun i => by rw [hcs i]; exact ⟨fun _ => rfl, measurable_id⟩) (fun _ => rfl) measurable_id (normals_sym n)
    (normals_everywhere n) hst hw
    (fun x ω _ => ⟨fun _ => ⟨.lin 1, by simp [evalPscale], one_pos, trivial, by simpa [Spec.value] using hq _ _⟩,
      fun h => by simp at h⟩) (by rw [hun]; exact h0) (by rw [hun]; exact h1) hA (by rw [hun]; exact hl)
  rw [hun] at h
  exact h

/-! ### The examples -/

theorem plain_stored {w : (Fin n → ℝ) → ℝ} (h : ∀ x, 0 ≤ w x) : Spec.Stored w (.flt 1) w :=
  ⟨⟨.lin 1, by simp [evalPscale], one_pos, fun _ => trivial, fun _ => by simp [Spec.value]⟩, h⟩

/-- The integral over functions of one variable. -/
theorem one_lintegral {h : ℝ → ℝ} (hh : Measurable h) {B : Set ℝ} (hB : MeasurableSet B) :
    ∫⁻ x in {x : Fin 1 → ℝ | x 0 ∈ B}, ENNReal.ofReal (h (x 0)) = ∫⁻ v in B, ENNReal.ofReal (h v) := by
  have hp := volume_preserving_funUnique (Fin 1) ℝ
  have := hp.setLIntegral_comp_preimage hB hh.ennreal_ofReal
  rw [← this]
  rfl

/-- C111: examples/mcmc/mcmc_prob2.py, whose target is the normal density of mean 2 and variance 2:
the law of the samples tends to that normal law from any start. -/
theorem C111_prob2 (hastings : Bool) (start : Fin 1 → ℝ) (l : OPQR (Row (Fin 1 → ℝ))) (x : Fin 1 → ℝ)
    (hl : Spec.At (fun x => gaussianPDFReal 2 2 (x 0)) l x) {B : Set ℝ} (hB : MeasurableSet B) :
    Filter.Tendsto (fun k => Spec.arrives (normals 1) (Spec.mover (fun _ => ⟨.tuple (-1 : ℝ) (1 : ℝ), none⟩) false
      (fun δ => .ok (.delta δ)) (fun x => gaussianPDFReal 2 2 (x 0))
      (fun x y => gaussianPDFReal (x 0) 1 (y 0)) false hastings start (.flt 1)) k l {s | s 0 ∈ B}) Filter.atTop
      (nhds (gaussianReal 2 2 B)) := by
  have hm : Measurable (gaussianPDFReal 2 2) := measurable_gaussianPDFReal _ _
  have htot : ∫⁻ y : Fin 1 → ℝ, ENNReal.ofReal (gaussianPDFReal 2 2 (y 0)) = 1 := by
    have := one_lintegral hm MeasurableSet.univ
    simp only [Set.mem_univ, Set.setOf_true, Measure.restrict_univ] at this
    rw [this]
    exact lintegral_gaussianPDFReal_eq_one 2 two_ne_zero
  have h := C111_normal (n := 1) (cs := fun _ => ⟨.tuple (-1 : ℝ) (1 : ℝ), none⟩) (fun _ => rfl)
    (plain_stored (w := fun x : Fin 1 → ℝ => gaussianPDFReal 2 2 (x 0)) fun x => gaussianPDFReal_nonneg _ _ _)
    (hm.comp (measurable_pi_apply 0)) (by rw [htot]; exact one_ne_zero) (by rw [htot]; exact ENNReal.one_ne_top)
    (q := fun x y => gaussianPDFReal (x 0) 1 (y 0)) (fun x y => gaussianPDFReal_pos _ _ _ one_ne_zero) hastings start
    (A := {s | s 0 ∈ B}) (measurable_pi_apply 0 hB) l x hl
  rw [htot, div_one, one_lintegral hm hB] at h
  rw [gaussianReal_apply 2 two_ne_zero]
  exact h

theorem bivariate_nonzero : ∫⁻ y, ENNReal.ofReal (bivariate y) ≠ 0 := by
  intro h
  rw [lintegral_eq_zero_iff bivariate_continuous.measurable.ennreal_ofReal] at h
  have hbot : ∀ᵐ _ : Fin 2 → ℝ, False := by
    filter_upwards [h] with y hy
    have hy' : ENNReal.ofReal (bivariate y) = 0 := hy
    rw [ENNReal.ofReal_eq_zero] at hy'
    exact absurd (bivariate_pos y) (not_lt.2 hy')
  rw [ae_iff, show {a : Fin 2 → ℝ | ¬ False} = Set.univ by simp] at hbot
  exact (NeZero.ne (volume : Measure (Fin 2 → ℝ))) (Measure.measure_univ_eq_zero.1 hbot)

/-- C111: examples/mcmc/mcmc_prob4a.py, whose target is the normal density of covariance
`[[2, 1.2], [1.2, 2]]`. -/
theorem C111_prob4a (hastings : Bool) (start : Fin 2 → ℝ) (l : OPQR (Row (Fin 2 → ℝ))) (x : Fin 2 → ℝ)
    (hl : Spec.At bivariate l x) {A : Set (Fin 2 → ℝ)} (hA : MeasurableSet A) :
    Filter.Tendsto (fun k => Spec.arrives (normals 2) (Spec.mover (fun _ => ⟨.tuple (-1 : ℝ) (1 : ℝ), none⟩) false
      (fun δ => .ok (.delta δ)) bivariate
      (fun x y => gaussianPDFReal (x 1) 1 (y 1) * gaussianPDFReal (x 0) 1 (y 0)) false hastings start (.flt 1)) k l A)
      Filter.atTop (nhds ((∫⁻ y in A, ENNReal.ofReal (bivariate y)) / ∫⁻ y, ENNReal.ofReal (bivariate y))) := by
  refine C111_normal (fun _ => rfl) (plain_stored fun x => (bivariate_pos x).le) bivariate_continuous.measurable
    bivariate_nonzero bivariate_finite (fun x y => mul_pos (gaussianPDFReal_pos _ _ _ one_ne_zero) (gaussianPDFReal_pos _ _ _ one_ne_zero))
    hastings start hA l x hl

/-- The start of examples/mcmc/mcmc_prob2.py, and one so far that the target is below the smallest
normal float. -/
example : (∃ l, Spec.At (fun x : Fin 1 → ℝ => gaussianPDFReal 2 2 (x 0)) l fun _ => 0) ∧
    ∃ l, Spec.At (fun x : Fin 1 → ℝ => gaussianPDFReal 2 2 (x 0)) l fun _ => 1000 :=
  ⟨⟨⟨none, some ⟨_, .scalar _⟩, some ⟨_, .scalar 1⟩, none⟩, rfl, _, rfl⟩,
    ⟨⟨none, some ⟨_, .scalar _⟩, some ⟨_, .scalar 1⟩, none⟩, rfl, _, rfl⟩⟩

end Probayes
