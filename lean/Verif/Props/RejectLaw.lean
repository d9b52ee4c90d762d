/-
Property C89: the law of the samples accepted, and what the fraction accepted converges to.
-/
import Verif.Props.Reject
import Mathlib.MeasureTheory.Constructions.Pi
import Mathlib.MeasureTheory.Measure.Lebesgue.Basic
import Mathlib.MeasureTheory.Measure.Prod
import Mathlib.Probability.StrongLaw
import Mathlib.Probability.ProductMeasure
import Mathlib.Probability.Independence.InfinitePi
import Mathlib.Tactic.Linarith
import Mathlib.Tactic.Ring
import Mathlib.Tactic.FieldSimp

namespace Probayes

open MeasureTheory

/-- The law of the draws of one sample: independent, and uniform on `[0, 1)`. -/
noncomputable def Spec.unitDraws (n : ℕ) : Measure ((Fin n → ℝ) × ℝ) :=
  (Measure.pi fun _ => volume.restrict (Set.Ico (0 : ℝ) 1)).prod (volume.restrict (Set.Ico (0 : ℝ) 1))

/-- The box between `a` and `b`. -/
def Spec.box {n : ℕ} (a b : Fin n → ℝ) : Set (Fin n → ℝ) := Set.univ.pi fun i => Set.Ico (a i) (b i)

/-- The next sample, with draws `ω`, is accepted (update `True`) with its values in `A`. -/
def Spec.Admits {n : ℕ} (P : Proc Unit Spot (RDraw n)) (A : Set (Dict Str ℝ)) (last : Option (OPQR Spot))
    (ω : (Fin n → ℝ) × ℝ) : Prop :=
  ∃ x d, (nextCore P last ⟨ω.1, ω.2⟩ ()).2.2 = .ok (.sample x) ∧ x.u = some true ∧ x.p = some d ∧ d.vals ∈ A

theorem unit_affine (a b : ℝ) (hab : a < b) :
    (volume.restrict (Set.Ico (0 : ℝ) 1)).map (fun u => a + (b - a) * u) =
      (ENNReal.ofReal (b - a))⁻¹ • volume.restrict (Set.Ico a b) := by
  have hpos : 0 < b - a := by linarith
  have hm : Measurable fun u : ℝ => a + (b - a) * u := by fun_prop
  ext s hs
  rw [Measure.map_apply hm hs, Measure.restrict_apply (hm hs), Measure.smul_apply,
    Measure.restrict_apply hs, smul_eq_mul]
  have hset : (fun u : ℝ => a + (b - a) * u) ⁻¹' s ∩ Set.Ico 0 1 =
      ((b - a) * ·) ⁻¹' ((a + ·) ⁻¹' (s ∩ Set.Ico a b)) := by
    ext u
    simp only [Set.mem_inter_iff, Set.mem_preimage, Set.mem_Ico]
    refine and_congr_right fun _ => ⟨fun h => ⟨by nlinarith [h.1], by nlinarith [h.2]⟩, fun h => ⟨?_, ?_⟩⟩
    · by_contra hc; nlinarith [h.1]
    · by_contra hc; nlinarith [h.2]
  rw [hset, Real.volume_preimage_mul_left hpos.ne', measure_preimage_add, abs_of_pos (by positivity),
    ENNReal.ofReal_inv_of_pos hpos]

theorem box_measurable {n : ℕ} (a b : Fin n → ℝ) : MeasurableSet (Spec.box a b) :=
  MeasurableSet.univ_pi fun _ => measurableSet_Ico

theorem draws_affine {n : ℕ} (a b : Fin n → ℝ) (hab : ∀ i, a i < b i) :
    (Measure.pi fun _ : Fin n => volume.restrict (Set.Ico (0 : ℝ) 1)).map
        (fun u i => a i + (b i - a i) * u i) =
      (ENNReal.ofReal (∏ i, (b i - a i)))⁻¹ • volume.restrict (Spec.box a b) := by
  have hfin : ∀ i, SigmaFinite ((volume.restrict (Set.Ico (0 : ℝ) 1)).map fun u => a i + (b i - a i) * u) := by
    intro i
    have : IsFiniteMeasure ((volume.restrict (Set.Ico (0 : ℝ) 1)).map fun u => a i + (b i - a i) * u) :=
      Measure.isFiniteMeasure_map _ _
    infer_instance
  rw [Measure.pi_map_pi (f := fun i u => a i + (b i - a i) * u) (fun i => by fun_prop)]
  refine Measure.pi_eq fun s hs => ?_
  have hp : ∀ i, 0 < b i - a i := fun i => by linarith [hab i]
  rw [Measure.smul_apply, Measure.restrict_apply (MeasurableSet.univ_pi hs), Spec.box,
    ← Set.pi_inter_distrib, volume_pi_pi, smul_eq_mul,
    ENNReal.ofReal_prod_of_nonneg (fun i _ => (hp i).le)]
  rw [ENNReal.prod_inv_distrib, ← Finset.prod_mul_distrib]
  · refine Finset.prod_congr rfl fun i _ => ?_
    rw [unit_affine _ _ (hab i), Measure.smul_apply, Measure.restrict_apply (hs i), smul_eq_mul]
  · intro i _ j _ _
    exact Or.inr ENNReal.ofReal_ne_top

theorem unit_reach (c h : ℝ) (hc : 0 < c) (h0 : 0 ≤ h) (h1 : h ≤ c) :
    (volume.restrict (Set.Ico (0 : ℝ) 1)) {t | c * t ≤ h} = ENNReal.ofReal h / ENNReal.ofReal c := by
  rw [Measure.restrict_apply (measurableSet_le (by fun_prop) measurable_const),
    ← ENNReal.ofReal_div_of_pos hc]
  have hle : h / c ≤ 1 := (div_le_one hc).mpr h1
  rcases hle.lt_or_eq with hlt | heq
  · have hset : {t : ℝ | c * t ≤ h} ∩ Set.Ico 0 1 = Set.Icc 0 (h / c) := by
      ext t
      simp only [Set.mem_inter_iff, Set.mem_setOf_eq, Set.mem_Ico, Set.mem_Icc, le_div_iff₀ hc]
      constructor
      · rintro ⟨x, y, -⟩; exact ⟨y, by linarith⟩
      · rintro ⟨x, y⟩
        refine ⟨by linarith, x, ?_⟩
        have : t ≤ h / c := by rw [le_div_iff₀ hc]; exact y
        linarith
    rw [hset, Real.volume_Icc, sub_zero]
  · have hset : {t : ℝ | c * t ≤ h} ∩ Set.Ico 0 1 = Set.Ico 0 1 := by
      refine Set.inter_eq_right.mpr fun t ht => ?_
      have : h = c := by rwa [div_eq_one_iff_eq hc.ne'] at heq
      simp only [Set.mem_setOf_eq, this]
      nlinarith [ht.2]
    rw [hset, Real.volume_Ico, heq, sub_zero]

theorem unit_reach_min (c h : ℝ) (hc : 0 < c) (h0 : 0 ≤ h) :
    (volume.restrict (Set.Ico (0 : ℝ) 1)) {t | c * t ≤ h} = ENNReal.ofReal (min h c) / ENNReal.ofReal c := by
  rw [← unit_reach c (min h c) hc (le_min h0 hc.le) (min_le_right _ _)]
  rw [Measure.restrict_apply (measurableSet_le (by fun_prop) measurable_const),
    Measure.restrict_apply (measurableSet_le (by fun_prop) measurable_const)]
  congr 1
  ext t
  simp only [Set.mem_inter_iff, Set.mem_setOf_eq, Set.mem_Ico, le_min_iff]
  constructor
  · rintro ⟨x, y, z⟩; exact ⟨⟨x, by nlinarith⟩, y, z⟩
  · rintro ⟨⟨x, -⟩, y⟩; exact ⟨x, y⟩

theorem admits_iff {n : ℕ} (vars : Fin n → CRV) (a b : Fin n → ℝ) (G : Fin n → ℝ → ℝ)
    (h : Spec.Drawing vars a b G) (f g : Dict Str ℝ → ℝ) (low high : ℝ) (A : Set (Dict Str ℝ))
    (last : Option (OPQR Spot)) (ω : (Fin n → ℝ) × ℝ) :
    Spec.Admits (rejectProc vars f g low high) A last ω ↔
      low + (high - low) * ω.2 ≤ f (Spec.byName vars (Spec.drawnAt a b G ω.1)) ∧
        Spec.byName vars (Spec.drawnAt a b G ω.1) ∈ A := by
  unfold Spec.Admits
  rw [(reject_next vars a b G h f g low high last ⟨ω.1, ω.2⟩).1]
  constructor
  · rintro ⟨x, d, h1, h2, h3, h4⟩
    obtain rfl := Out.sample.inj (Except.ok.inj h1)
    obtain rfl := Option.some.inj h3
    exact ⟨by simpa [Spec.rejectSample] using h2, h4⟩
  · rintro ⟨h1, h2⟩
    exact ⟨_, _, rfl, by simpa [Spec.rejectSample] using h1, rfl, h2⟩

/-- C89: with thresholds uniform between 0 and `c`, the chance that a sample is accepted with
values in `A` is the integral over `A` of the probability function, as far as it does not
exceed `c`, relative to `c` times the volume of the box the values are drawn in (in the
coordinates they are drawn in).  What the proposal function is does not matter. -/
theorem C89_law {n : ℕ} (vars : Fin n → CRV) (a b : Fin n → ℝ) (G : Fin n → ℝ → ℝ)
    (h : Spec.Drawing vars a b G) (hab : ∀ i, a i < b i) (f g : Dict Str ℝ → ℝ) (c : ℝ) (hc : 0 < c)
    (hm : Measurable fun y : Fin n → ℝ => f (Spec.byName vars fun i => G i (y i)))
    (hf : ∀ y ∈ Spec.box a b, 0 ≤ f (Spec.byName vars fun i => G i (y i)))
    (A : Set (Dict Str ℝ)) (hA : MeasurableSet {y : Fin n → ℝ | Spec.byName vars (fun i => G i (y i)) ∈ A})
    (last : Option (OPQR Spot)) :
    Spec.unitDraws n {ω | Spec.Admits (rejectProc vars f g 0 c) A last ω} =
      (∫⁻ y in Spec.box a b ∩ {y | Spec.byName vars (fun i => G i (y i)) ∈ A},
        ENNReal.ofReal (min (f (Spec.byName vars fun i => G i (y i))) c)) /
      (ENNReal.ofReal c * ENNReal.ofReal (∏ i, (b i - a i))) := by
  set F : (Fin n → ℝ) → ℝ := fun y => f (Spec.byName vars fun i => G i (y i)) with hF
  set B : Set (Fin n → ℝ) := {y | Spec.byName vars (fun i => G i (y i)) ∈ A} with hB
  set φ : (Fin n → ℝ) → Fin n → ℝ := fun u i => a i + (b i - a i) * u i with hφ
  have hφm : Measurable φ := by fun_prop
  have hEm : MeasurableSet {z : (Fin n → ℝ) × ℝ | c * z.2 ≤ F z.1 ∧ z.1 ∈ B} :=
    (measurableSet_le (by fun_prop) (hm.comp measurable_fst)).inter (measurable_fst hA)
  have hset : {ω | Spec.Admits (rejectProc vars f g 0 c) A last ω} =
      (fun ω : (Fin n → ℝ) × ℝ => (φ ω.1, ω.2)) ⁻¹' {z | c * z.2 ≤ F z.1 ∧ z.1 ∈ B} := by
    ext ω
    rw [Set.mem_setOf_eq, admits_iff vars a b G h]
    simp only [zero_add, sub_zero]
    rfl
  have hpm : Measurable fun ω : (Fin n → ℝ) × ℝ => (φ ω.1, ω.2) := by fun_prop
  have hpos : 0 < ∏ i, (b i - a i) := Finset.prod_pos fun i _ => by linarith [hab i]
  rw [hset, Spec.unitDraws, Measure.prod_apply (hpm hEm)]
  set ψ : (Fin n → ℝ) → ENNReal := fun y =>
    (volume.restrict (Set.Ico (0 : ℝ) 1)) (Prod.mk y ⁻¹' {z : (Fin n → ℝ) × ℝ | c * z.2 ≤ F z.1 ∧ z.1 ∈ B}) with hψ
  have hψm : Measurable ψ := measurable_measure_prodMk_left hEm
  have h1 : (∫⁻ u, (volume.restrict (Set.Ico (0 : ℝ) 1)) (Prod.mk u ⁻¹'
      ((fun ω : (Fin n → ℝ) × ℝ => (φ ω.1, ω.2)) ⁻¹' {z | c * z.2 ≤ F z.1 ∧ z.1 ∈ B}))
      ∂Measure.pi fun _ : Fin n => volume.restrict (Set.Ico (0 : ℝ) 1)) =
      ∫⁻ y, ψ y ∂((Measure.pi fun _ : Fin n => volume.restrict (Set.Ico (0 : ℝ) 1)).map φ) := by
    rw [lintegral_map hψm hφm]
    rfl
  rw [h1, draws_affine a b hab, lintegral_smul_measure]
  have h2 : ∫⁻ y in Spec.box a b, ψ y = ∫⁻ y in Spec.box a b, B.indicator (fun y => ENNReal.ofReal (min (F y) c)) y /
      ENNReal.ofReal c := by
    refine setLIntegral_congr_fun (box_measurable a b) fun y hy => ?_
    by_cases hyB : y ∈ B
    · have : Prod.mk y ⁻¹' {z : (Fin n → ℝ) × ℝ | c * z.2 ≤ F z.1 ∧ z.1 ∈ B} = {t | c * t ≤ F y} := by
        ext t; simp [hyB]
      simp only [hψ, this, Set.indicator_of_mem hyB]
      exact unit_reach_min c _ hc (hf y hy)
    · have : Prod.mk y ⁻¹' {z : (Fin n → ℝ) × ℝ | c * z.2 ≤ F z.1 ∧ z.1 ∈ B} = ∅ := by
        ext t; simp [hyB]
      simp only [hψ, this, Set.indicator_of_notMem hyB, measure_empty, ENNReal.zero_div]
  rw [h2]
  simp only [div_eq_mul_inv]
  rw [lintegral_mul_const _ (((hm.min measurable_const).ennreal_ofReal).indicator hA), lintegral_indicator hA,
    Measure.restrict_restrict hA, Set.inter_comm B, smul_eq_mul,
    ENNReal.mul_inv (Or.inr ENNReal.ofReal_ne_top) (Or.inl ENNReal.ofReal_ne_top)]
  ring

/-- C89: the proposals themselves are uniform in the box, whatever the proposal function: it
says how probable a proposal is recorded to be, not where proposals are made. -/
theorem C89_proposed {n : ℕ} (vars : Fin n → CRV) (a b : Fin n → ℝ) (G : Fin n → ℝ → ℝ)
    (h : Spec.Drawing vars a b G) (hab : ∀ i, a i < b i) (f g : Dict Str ℝ → ℝ) (low high : ℝ)
    (A : Set (Dict Str ℝ)) (hA : MeasurableSet {y : Fin n → ℝ | Spec.byName vars (fun i => G i (y i)) ∈ A})
    (last : Option (OPQR Spot)) :
    Spec.unitDraws n {ω | ∃ x d, (nextCore (rejectProc vars f g low high) last ⟨ω.1, ω.2⟩ ()).2.2 =
        .ok (.sample x) ∧ x.q = some ⟨Spec.primed d, g d⟩ ∧ x.p = some ⟨d, f d⟩ ∧ d ∈ A} =
      volume (Spec.box a b ∩ {y | Spec.byName vars (fun i => G i (y i)) ∈ A}) /
        ENNReal.ofReal (∏ i, (b i - a i)) := by
  set B : Set (Fin n → ℝ) := {y | Spec.byName vars (fun i => G i (y i)) ∈ A} with hB
  set φ : (Fin n → ℝ) → Fin n → ℝ := fun u i => a i + (b i - a i) * u i with hφ
  have hφm : Measurable φ := by fun_prop
  have hset : {ω : (Fin n → ℝ) × ℝ | ∃ x d, (nextCore (rejectProc vars f g low high) last ⟨ω.1, ω.2⟩ ()).2.2 =
        .ok (.sample x) ∧ x.q = some ⟨Spec.primed d, g d⟩ ∧ x.p = some ⟨d, f d⟩ ∧ d ∈ A} =
      (φ ⁻¹' B) ×ˢ Set.univ := by
    ext ω
    simp only [Set.mem_setOf_eq, (reject_next vars a b G h f g low high last ⟨ω.1, ω.2⟩).1, Set.mem_prod,
      Set.mem_univ, and_true, Set.mem_preimage]
    constructor
    · rintro ⟨x, d, h1, -, h3, h4⟩
      obtain rfl := Out.sample.inj (Except.ok.inj h1)
      have h5 := congrArg Spot.vals (Option.some.inj h3)
      simp only at h5
      rw [← h5] at h4
      exact h4
    · intro h1
      exact ⟨_, _, rfl, rfl, rfl, h1⟩
  have hone : (volume.restrict (Set.Ico (0 : ℝ) 1)) Set.univ = 1 := by simp
  rw [hset, Spec.unitDraws, Measure.prod_prod, hone, mul_one, ← Measure.map_apply hφm hA,
    draws_affine a b hab, Measure.smul_apply, Measure.restrict_apply hA, smul_eq_mul, Set.inter_comm,
    div_eq_mul_inv, mul_comm]

/-- C89: among the samples accepted, values follow the probability function (if it does not
exceed the thresholds' bound): the chance of
being accepted in `A` is to the chance of being accepted as the integral of the probability
function over `A` is to that over all of the box. -/
theorem C89_accepted {n : ℕ} (vars : Fin n → CRV) (a b : Fin n → ℝ) (G : Fin n → ℝ → ℝ)
    (h : Spec.Drawing vars a b G) (hab : ∀ i, a i < b i) (f g : Dict Str ℝ → ℝ) (c : ℝ) (hc : 0 < c)
    (hm : Measurable fun y : Fin n → ℝ => f (Spec.byName vars fun i => G i (y i)))
    (hf : ∀ y ∈ Spec.box a b, 0 ≤ f (Spec.byName vars fun i => G i (y i)) ∧
      f (Spec.byName vars fun i => G i (y i)) ≤ c)
    (hpos : ∫⁻ y in Spec.box a b, ENNReal.ofReal (f (Spec.byName vars fun i => G i (y i))) ≠ 0)
    (A : Set (Dict Str ℝ)) (hA : MeasurableSet {y : Fin n → ℝ | Spec.byName vars (fun i => G i (y i)) ∈ A})
    (last : Option (OPQR Spot)) :
    Spec.unitDraws n {ω | Spec.Admits (rejectProc vars f g 0 c) A last ω} /
        Spec.unitDraws n {ω | Spec.Admits (rejectProc vars f g 0 c) Set.univ last ω} =
      (∫⁻ y in Spec.box a b ∩ {y | Spec.byName vars (fun i => G i (y i)) ∈ A},
        ENNReal.ofReal (f (Spec.byName vars fun i => G i (y i)))) /
      ∫⁻ y in Spec.box a b, ENNReal.ofReal (f (Spec.byName vars fun i => G i (y i))) := by
  have hp : 0 < ∏ i, (b i - a i) := Finset.prod_pos fun i _ => by linarith [hab i]
  have hmin : ∀ B : Set (Fin n → ℝ), MeasurableSet B →
      (∫⁻ y in Spec.box a b ∩ B, ENNReal.ofReal (min (f (Spec.byName vars fun i => G i (y i))) c)) =
      ∫⁻ y in Spec.box a b ∩ B, ENNReal.ofReal (f (Spec.byName vars fun i => G i (y i))) := fun B hB =>
    setLIntegral_congr_fun ((box_measurable a b).inter hB) fun y hy => by
      simp only [min_eq_left (hf y hy.1).2]
  rw [C89_law vars a b G h hab f g c hc hm (fun y hy => (hf y hy).1) A hA last,
    C89_law vars a b G h hab f g c hc hm (fun y hy => (hf y hy).1) Set.univ (by simp) last,
    hmin _ hA, hmin _ (by simp)]
  have hfin : (∫⁻ y in Spec.box a b, ENNReal.ofReal (f (Spec.byName vars fun i => G i (y i)))) ≠ ⊤ := by
    refine ne_top_of_le_ne_top ?_ (setLIntegral_mono (g := fun _ => ENNReal.ofReal c) measurable_const
      fun y hy => ENNReal.ofReal_le_ofReal (hf y hy).2)
    rw [setLIntegral_const]
    refine ENNReal.mul_ne_top ENNReal.ofReal_ne_top ?_
    rw [Spec.box, volume_pi_pi]
    exact (ENNReal.prod_lt_top fun i _ => by rw [Real.volume_Ico]; exact ENNReal.ofReal_lt_top).ne
  have hk0 : ENNReal.ofReal c * ENNReal.ofReal (∏ i, (b i - a i)) ≠ 0 :=
    mul_ne_zero (by simpa using hc) (by simpa using hp)
  have hk1 : ENNReal.ofReal c * ENNReal.ofReal (∏ i, (b i - a i)) ≠ ⊤ :=
    ENNReal.mul_ne_top ENNReal.ofReal_ne_top ENNReal.ofReal_ne_top
  simp only [Set.mem_univ, Set.setOf_true, Set.inter_univ]
  generalize (∫⁻ y in Spec.box a b, ENNReal.ofReal (f (Spec.byName vars fun i => G i (y i)))) = I at *
  generalize ENNReal.ofReal c * ENNReal.ofReal (∏ i, (b i - a i)) = k at *
  rw [div_eq_mul_inv, div_eq_mul_inv, div_eq_mul_inv, div_eq_mul_inv,
    ENNReal.mul_inv (Or.inl hpos) (Or.inl hfin), inv_inv, mul_assoc, mul_left_comm k⁻¹,
    ENNReal.inv_mul_cancel hk0 hk1, mul_one]

instance unitDraws_prob (n : ℕ) : IsProbabilityMeasure (Spec.unitDraws n) := by
  have : IsProbabilityMeasure (volume.restrict (Set.Ico (0 : ℝ) 1)) := ⟨by simp⟩
  unfold Spec.unitDraws
  infer_instance

open Classical in
/-- How many of the outputs are samples accepted with values in `A`. -/
noncomputable def Spec.tally (A : Set (Dict Str ℝ)) (xs : List (Out Spot)) : ℕ :=
  xs.countP fun x => decide (∃ s d, x = .sample s ∧ s.u = some true ∧ s.p = some d ∧ d.vals ∈ A)

open Classical in
theorem tally_run {n : ℕ} (vars : Fin n → CRV) (a b : Fin n → ℝ) (G : Fin n → ℝ → ℝ)
    (h : Spec.Drawing vars a b G) (f g : Dict Str ℝ → ℝ) (low high : ℝ) (S : SPState Unit Spot)
    (stop : Option ℤ) (m : ℕ) (hm : ∀ n, stop = some n → (m : ℤ) ≤ n) (A : Set (Dict Str ℝ))
    (ω : ℕ → (Fin n → ℝ) × ℝ) :
    (Spec.tally A (drain (rejectProc vars f g low high) S.made (fun k => ⟨(ω k).1, (ω k).2⟩) m
      (mkSampler S stop)).2.1 : ℝ) =
    ∑ k ∈ Finset.range m, {z | Spec.Admits (rejectProc vars f g low high) A none z}.indicator (fun _ => (1 : ℝ))
      (ω k) := by
  rw [C89_run vars a b G h f g low high S stop m hm]
  simp only
  clear hm
  induction m with
  | zero => simp [Spec.tally]
  | succ m ih =>
    rw [List.range_succ, List.map_append, Finset.sum_range_succ, ← ih]
    unfold Spec.tally
    rw [List.countP_append, Nat.cast_add]
    congr 1
    have hiff : (∃ s d, (Out.sample (Spec.rejectSample vars a b G f g low high (m = 0)
          ⟨(ω m).1, (ω m).2⟩) : Out Spot) = .sample s ∧ s.u = some true ∧ s.p = some d ∧ d.vals ∈ A) ↔
        ω m ∈ {z | Spec.Admits (rejectProc vars f g low high) A none z} := by
      rw [Set.mem_setOf_eq, admits_iff vars a b G h]
      constructor
      · rintro ⟨x, d, h1, h2, h3, h4⟩
        obtain rfl := Out.sample.inj h1
        obtain rfl := Option.some.inj h3
        exact ⟨by simpa [Spec.rejectSample] using h2, h4⟩
      · rintro ⟨h1, h2⟩
        exact ⟨_, _, rfl, by simpa [Spec.rejectSample] using h1, rfl, h2⟩
    by_cases hT : ω m ∈ {z | Spec.Admits (rejectProc vars f g low high) A none z}
    · rw [Set.indicator_of_mem hT]
      simp only [List.map_cons, List.map_nil, List.countP_cons, List.countP_nil, zero_add]
      rw [if_pos ((@decide_eq_true_iff _ _).mpr (hiff.mpr hT))]
      simp
    · rw [Set.indicator_of_notMem hT]
      simp only [List.map_cons, List.map_nil, List.countP_cons, List.countP_nil, zero_add]
      rw [if_neg (fun hc => hT (hiff.mp ((@decide_eq_true_iff _ _).mp hc)))]
      simp

/-- C89: with independent uniform draws, almost surely the fraction of the samples that are
accepted with values in `A` converges, as more are drawn, to the integral over `A` of the
probability function, as far as it does not exceed `c`, relative to `c` times the volume of
the box. -/
theorem C89_estimate {n : ℕ} (vars : Fin n → CRV) (a b : Fin n → ℝ) (G : Fin n → ℝ → ℝ)
    (h : Spec.Drawing vars a b G) (hab : ∀ i, a i < b i) (f g : Dict Str ℝ → ℝ) (c : ℝ) (hc : 0 < c)
    (hm : Measurable fun y : Fin n → ℝ => f (Spec.byName vars fun i => G i (y i)))
    (hf : ∀ y ∈ Spec.box a b, 0 ≤ f (Spec.byName vars fun i => G i (y i)))
    (A : Set (Dict Str ℝ)) (hA : MeasurableSet {y : Fin n → ℝ | Spec.byName vars (fun i => G i (y i)) ∈ A})
    (S : SPState Unit Spot) :
    ∀ᵐ ω ∂Measure.infinitePi fun _ : ℕ => Spec.unitDraws n,
      Filter.Tendsto (fun m : ℕ => (Spec.tally A (drain (rejectProc vars f g 0 c) S.made
        (fun k => ⟨(ω k).1, (ω k).2⟩) m (mkSampler S none)).2.1 : ℝ) / m) Filter.atTop
      (nhds (((∫⁻ y in Spec.box a b ∩ {y | Spec.byName vars (fun i => G i (y i)) ∈ A},
        ENNReal.ofReal (min (f (Spec.byName vars fun i => G i (y i))) c)) /
        (ENNReal.ofReal c * ENNReal.ofReal (∏ i, (b i - a i)))).toReal)) := by
  rw [← C89_law vars a b G h hab f g c hc hm hf A hA none]
  set E : Set ((Fin n → ℝ) × ℝ) := {ω | Spec.Admits (rejectProc vars f g 0 c) A none ω} with hE
  have hEm : MeasurableSet E := by
    have hset : E = (fun ω : (Fin n → ℝ) × ℝ => ((fun i => a i + (b i - a i) * ω.1 i : Fin n → ℝ), ω.2)) ⁻¹'
        {z | c * z.2 ≤ f (Spec.byName vars fun i => G i (z.1 i)) ∧
          z.1 ∈ {y : Fin n → ℝ | Spec.byName vars (fun i => G i (y i)) ∈ A}} := by
      ext ω
      rw [hE, Set.mem_setOf_eq, admits_iff vars a b G h]
      simp only [zero_add, sub_zero]
      rfl
    rw [hset]
    exact (show Measurable fun ω : (Fin n → ℝ) × ℝ =>
        ((fun i => a i + (b i - a i) * ω.1 i : Fin n → ℝ), ω.2) by fun_prop)
      ((measurableSet_le (by fun_prop) (hm.comp measurable_fst)).inter (measurable_fst hA))
  set X : ℕ → (ℕ → (Fin n → ℝ) × ℝ) → ℝ := fun k ω => E.indicator (fun _ => (1 : ℝ)) (ω k) with hX
  have hind : Measurable (E.indicator fun _ => (1 : ℝ)) := measurable_const.indicator hEm
  have hXm : ∀ k, Measurable (X k) := fun k => hind.comp (measurable_pi_apply k)
  have hint0 : ∫ ω, X 0 ω ∂(Measure.infinitePi fun _ : ℕ => Spec.unitDraws n) = (Spec.unitDraws n E).toReal := by
    have := (measurePreserving_eval_infinitePi (fun _ : ℕ => Spec.unitDraws n) 0)
    rw [show (fun ω => X 0 ω) = fun ω => (E.indicator fun _ => (1 : ℝ)) (Function.eval 0 ω) from rfl,
      ← integral_map (by exact this.aemeasurable) (by exact hind.aestronglyMeasurable), this.map_eq,
      integral_indicator hEm]
    simp [Measure.real]
  have hlaw := ProbabilityTheory.strong_law_ae_real (μ := Measure.infinitePi fun _ : ℕ => Spec.unitDraws n) X
    (by
      refine Integrable.of_bound (hXm 0).aestronglyMeasurable 1 (Filter.Eventually.of_forall fun ω => ?_)
      by_cases hω : ω 0 ∈ E
      · simp [hX, Set.indicator_of_mem hω]
      · simp [hX, Set.indicator_of_notMem hω])
    (by
      intro i j hij
      exact (ProbabilityTheory.iIndepFun_infinitePi (P := fun _ : ℕ => Spec.unitDraws n)
        (X := fun _ => E.indicator fun _ => (1 : ℝ)) (fun _ => hind)).indepFun hij)
    (by
      intro i
      refine ⟨(hXm i).aemeasurable, (hXm 0).aemeasurable, ?_⟩
      have hi := (measurePreserving_eval_infinitePi (fun _ : ℕ => Spec.unitDraws n) i)
      have h0 := (measurePreserving_eval_infinitePi (fun _ : ℕ => Spec.unitDraws n) 0)
      rw [show X i = (E.indicator fun _ => (1 : ℝ)) ∘ Function.eval i from rfl,
        show X 0 = (E.indicator fun _ => (1 : ℝ)) ∘ Function.eval 0 from rfl,
        ← Measure.map_map hind (measurable_pi_apply i), ← Measure.map_map hind (measurable_pi_apply 0)]
      erw [hi.map_eq, h0.map_eq])
  rw [hint0] at hlaw
  filter_upwards [hlaw] with ω hω
  refine hω.congr fun m => ?_
  rw [tally_run vars a b G h f g 0 c S none m (by simp) A ω]

end Probayes
