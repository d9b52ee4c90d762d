/-
Means over sequences of resampled variables, and over the uniform draws they are made from:
helpers for C86.
-/
import Verif.Lemmas.Gibbs
import Verif.Lemmas.Moments

namespace Probayes

open MeasureTheory ProbabilityTheory CondCov

/-! ### Sequences of resampled variables -/

/-- The mean of a function of the values after one variable is resampled. -/
noncomputable def resampled {n : ℕ} (c : CondCov n) (G : (Fin (n + 1) → ℝ) → ENNReal) (i : Fin (n + 1))
    (x : Fin (n + 1) → ℝ) : ENNReal :=
  ∫⁻ z, G (resample c i x z) ∂gaussianReal 0 1

/-- The mean of a function of the values after the variables `w` are resampled in turn. -/
noncomputable def resamples {n : ℕ} (c : CondCov n) (G : (Fin (n + 1) → ℝ) → ENNReal) :
    List (Fin (n + 1)) → (Fin (n + 1) → ℝ) → ENNReal
  | [] => G
  | i :: w => resampled c (resamples c G w) i

theorem resamples_append {n : ℕ} (c : CondCov n) (G : (Fin (n + 1) → ℝ) → ENNReal) (v w : List (Fin (n + 1))) :
    resamples c G (v ++ w) = resamples c (resamples c G w) v := by
  induction v with
  | nil => rfl
  | cons i v ih => simp only [List.cons_append, resamples, ih]

theorem resampled_measurable {n : ℕ} (c : CondCov n) {G : (Fin (n + 1) → ℝ) → ENNReal} (hG : Measurable G)
    (i : Fin (n + 1)) : Measurable (resampled c G i) := by
  have : Measurable (Function.uncurry fun (x : Fin (n + 1) → ℝ) (z : ℝ) => G (resample c i x z)) :=
    hG.comp (resample_measurable c i)
  exact this.lintegral_prod_right

theorem resamples_measurable {n : ℕ} (c : CondCov n) {G : (Fin (n + 1) → ℝ) → ENNReal} (hG : Measurable G)
    (w : List (Fin (n + 1))) : Measurable (resamples c G w) := by
  induction w with
  | nil => exact hG
  | cons i w ih => exact resampled_measurable c ih i

theorem resamples_le_one {n : ℕ} (c : CondCov n) {G : (Fin (n + 1) → ℝ) → ENNReal} (hG : ∀ x, G x ≤ 1)
    (w : List (Fin (n + 1))) (x : Fin (n + 1) → ℝ) : resamples c G w x ≤ 1 := by
  induction w generalizing x with
  | nil => exact hG x
  | cons i w ih =>
      refine (lintegral_mono fun z => ih (resample c i x z)).trans ?_
      simp

/-- Resampling keeps means over the normal distribution. -/
theorem resamples_keeps {n : ℕ} (c : CondCov n) (hc : Spec.IsCov c.cov) {G : (Fin (n + 1) → ℝ) → ENNReal}
    (hG : Measurable G) (w : List (Fin (n + 1))) :
    ∫⁻ x, resamples c G w x ∂Spec.normal c.mean c.cov = ∫⁻ x, G x ∂Spec.normal c.mean c.cov := by
  induction w with
  | nil => rfl
  | cons i w ih =>
      have hm := resamples_measurable c hG w
      have hm2 : Measurable fun p : (Fin (n + 1) → ℝ) × ℝ => resamples c G w (resample c i p.1 p.2) :=
        hm.comp (resample_measurable c i)
      rw [← ih]
      conv_rhs => rw [← resample_law c hc i, lintegral_map hm (resample_measurable c i),
        lintegral_prod _ hm2.aemeasurable]
      rfl

/-! ### Uniform draws -/

/-- `Φ` is the distribution function of the standard normal distribution. -/
def Spec.IsNormal (Φ : EReal ≃o Set.Icc (0 : ℝ) 1) : Prop :=
  ∀ x : ℝ, (Φ x : ℝ) = (gaussianReal 0 1).real (Set.Iic x)

/-- The quantile function, as a real number. -/
noncomputable def quant (Φ : EReal ≃o Set.Icc (0 : ℝ) 1) (u : ℝ) : ℝ :=
  if h : u ∈ Set.Icc (0 : ℝ) 1 then (Φ.symm ⟨u, h⟩).toReal else 0

theorem quant_measurable (Φ : EReal ≃o Set.Icc (0 : ℝ) 1) : Measurable (quant Φ) := by
  unfold quant
  refine Measurable.dite (f := fun u : Set.Icc (0 : ℝ) 1 => (Φ.symm u).toReal) (g := fun _ => 0) ?_
    measurable_const measurableSet_Icc
  exact measurable_ereal_toReal.comp Φ.symm.toHomeomorph.continuous.measurable

theorem quant_coe (Φ : EReal ≃o Set.Icc (0 : ℝ) 1) {u : ℝ} (hu : u ∈ Set.Ioo (0 : ℝ) 1) :
    Φ.symm ⟨u, Set.Ioo_subset_Icc_self hu⟩ = (quant Φ u : EReal) := by
  unfold quant
  rw [dif_pos (Set.Ioo_subset_Icc_self hu), EReal.coe_toReal]
  · intro h
    have h2 : (⟨u, Set.Ioo_subset_Icc_self hu⟩ : Set.Icc (0 : ℝ) 1) = ⊤ := by
      rw [← Φ.symm.apply_eq_iff_eq, h, map_top]
    exact hu.2.ne (congrArg Subtype.val h2)
  · intro h
    have h2 : (⟨u, Set.Ioo_subset_Icc_self hu⟩ : Set.Icc (0 : ℝ) 1) = ⊥ := by
      rw [← Φ.symm.apply_eq_iff_eq, h, map_bot]
    exact hu.1.ne' (congrArg Subtype.val h2)

theorem quant_le (Φ : EReal ≃o Set.Icc (0 : ℝ) 1) {u x : ℝ} (hu : u ∈ Set.Ioo (0 : ℝ) 1) :
    quant Φ u ≤ x ↔ u ≤ (Φ x : ℝ) := by
  rw [← EReal.coe_le_coe_iff, ← quant_coe Φ hu, OrderIso.symm_apply_le]
  exact Iff.rfl

theorem unitLaw_Ioo : unitLaw = volume.restrict (Set.Ioo (0 : ℝ) 1) := by
  unfold unitLaw
  exact Measure.restrict_congr_set Ioo_ae_eq_Ico.symm

/-- Quantiles at uniform draws follow the standard normal distribution. -/
theorem quant_law {Φ : EReal ≃o Set.Icc (0 : ℝ) 1} (hΦ : Spec.IsNormal Φ) :
    unitLaw.map (quant Φ) = gaussianReal 0 1 := by
  have : IsProbabilityMeasure (unitLaw.map (quant Φ)) :=
    Measure.isProbabilityMeasure_map (quant_measurable Φ).aemeasurable
  refine Measure.ext_of_Iic _ _ fun x => ?_
  rw [Measure.map_apply (quant_measurable Φ) measurableSet_Iic, unitLaw_Ioo,
    Measure.restrict_apply (quant_measurable Φ measurableSet_Iic)]
  have hs : quant Φ ⁻¹' Set.Iic x ∩ Set.Ioo 0 1 = Set.Iic (Φ x : ℝ) ∩ Set.Ioo 0 1 := by
    ext u
    simp only [Set.mem_inter_iff, Set.mem_preimage, Set.mem_Iic]
    constructor
    · rintro ⟨h, hu⟩
      exact ⟨(quant_le Φ hu).mp h, hu⟩
    · rintro ⟨h, hu⟩
      exact ⟨(quant_le Φ hu).mpr h, hu⟩
  rw [hs]
  have h1 : volume (Set.Iic (Φ x : ℝ) ∩ Set.Ioo (0 : ℝ) 1) = volume (Set.Ioc 0 (Φ x : ℝ)) := by
    have : (Set.Iic (Φ x : ℝ) ∩ Set.Ioo (0 : ℝ) 1 : Set ℝ) =ᵐ[volume] (Set.Iic (Φ x : ℝ) ∩ Set.Ioc (0 : ℝ) 1 : Set ℝ) :=
      (ae_eq_refl _).inter Ioo_ae_eq_Ioc
    rw [measure_congr this]
    congr 1
    ext u
    have := (Φ x).2.2
    simp only [Set.mem_inter_iff, Set.mem_Iic, Set.mem_Ioc]
    constructor
    · rintro ⟨h, h0, _⟩
      exact ⟨h0, h⟩
    · rintro ⟨h0, h⟩
      exact ⟨h, h0, h.trans this⟩
  rw [h1, Real.volume_Ioc, sub_zero, hΦ x, Measure.real, ENNReal.ofReal_toReal (measure_ne_top _ _)]

/-- A draw of its own is as good as the draw of the same name, when nothing else depends on
that. -/
theorem cube_split {n : ℕ} (i : Fin (n + 1)) {g : ℝ → (Fin (n + 1) → ℝ) → ENNReal}
    (hg : Measurable (Function.uncurry g)) (hi : ∀ a u b, g a (Function.update u i b) = g a u) :
    ∫⁻ u, g (u i) u ∂cubeLaw (n + 1) = ∫⁻ a, ∫⁻ u, g a u ∂cubeLaw (n + 1) ∂unitLaw := by
  rw [cubeLaw_pi]
  have hp := measurePreserving_piFinSuccAbove (fun _ : Fin (n + 1) => unitLaw) i
  have hs := hp.symm
  have hm0 : Measurable fun u : Fin (n + 1) → ℝ => (u i, u) := (measurable_pi_apply i).prodMk measurable_id
  have hm1 : Measurable fun u : Fin (n + 1) → ℝ => g (u i) u := hg.comp hm0
  have hm2 : ∀ a, Measurable (g a) := fun a => hg.comp (measurable_const.prodMk measurable_id)
  have key : ∀ f : (Fin (n + 1) → ℝ) → ENNReal, Measurable f →
      ∫⁻ u, f u ∂Measure.pi (fun _ : Fin (n + 1) => unitLaw) =
        ∫⁻ b, ∫⁻ v, f (i.insertNth b v) ∂Measure.pi (fun _ : Fin n => unitLaw) ∂unitLaw := by
    intro f hf
    have hf2 : Measurable fun a => f ((MeasurableEquiv.piFinSuccAbove (fun _ : Fin (n + 1) => ℝ) i).symm a) :=
      hf.comp hs.measurable
    rw [← hs.lintegral_comp hf, lintegral_prod _ hf2.aemeasurable]
    rfl
  rw [key _ hm1]
  refine lintegral_congr fun a => ?_
  rw [key _ (hm2 a)]
  have : ∀ b, ∫⁻ v, g a (i.insertNth b v) ∂Measure.pi (fun _ : Fin n => unitLaw) =
      ∫⁻ v, g a (i.insertNth a v) ∂Measure.pi (fun _ : Fin n => unitLaw) := by
    intro b
    refine lintegral_congr fun v => ?_
    rw [← hi a (i.insertNth b v) a, Fin.update_insertNth]
  simp only [this, Fin.insertNth_apply_same, lintegral_const, measure_univ, mul_one]

/-- The values after the variables `w` are resampled in turn from the draws `u`. -/
noncomputable def resampleBy {n : ℕ} (Φ : EReal ≃o Set.Icc (0 : ℝ) 1) (c : CondCov n) (u : Fin (n + 1) → ℝ) :
    List (Fin (n + 1)) → (Fin (n + 1) → ℝ) → Fin (n + 1) → ℝ
  | [], x => x
  | i :: w, x => resampleBy Φ c u w (resample c i x (quant Φ (u i)))

theorem resampleBy_measurable {n : ℕ} (Φ : EReal ≃o Set.Icc (0 : ℝ) 1) (c : CondCov n) (w : List (Fin (n + 1))) :
    Measurable fun p : (Fin (n + 1) → ℝ) × (Fin (n + 1) → ℝ) => resampleBy Φ c p.1 w p.2 := by
  induction w with
  | nil => exact measurable_snd
  | cons i w ih =>
      refine ih.comp (measurable_fst.prodMk ((resample_measurable c i).comp (measurable_snd.prodMk ?_)))
      exact (quant_measurable Φ).comp ((measurable_pi_apply i).comp measurable_fst)

theorem resampleBy_update {n : ℕ} (Φ : EReal ≃o Set.Icc (0 : ℝ) 1) (c : CondCov n) (u : Fin (n + 1) → ℝ)
    (w : List (Fin (n + 1))) (i : Fin (n + 1)) (hi : i ∉ w) (b : ℝ) (x : Fin (n + 1) → ℝ) :
    resampleBy Φ c (Function.update u i b) w x = resampleBy Φ c u w x := by
  induction w generalizing x with
  | nil => rfl
  | cons j w ih =>
      rw [List.mem_cons, not_or] at hi
      simp only [resampleBy]
      rw [Function.update_of_ne (Ne.symm hi.1), ih hi.2]

theorem resampleBy_mean {n : ℕ} {Φ : EReal ≃o Set.Icc (0 : ℝ) 1} (hΦ : Spec.IsNormal Φ) (c : CondCov n)
    {G : (Fin (n + 1) → ℝ) → ENNReal} (hG : Measurable G) (w : List (Fin (n + 1))) (hw : w.Nodup)
    (x : Fin (n + 1) → ℝ) :
    ∫⁻ u, G (resampleBy Φ c u w x) ∂cubeLaw (n + 1) = resamples c G w x := by
  have hone : cubeLaw (n + 1) Set.univ = 1 := by
    rw [cubeLaw_pi]
    exact measure_univ
  induction w generalizing x with
  | nil => simp only [resampleBy, resamples, lintegral_const, hone, mul_one]
  | cons i w ih =>
      rw [List.nodup_cons] at hw
      have hm : Measurable (Function.uncurry fun (a : ℝ) (u : Fin (n + 1) → ℝ) =>
          G (resampleBy Φ c u w (resample c i x (quant Φ a)))) := by
        refine hG.comp ((resampleBy_measurable Φ c w).comp (measurable_snd.prodMk ?_))
        exact (resample_measurable c i).comp
          (measurable_const.prodMk ((quant_measurable Φ).comp measurable_fst))
      have hsplit := cube_split i hm fun a u b => by rw [resampleBy_update Φ c u w i hw.1]
      simp only [resampleBy]
      rw [hsplit]
      simp only [ih hw.2]
      have hm2 : Measurable fun z => resamples c G w (resample c i x z) :=
        (resamples_measurable c hG w).comp ((resample_measurable c i).comp (measurable_const.prodMk measurable_id))
      rw [resamples, resampled, ← quant_law hΦ, lintegral_map hm2 (quant_measurable Φ)]

end Probayes
