/-
C86, with limits: what is drawn for one variable, for independent variables, and what is
not kept.
-/
import Verif.Props.Gibbs
import Mathlib.Probability.CDF
import Mathlib.Probability.ConditionalProbability

namespace Probayes

open MeasureTheory ProbabilityTheory CondCov Filter Topology

/-! ### The normal distribution function exists -/

theorem cdf_normal_strict : StrictMono (cdf (gaussianReal 0 1)) := by
  intro x y h
  rw [cdf_eq_real, cdf_eq_real]
  have h1 : (gaussianReal 0 1) (Set.Ioo x y) ≠ 0 := by
    intro h0
    have := gaussianReal_absolutelyContinuous' 0 (v := 1) one_ne_zero h0
    rw [Real.volume_Ioo] at this
    simp at this
    linarith
  have h2 : Set.Iic y = Set.Iic x ∪ Set.Ioc x y := (Set.Iic_union_Ioc_eq_Iic h.le).symm
  rw [h2, measureReal_union (Set.Iic_disjoint_Ioc le_rfl) measurableSet_Ioc]
  have h3 : 0 < (gaussianReal 0 1).real (Set.Ioc x y) := by
    rw [measureReal_def, ENNReal.toReal_pos_iff]
    exact ⟨(pos_iff_ne_zero.mpr h1).trans_le (measure_mono Set.Ioo_subset_Ioc_self), measure_lt_top _ _⟩
  linarith

theorem cdf_normal_continuous : Continuous (cdf (gaussianReal 0 1)) := by
  rw [continuous_iff_continuousAt]
  intro x
  rw [(cdf (gaussianReal 0 1)).mono.continuousAt_iff_leftLim_eq_rightLim]
  have h : (cdf (gaussianReal 0 1)).measure {x} = 0 := by
    rw [measure_cdf]
    exact gaussianReal_absolutelyContinuous 0 one_ne_zero (by simp)
  rw [StieltjesFunction.measure_singleton, ENNReal.ofReal_eq_zero, sub_nonpos] at h
  rw [(cdf (gaussianReal 0 1)).rightLim_eq]
  exact le_antisymm ((cdf (gaussianReal 0 1)).mono.leftLim_le le_rfl) h

theorem exists_normal : ∃ Φ, Spec.IsNormal Φ := by
  set F := cdf (gaussianReal 0 1) with hF
  have hlt : ∀ x, F x < 1 := fun x => (cdf_normal_strict (lt_add_one x)).trans_le (cdf_le_one _ _)
  have hpos : ∀ x, 0 < F x := fun x => (cdf_nonneg _ _).trans_lt (cdf_normal_strict (sub_one_lt x))
  let f : EReal → Set.Icc (0 : ℝ) 1 := fun z =>
    EReal.rec (motive := fun _ => Set.Icc (0 : ℝ) 1) ⊥ (fun x => ⟨F x, (hpos x).le, (hlt x).le⟩) ⊤ z
  have hc : ∀ x : ℝ, f x = ⟨F x, (hpos x).le, (hlt x).le⟩ := fun _ => rfl
  have hb : f ⊥ = ⊥ := rfl
  have ht : f ⊤ = ⊤ := rfl
  have hm : StrictMono f := by
    intro a b hab
    induction a using EReal.rec with
    | bot =>
        induction b using EReal.rec with
        | bot => simp at hab
        | top => exact bot_lt_top
        | coe b => rw [hb, hc]; exact hpos b
    | top => simp at hab
    | coe a =>
        induction b using EReal.rec with
        | bot => simp at hab
        | top => rw [ht, hc]; exact hlt a
        | coe b =>
            rw [hc, hc]
            exact cdf_normal_strict (EReal.coe_lt_coe_iff.mp hab)
  have hs : Function.Surjective f := by
    intro v
    rcases eq_or_ne v ⊥ with rfl | h0
    · exact ⟨⊥, rfl⟩
    rcases eq_or_ne v ⊤ with rfl | h1
    · exact ⟨⊤, rfl⟩
    have h0' : (0 : ℝ) < v := bot_lt_iff_ne_bot.mpr h0
    have h1' : (v : ℝ) < 1 := lt_top_iff_ne_top.mpr h1
    obtain ⟨a, ha⟩ := ((tendsto_cdf_atBot (gaussianReal 0 1)).eventually_lt_const h0').exists
    obtain ⟨b, hb⟩ := ((tendsto_cdf_atTop (gaussianReal 0 1)).eventually_const_lt h1').exists
    obtain ⟨x, hx⟩ := mem_range_of_exists_le_of_exists_ge cdf_normal_continuous ⟨a, ha.le⟩ ⟨b, hb.le⟩
    exact ⟨x, Subtype.ext hx⟩
  refine ⟨hm.orderIsoOfSurjective f hs, fun x => ?_⟩
  rw [← cdf_eq_real]
  rfl

/-! ### Places within limits -/

/-- The limits of a variable, about its mean, in conditional standard deviations. -/
noncomputable def stdLims {n : ℕ} (c : CondCov n) (i : Fin (n + 1)) : EReal × EReal :=
  (((c.lims i).1 - (c.mean i : EReal)) / (c.stdv i : EReal), ((c.lims i).2 - (c.mean i : EReal)) / (c.stdv i : EReal))

theorem stdLims_le {n : ℕ} (c : CondCov n) (i : Fin (n + 1)) (hs : 0 < c.stdv i) (a : EReal) (z : ℝ) :
    ((a - (c.mean i : EReal)) / (c.stdv i : EReal) ≤ (z : EReal) ↔ a ≤ ((c.mean i + c.stdv i * z : ℝ) : EReal)) ∧
      ((z : EReal) ≤ (a - (c.mean i : EReal)) / (c.stdv i : EReal) ↔ ((c.mean i + c.stdv i * z : ℝ) : EReal) ≤ a) := by
  have hs' : (0 : EReal) < (c.stdv i : EReal) := by exact_mod_cast hs
  induction a using EReal.rec with
  | bot =>
      rw [EReal.bot_sub, EReal.bot_div_of_pos_ne_top hs' (EReal.coe_ne_top _)]
      constructor
      · simp
      · simp only [le_bot_iff, EReal.coe_ne_bot]
  | top =>
      rw [EReal.top_sub_coe, EReal.top_div_of_pos_ne_top hs' (EReal.coe_ne_top _)]
      constructor
      · simp only [top_le_iff, EReal.coe_ne_top]
      · simp
  | coe a =>
      rw [← EReal.coe_sub, ← EReal.coe_div]
      simp only [EReal.coe_le_coe_iff]
      rw [div_le_iff₀ hs, le_div_iff₀ hs]
      constructor <;> constructor <;> intro h <;> nlinarith

theorem stdLims_lt {n : ℕ} (c : CondCov n) (i : Fin (n + 1)) (hs : 0 < c.stdv i)
    (h : (c.lims i).1 < (c.lims i).2) : (stdLims c i).1 < (stdLims c i).2 := by
  by_contra h2
  rw [not_lt] at h2
  have hs' : (0 : EReal) ≤ (c.stdv i : EReal) := by exact_mod_cast hs.le
  have h3 := add_le_add (le_refl ((c.mean i + 0 : ℝ) : EReal)) (mul_le_mul_of_nonneg_left h2 hs')
  rw [stdLims, affine_cancel _ _ _ _ hs, affine_cancel _ _ _ _ hs] at h3
  simp only [EReal.coe_zero, add_zero] at h3
  exact absurd h (not_lt.mpr h3)

theorem place_mem {n : ℕ} (Φ : EReal ≃o Set.Icc (0 : ℝ) 1) (c : CondCov n) (i : Fin (n + 1)) (hs : 0 < c.stdv i)
    (h : (c.lims i).1 < (c.lims i).2) {u : ℝ} (hu : u ∈ Set.Ioo (0 : ℝ) 1) :
    place Φ c i u ∈ Set.Ioo (c.cdfs Φ i).1 (c.cdfs Φ i).2 ∧ place Φ c i u ∈ Set.Ioo (0 : ℝ) 1 := by
  have hlt : (c.cdfs Φ i).1 < (c.cdfs Φ i).2 := by
    have := Φ.strictMono (stdLims_lt c i hs h)
    exact this
  have h0 : 0 ≤ (c.cdfs Φ i).1 := (Φ _).2.1
  have h1 : (c.cdfs Φ i).2 ≤ 1 := (Φ _).2.2
  have hp : place Φ c i u ∈ Set.Ioo (c.cdfs Φ i).1 (c.cdfs Φ i).2 := by
    unfold place
    constructor <;> nlinarith [hu.1, hu.2]
  exact ⟨hp, by linarith [hp.1], by linarith [hp.2]⟩

/-- What a draw gives before the conditional mean is added is within the limits. -/
theorem quant_place {n : ℕ} (Φ : EReal ≃o Set.Icc (0 : ℝ) 1) (c : CondCov n) (i : Fin (n + 1)) (hs : 0 < c.stdv i)
    {v : ℝ} (hv : v ∈ Set.Ioo (0 : ℝ) 1) :
    ((c.lims i).1 ≤ ((c.mean i + c.stdv i * quant Φ v : ℝ) : EReal) ∧
      ((c.mean i + c.stdv i * quant Φ v : ℝ) : EReal) ≤ (c.lims i).2) ↔
      v ∈ Set.Icc (c.cdfs Φ i).1 (c.cdfs Φ i).2 := by
  rw [← (stdLims_le c i hs _ _).1, ← (stdLims_le c i hs _ _).2, ← quant_coe Φ hv, OrderIso.le_symm_apply,
    OrderIso.symm_apply_le]
  exact Iff.rfl

/-- The values within the limits of a variable. -/
def Spec.limits {n : ℕ} (c : CondCov n) (i : Fin (n + 1)) : Set ℝ :=
  {z : ℝ | (c.lims i).1 ≤ (z : EReal) ∧ (z : EReal) ≤ (c.lims i).2}

theorem limits_measurable {n : ℕ} (c : CondCov n) (i : Fin (n + 1)) : MeasurableSet (Spec.limits c i) :=
  (measurableSet_le measurable_const measurable_coe_real_ereal).inter
    (measurableSet_le measurable_coe_real_ereal measurable_const)

theorem place_measurable {n : ℕ} (Φ : EReal ≃o Set.Icc (0 : ℝ) 1) (c : CondCov n) (i : Fin (n + 1)) :
    Measurable (place Φ c i) := by
  unfold place
  fun_prop

theorem drawn_measurable {n : ℕ} (Φ : EReal ≃o Set.Icc (0 : ℝ) 1) (c : CondCov n) (i : Fin (n + 1)) :
    Measurable fun u => c.mean i + c.stdv i * quant Φ (place Φ c i u) := by
  have h := (quant_measurable Φ).comp (place_measurable Φ c i)
  exact measurable_const.add (measurable_const.mul h)

theorem affine_law (m s : ℝ) : (gaussianReal 0 1).map (fun z => m + s * z) = gaussianReal m (s ^ 2).toNNReal := by
  have : (fun z : ℝ => m + s * z) = (m + ·) ∘ (s * ·) := rfl
  rw [this, ← Measure.map_map (by fun_prop) (by fun_prop), gaussianReal_map_const_mul, gaussianReal_map_const_add]
  congr 1
  · simp
  · rw [mul_one]
    ext
    simp [sq_nonneg]

/-- The values drawn, before the conditional mean's displacement is added, follow the normal
distribution of the variable's mean and its conditional variance within the limits. -/
theorem drawn_law {n : ℕ} {Φ : EReal ≃o Set.Icc (0 : ℝ) 1} (hΦ : Spec.IsNormal Φ) (c : CondCov n) (i : Fin (n + 1))
    (hs : 0 < c.stdv i) (h : (c.lims i).1 < (c.lims i).2) :
    unitLaw.map (fun u => c.mean i + c.stdv i * quant Φ (place Φ c i u)) =
      (gaussianReal (c.mean i) (c.stdv i ^ 2).toNNReal)[|Spec.limits c i] := by
  set a := (c.cdfs Φ i).1 with ha
  set b := (c.cdfs Φ i).2 with hb
  have hab : a < b := by
    have := Φ.strictMono (stdLims_lt c i hs h)
    exact this
  have h0 : 0 ≤ a := (Φ _).2.1
  have h1 : b ≤ 1 := (Φ _).2.2
  set f : ℝ → ℝ := fun v => c.mean i + c.stdv i * quant Φ v with hf
  have hfm : Measurable f := measurable_const.add (measurable_const.mul (quant_measurable Φ))
  have hlaw : unitLaw.map f = gaussianReal (c.mean i) (c.stdv i ^ 2).toNNReal := by
    rw [← affine_law, ← quant_law hΦ, Measure.map_map (by fun_prop) (quant_measurable Φ)]
    rfl
  have key : ∀ S, MeasurableSet S → gaussianReal (c.mean i) (c.stdv i ^ 2).toNNReal (Spec.limits c i ∩ S) =
      volume (Set.Ioo a b ∩ f ⁻¹' S) := by
    intro S hS
    rw [← hlaw, Measure.map_apply hfm ((limits_measurable c i).inter hS), unitLaw_Ioo,
      Measure.restrict_apply (hfm ((limits_measurable c i).inter hS))]
    have e1 : f ⁻¹' (Spec.limits c i ∩ S) ∩ Set.Ioo 0 1 = Set.Icc a b ∩ Set.Ioo 0 1 ∩ f ⁻¹' S := by
      ext v
      simp only [Set.mem_inter_iff, Set.mem_preimage]
      constructor
      · rintro ⟨⟨hl, hS⟩, hv⟩
        exact ⟨⟨(quant_place Φ c i hs hv).mp hl, hv⟩, hS⟩
      · rintro ⟨⟨hl, hv⟩, hS⟩
        exact ⟨⟨(quant_place Φ c i hs hv).mpr hl, hS⟩, hv⟩
    rw [e1]
    refine measure_congr ?_
    have e2 : (Set.Icc a b ∩ Set.Ioo 0 1 : Set ℝ) =ᵐ[volume] (Set.Ioo a b : Set ℝ) := by
      have : (Set.Ioo a b ∩ Set.Ioo 0 1 : Set ℝ) = Set.Ioo a b :=
        Set.inter_eq_left.mpr fun v hv => ⟨h0.trans_lt hv.1, hv.2.trans_le h1⟩
      rw [← this]
      exact (Ioo_ae_eq_Icc.symm).inter (ae_eq_refl _)
    exact e2.inter (ae_eq_refl _)
  have htot : gaussianReal (c.mean i) (c.stdv i ^ 2).toNNReal (Spec.limits c i) = ENNReal.ofReal (b - a) := by
    have := key Set.univ MeasurableSet.univ
    rw [Set.inter_univ, Set.preimage_univ, Set.inter_univ, Real.volume_Ioo] at this
    exact this
  refine Measure.ext fun S hS => ?_
  rw [cond_apply (limits_measurable c i), key S hS, htot, Measure.map_apply (drawn_measurable Φ c i) hS, unitLaw_Ioo,
    Measure.restrict_apply (drawn_measurable Φ c i hS)]
  have hba : 0 < b - a := sub_pos.mpr hab
  have e3 : (fun u => c.mean i + c.stdv i * quant Φ (place Φ c i u)) ⁻¹' S ∩ Set.Ioo 0 1 =
      ((b - a) * ·) ⁻¹' ((a + ·) ⁻¹' (Set.Ioo a b ∩ f ⁻¹' S)) := by
    ext u
    simp only [Set.mem_inter_iff, Set.mem_preimage, Set.mem_Ioo]
    constructor
    · rintro ⟨h2, h3, h4⟩
      exact ⟨⟨by nlinarith, by nlinarith⟩, h2⟩
    · rintro ⟨⟨h3, h4⟩, h2⟩
      refine ⟨h2, by nlinarith, by nlinarith⟩
  rw [e3, Real.volume_preimage_mul_left hba.ne', measure_preimage_add, abs_of_pos (inv_pos.mpr hba),
    ENNReal.ofReal_inv_of_pos hba]

/-! ### The first sample -/

theorem place_ae {n : ℕ} (Φ : EReal ≃o Set.Icc (0 : ℝ) 1) (c : CondCov n) (hs : ∀ i, 0 < c.stdv i)
    (h : ∀ i, (c.lims i).1 < (c.lims i).2) :
    ∀ᵐ u ∂cubeLaw (n + 1), ∀ i, place Φ c i (u i) ∈ Set.Ioo (c.cdfs Φ i).1 (c.cdfs Φ i).2 ∧
      place Φ c i (u i) ∈ Set.Ioo (0 : ℝ) 1 := by
  filter_upwards [cube_Ioo (n + 1)] with u hu i
  exact place_mem Φ c i (hs i) (h i) (hu i)

theorem onward_zero {n : ℕ} (names : Fin (n + 1) → Str)
    (P : Proc (Option ℕ) (Row (Dict Str (Option ℝ))) (Fin (n + 1) → ℝ)) (A : Set (Fin (n + 1) → ℝ)) (st : Option ℕ)
    {l : OPQR (Row (Dict Str (Option ℝ)))} {x : Fin (n + 1) → ℝ} (h : Spec.SitsAt l (Spec.dictOf names x)) :
    Spec.onward names P A 0 st l = A.indicator 1 x := by
  simp only [Spec.onward]
  by_cases hx : x ∈ A
  · rw [Set.indicator_of_mem hx]
    exact if_pos ⟨x, hx, h.1⟩
  · rw [Set.indicator_of_notMem hx]
    refine if_neg ?_
    rintro ⟨y, hy, h2⟩
    exact hx (point_injective names (Option.some.inj (h.1.symm.trans h2)) ▸ hy)

theorem sampled_zero {n : ℕ} (Φ : EReal ≃o Set.Icc (0 : ℝ) 1) (c : CondCov n) (hs : ∀ i, 0 < c.stdv i)
    (hl : ∀ i, (c.lims i).1 < (c.lims i).2) {names : Fin (n + 1) → Str} (hn : Function.Injective names)
    (π : Equiv.Perm (Fin (n + 1))) (tsteps : ℕ) (tran : ℝ) (prob : Dict Str (Option ℝ) → ℝ)
    (A : Set (Fin (n + 1) → ℝ)) (st : Option ℕ) (x : Fin (n + 1) → ℝ) :
    Spec.sampled names (gibbsProc names Φ c tsteps tran prob (Spec.dictOf (names ∘ π) x)) A 0 st =
      ∫⁻ u, A.indicator 1 (resampleBy Φ c (fun i => place Φ c i (u i)) (due n tsteps st).1 x ∘ π.symm)
        ∂cubeLaw (n + 1) := by
  unfold Spec.sampled Spec.means
  refine lintegral_congr_ae ?_
  filter_upwards [place_ae Φ c hs hl] with u hu
  obtain ⟨h1, l', h2, h3⟩ := next_place Φ c hn π tsteps tran prob _ u (fun i => (hu i).2) x st none rfl
  simp only [h1, h2, Option.map_some, Option.getD_some]
  exact onward_zero names _ A _ h3

theorem due_one (n : ℕ) (i : Fin (n + 1)) : (due n 1 (some i)).1 = [i] := by
  simp only [due, tfunBlock, one_ne_zero, if_false, Option.getD_some]
  rw [List.take_one_drop_eq_of_lt_length (by simpa using Nat.lt_succ_iff.mp i.2)]
  simp

theorem coef_best {n : ℕ} (c : CondCov n) (hc : Spec.IsCov c.cov) (i : Fin (n + 1)) {β : Fin n → ℝ}
    (hβ : ∀ w, Spec.errVar c.cov i β ≤ Spec.errVar c.cov i w) : β = c.coef i := by
  obtain ⟨_, h2, h3⟩ := C50_best_predictor c hc i
  by_contra h
  have := h3 β h
  rw [h2] at this
  exact absurd (hβ (c.coef i)) (not_le.mpr this)

/-- C86: the variable whose turn it is gets a value from the normal distribution *of its own mean*
and its conditional variance within its limits, moved by the displacement of the
conditional mean, and the others stay.  `β` are the coefficients of the best linear
prediction of the variable by the others. -/
theorem C86_draw {n : ℕ} {Φ : EReal ≃o Set.Icc (0 : ℝ) 1} (hΦ : Spec.IsNormal Φ) (c : CondCov n)
    (hc : Spec.IsCov c.cov) (hl : ∀ i, (c.lims i).1 < (c.lims i).2) {names : Fin (n + 1) → Str}
    (hn : Function.Injective names) (tran : ℝ) (prob : Dict Str (Option ℝ) → ℝ) (x : Fin (n + 1) → ℝ)
    (i : Fin (n + 1)) (β : Fin n → ℝ) (hβ : ∀ w, Spec.errVar c.cov i β ≤ Spec.errVar c.cov i w) (B : Set ℝ)
    (hB : MeasurableSet B) :
    Spec.sampled names (gibbsProc names Φ c 1 tran prob (Spec.dictOf names x))
        {y | y i ∈ B ∧ ∀ j, j ≠ i → y j = x j} 0 (some i) =
      (gaussianReal (c.mean i) (Spec.errVar c.cov i β).toNNReal)[|Spec.limits c i]
        {z | z + ∑ j, β j * (x (i.succAbove j) - c.mean (i.succAbove j)) ∈ B} := by
  have hs : ∀ i, 0 < c.stdv i := fun i => (stdv_sq c hc i).1
  have hβ' := coef_best c hc i hβ
  subst hβ'
  rw [← (stdv_sq c hc i).2, ← drawn_law hΦ c i (hs i) (hl i)]
  have h0 := sampled_zero Φ c hs hl hn 1 1 tran prob {y | y i ∈ B ∧ ∀ j, j ≠ i → y j = x j} (some i) x
  rw [due_one] at h0
  refine Eq.trans h0 ?_
  have hBm : MeasurableSet {z | z + ∑ j, c.coef i j * (x (i.succAbove j) - c.mean (i.succAbove j)) ∈ B} :=
    (measurable_id.add_const _) hB
  rw [Measure.map_apply (drawn_measurable Φ c i) hBm]
  set g : ℝ → ENNReal := fun a => ((fun u => c.mean i + c.stdv i * quant Φ (place Φ c i u)) ⁻¹'
    {z | z + ∑ j, c.coef i j * (x (i.succAbove j) - c.mean (i.succAbove j)) ∈ B}).indicator 1 a with hg
  have hgm : Measurable g := measurable_one.indicator (drawn_measurable Φ c i hBm)
  have h1 : ∀ u : Fin (n + 1) → ℝ, ({y : Fin (n + 1) → ℝ | y i ∈ B ∧ ∀ j, j ≠ i → y j = x j}).indicator
      (1 : (Fin (n + 1) → ℝ) → ENNReal)
      (resampleBy Φ c (fun i => place Φ c i (u i)) [i] x ∘ (1 : Equiv.Perm (Fin (n + 1))).symm) = g (u i) := by
    intro u
    have e : resampleBy Φ c (fun i => place Φ c i (u i)) [i] x ∘ (1 : Equiv.Perm (Fin (n + 1))).symm =
        Function.update x i (c.mean i + c.shift i (fun j => x (i.succAbove j)) + c.stdv i * quant Φ (place Φ c i (u i))) :=
      rfl
    rw [e, hg]
    have e2 : c.mean i + c.shift i (fun j => x (i.succAbove j)) + c.stdv i * quant Φ (place Φ c i (u i)) =
        c.mean i + c.stdv i * quant Φ (place Φ c i (u i)) +
          ∑ j, c.coef i j * (x (i.succAbove j) - c.mean (i.succAbove j)) := by
      rw [CondCov.shift]
      ring
    have e3 : ∀ j, j ≠ i → ∀ a, Function.update x i a j = x j := fun j hj a => Function.update_of_ne hj _ _
    rw [e2]
    by_cases hb : c.mean i + c.stdv i * quant Φ (place Φ c i (u i)) +
          ∑ j, c.coef i j * (x (i.succAbove j) - c.mean (i.succAbove j)) ∈ B
    · refine (Set.indicator_of_mem ?_ _).trans (Set.indicator_of_mem (a := u i) ?_ (1 : ℝ → ENNReal)).symm
      · exact ⟨by rw [Function.update_self]; exact hb, fun j hj => e3 j hj _⟩
      · exact hb
    · refine (Set.indicator_of_notMem ?_ _).trans (Set.indicator_of_notMem (a := u i) ?_ (1 : ℝ → ENNReal)).symm
      · rintro ⟨h, _⟩
        rw [Function.update_self] at h
        exact hb h
      · exact hb
  simp only [h1]
  rw [cubeLaw_pi, (measurePreserving_eval (fun _ : Fin (n + 1) => unitLaw) i).lintegral_comp hgm, hg,
    lintegral_indicator_one (drawn_measurable Φ c i hBm)]

/-- C86: without limits that is its conditional distribution given the others. -/
theorem C86_conditional {n : ℕ} {Φ : EReal ≃o Set.Icc (0 : ℝ) 1} (hΦ : Spec.IsNormal Φ) (c : CondCov n)
    (hc : Spec.IsCov c.cov) (hl : Spec.Unlimited c) {names : Fin (n + 1) → Str}
    (hn : Function.Injective names) (tran : ℝ) (prob : Dict Str (Option ℝ) → ℝ) (x : Fin (n + 1) → ℝ)
    (i : Fin (n + 1)) (β : Fin n → ℝ) (hβ : ∀ w, Spec.errVar c.cov i β ≤ Spec.errVar c.cov i w) (B : Set ℝ)
    (hB : MeasurableSet B) :
    Spec.sampled names (gibbsProc names Φ c 1 tran prob (Spec.dictOf names x))
        {y | y i ∈ B ∧ ∀ j, j ≠ i → y j = x j} 0 (some i) =
      gaussianReal (c.mean i + ∑ j, β j * (x (i.succAbove j) - c.mean (i.succAbove j)))
        (Spec.errVar c.cov i β).toNNReal B := by
  rw [C86_draw hΦ c hc (fun i => by rw [hl i]; exact bot_lt_top) hn tran prob x i β hβ B hB]
  have hu : Spec.limits c i = Set.univ := by
    ext z
    simp [Spec.limits, hl i]
  rw [hu, cond_univ, ← gaussianReal_map_add_const, Measure.map_apply (by fun_prop) hB]
  rfl

/-! ### Limits -/

/-- All values are within the limits. -/
def Spec.allWithin {n : ℕ} (c : CondCov n) : Set (Fin (n + 1) → ℝ) := {y | ∀ i, y i ∈ Spec.limits c i}

/-- C86 claim: from a start within the limits, samples are within the limits. -/
def C86_within_claim : Prop :=
  ∀ (n : ℕ) (Φ : EReal ≃o Set.Icc (0 : ℝ) 1), Spec.IsNormal Φ → ∀ c : CondCov n, Spec.IsCov c.cov →
    (∀ i, (c.lims i).1 < (c.lims i).2) → ∀ names : Fin (n + 1) → Str, Function.Injective names →
    ∀ (tsteps : ℕ) (tran : ℝ) (prob : Dict Str (Option ℝ) → ℝ) (st : Option ℕ) (k : ℕ) (x : Fin (n + 1) → ℝ),
    x ∈ Spec.allWithin c →
    Spec.sampled names (gibbsProc names Φ c tsteps tran prob (Spec.dictOf names x)) (Spec.allWithin c) k st = 1

theorem coef_zero {n : ℕ} (c : CondCov n) (h0 : ∀ i j, i ≠ j → c.cov i j = 0) (i : Fin (n + 1)) (j : Fin n) :
    c.coef i j = 0 := by
  simp [coef, h0 i _ (Fin.succAbove_ne i _).symm]

theorem stdv_zero {n : ℕ} (c : CondCov n) (h0 : ∀ i j, i ≠ j → c.cov i j = 0) (i : Fin (n + 1)) :
    c.stdv i = Real.sqrt (c.cov i i) := by
  simp [stdv, coef_zero c h0]

theorem resampleBy_within {n : ℕ} (Φ : EReal ≃o Set.Icc (0 : ℝ) 1) (c : CondCov n) (hs : ∀ i, 0 < c.stdv i)
    (h0 : ∀ i j, i ≠ j → c.cov i j = 0) (v : Fin (n + 1) → ℝ)
    (hv : ∀ i, v i ∈ Set.Ioo (c.cdfs Φ i).1 (c.cdfs Φ i).2 ∧ v i ∈ Set.Ioo (0 : ℝ) 1) (w : List (Fin (n + 1)))
    (x : Fin (n + 1) → ℝ) (hx : x ∈ Spec.allWithin c) : resampleBy Φ c v w x ∈ Spec.allWithin c := by
  induction w generalizing x with
  | nil => exact hx
  | cons i w ih =>
      refine ih _ fun j => ?_
      by_cases hj : j = i
      · subst hj
        have := (quant_place Φ c j (hs j) (hv j).2).mpr (Set.Ioo_subset_Icc_self (hv j).1)
        simpa [resample, CondCov.shift, coef_zero c h0, Spec.limits] using this
      · rw [resample, Function.update_of_ne hj]
        exact hx j

theorem onward_within {n : ℕ} (Φ : EReal ≃o Set.Icc (0 : ℝ) 1) (c : CondCov n) (hs : ∀ i, 0 < c.stdv i)
    (hl : ∀ i, (c.lims i).1 < (c.lims i).2) (h0 : ∀ i j, i ≠ j → c.cov i j = 0) {names : Fin (n + 1) → Str}
    (hn : Function.Injective names) (tsteps : ℕ) (tran : ℝ) (prob : Dict Str (Option ℝ) → ℝ)
    (start : Dict Str (Option ℝ)) (k : ℕ) : ∀ (st : Option ℕ) (l : OPQR (Row (Dict Str (Option ℝ))))
      (x : Fin (n + 1) → ℝ), Spec.SitsAt l (Spec.dictOf names x) → x ∈ Spec.allWithin c →
      Spec.onward names (gibbsProc names Φ c tsteps tran prob start) (Spec.allWithin c) k st l = 1 := by
  induction k with
  | zero =>
      intro st l x h hx
      rw [onward_zero names _ _ st h, Set.indicator_of_mem hx]
      rfl
  | succ k ih =>
      intro st l x h hx
      have : ∀ᵐ u ∂cubeLaw (n + 1), Spec.onward names (gibbsProc names Φ c tsteps tran prob start) (Spec.allWithin c) k
          (nextCore (gibbsProc names Φ c tsteps tran prob start) (some l) u st).1
          ((nextCore (gibbsProc names Φ c tsteps tran prob start) (some l) u st).2.1.getD l) = 1 := by
        filter_upwards [place_ae Φ c hs hl] with u hu
        obtain ⟨h1, l', h2, h3⟩ := next_place Φ c hn 1 tsteps tran prob start u (fun i => (hu i).2) x st (some l)
          (by exact h)
        rw [h1, h2, Option.getD_some]
        exact ih _ _ _ h3 (resampleBy_within Φ c hs h0 _ hu _ x hx)
      simp only [Spec.onward]
      unfold Spec.means
      rw [lintegral_congr_ae this, lintegral_one]
      exact cubeLaw_univ _

/-- C86, what holds: samples of uncorrelated variables stay within their limits. -/
theorem C86_within_partial {n : ℕ} {Φ : EReal ≃o Set.Icc (0 : ℝ) 1} (c : CondCov n)
    (hc : Spec.IsCov c.cov) (hl : ∀ i, (c.lims i).1 < (c.lims i).2) (h0 : ∀ i j, i ≠ j → c.cov i j = 0)
    {names : Fin (n + 1) → Str} (hn : Function.Injective names) (tsteps : ℕ) (tran : ℝ)
    (prob : Dict Str (Option ℝ) → ℝ) (st : Option ℕ) (k : ℕ) (x : Fin (n + 1) → ℝ) (hx : x ∈ Spec.allWithin c) :
    Spec.sampled names (gibbsProc names Φ c tsteps tran prob (Spec.dictOf names x)) (Spec.allWithin c) k st = 1 := by
  have hs : ∀ i, 0 < c.stdv i := fun i => (stdv_sq c hc i).1
  have : ∀ᵐ u ∂cubeLaw (n + 1), ((nextCore (gibbsProc names Φ c tsteps tran prob (Spec.dictOf names x)) none u st).2.1.map
      (Spec.onward names (gibbsProc names Φ c tsteps tran prob (Spec.dictOf names x)) (Spec.allWithin c) k
        (nextCore (gibbsProc names Φ c tsteps tran prob (Spec.dictOf names x)) none u st).1)).getD 0 = 1 := by
    filter_upwards [place_ae Φ c hs hl] with u hu
    obtain ⟨h1, l', h2, h3⟩ := next_place Φ c hn 1 tsteps tran prob (Spec.dictOf names x) u (fun i => (hu i).2) x st none rfl
    rw [h1, h2, Option.map_some, Option.getD_some]
    exact onward_within Φ c hs hl h0 hn tsteps tran prob _ k _ _ _ h3 (resampleBy_within Φ c hs h0 _ hu _ x hx)
  unfold Spec.sampled Spec.means
  rw [lintegral_congr_ae this, lintegral_one]
  exact cubeLaw_univ _

/-! ### Independent variables -/

theorem resampleBy_zero {n : ℕ} (Φ : EReal ≃o Set.Icc (0 : ℝ) 1) (c : CondCov n)
    (h0 : ∀ i j, i ≠ j → c.cov i j = 0) (v : Fin (n + 1) → ℝ) (w : List (Fin (n + 1)))
    (x : Fin (n + 1) → ℝ) (i : Fin (n + 1)) :
    resampleBy Φ c v w x i = if i ∈ w then c.mean i + c.stdv i * quant Φ (v i) else x i := by
  induction w generalizing x with
  | nil => simp [resampleBy]
  | cons j w ih =>
      simp only [resampleBy]
      rw [ih]
      by_cases hw : i ∈ w
      · simp [hw]
      · by_cases hj : i = j
        · subst hj
          simp [hw, resample, CondCov.shift, coef_zero c h0]
        · simp [hw, hj, resample]

theorem draws_law {n : ℕ} {Φ : EReal ≃o Set.Icc (0 : ℝ) 1} (hΦ : Spec.IsNormal Φ) (c : CondCov n)
    (hs : ∀ i, 0 < c.stdv i) (hl : ∀ i, (c.lims i).1 < (c.lims i).2) :
    (cubeLaw (n + 1)).map (fun u i => c.mean i + c.stdv i * quant Φ (place Φ c i (u i))) =
      Measure.pi fun i => (gaussianReal (c.mean i) (c.stdv i ^ 2).toNNReal)[|Spec.limits c i] := by
  have : ∀ i, IsProbabilityMeasure (unitLaw.map fun u => c.mean i + c.stdv i * quant Φ (place Φ c i u)) := fun i =>
    Measure.isProbabilityMeasure_map (drawn_measurable Φ c i).aemeasurable
  have h2 : ∀ i, (gaussianReal (c.mean i) (c.stdv i ^ 2).toNNReal)[|Spec.limits c i] =
      unitLaw.map (fun u => c.mean i + c.stdv i * quant Φ (place Φ c i u)) := fun i => (drawn_law hΦ c i (hs i) (hl i)).symm
  simp only [h2]
  rw [cubeLaw_pi]
  exact Measure.pi_map_pi fun i => (drawn_measurable Φ c i).aemeasurable

/-- C86: when all of the uncorrelated variables are sampled at each step, every sample is of
independent normal values within the limits. -/
theorem C86_independent {n : ℕ} {Φ : EReal ≃o Set.Icc (0 : ℝ) 1} (hΦ : Spec.IsNormal Φ) (c : CondCov n)
    (hc : Spec.IsCov c.cov) (hl : ∀ i, (c.lims i).1 < (c.lims i).2) (h0 : ∀ i j, i ≠ j → c.cov i j = 0)
    {names : Fin (n + 1) → Str} (hn : Function.Injective names) (tran : ℝ)
    (prob : Dict Str (Option ℝ) → ℝ) (st : Option ℕ) (k : ℕ) (x : Fin (n + 1) → ℝ) (A : Set (Fin (n + 1) → ℝ))
    (hA : MeasurableSet A) :
    Spec.sampled names (gibbsProc names Φ c 0 tran prob (Spec.dictOf names x)) A k st =
      (Measure.pi fun i => (gaussianReal (c.mean i) (c.cov i i).toNNReal)[|Spec.limits c i]) A := by
  have hs : ∀ i, 0 < c.stdv i := fun i => (stdv_sq c hc i).1
  have hsq : ∀ i, c.cov i i = c.stdv i ^ 2 := by
    intro i
    have := hs i
    rw [stdv_zero c h0] at this ⊢
    exact (Real.sq_sqrt (Real.sqrt_pos.mp this).le).symm
  simp only [hsq]
  rw [← draws_law hΦ c hs hl]
  have hym : Measurable fun (u : Fin (n + 1) → ℝ) i => c.mean i + c.stdv i * quant Φ (place Φ c i (u i)) :=
    measurable_pi_iff.mpr fun i => (drawn_measurable Φ c i).comp (measurable_pi_apply i)
  rw [Measure.map_apply hym hA, ← lintegral_indicator_one (hym hA)]
  have hd : ∀ st, (due n 0 st).1 = List.finRange (n + 1) := fun st => by simp [due, tfunBlock]
  have hr : ∀ (v y : Fin (n + 1) → ℝ) (st : Option ℕ), resampleBy Φ c v (due n 0 st).1 y =
      fun i => c.mean i + c.stdv i * quant Φ (v i) := by
    intro v y st
    funext i
    rw [resampleBy_zero Φ c h0, hd, if_pos (List.mem_finRange i)]
  have hon : ∀ k st l y, Spec.SitsAt l (Spec.dictOf names y) →
      Spec.onward names (gibbsProc names Φ c 0 tran prob (Spec.dictOf names x)) A (k + 1) st l =
        ∫⁻ u, ((fun (u : Fin (n + 1) → ℝ) i => c.mean i + c.stdv i * quant Φ (place Φ c i (u i))) ⁻¹' A).indicator 1 u
          ∂cubeLaw (n + 1) := by
    intro k
    induction k with
    | zero =>
        intro st l y h
        rw [Spec.onward]
        unfold Spec.means
        refine lintegral_congr_ae ?_
        filter_upwards [place_ae Φ c hs hl] with u hu
        obtain ⟨h1, l', h2, h3⟩ := next_place Φ c hn 1 0 tran prob (Spec.dictOf names x) u (fun i => (hu i).2) y st
          (some l) (by exact h)
        rw [h1, h2, Option.getD_some, onward_zero names _ _ _ h3, hr]
        rfl
    | succ k ih =>
        intro st l y h
        rw [Spec.onward]
        unfold Spec.means
        have : ∀ᵐ u ∂cubeLaw (n + 1), Spec.onward names (gibbsProc names Φ c 0 tran prob (Spec.dictOf names x)) A (k + 1)
            (nextCore (gibbsProc names Φ c 0 tran prob (Spec.dictOf names x)) (some l) u st).1
            ((nextCore (gibbsProc names Φ c 0 tran prob (Spec.dictOf names x)) (some l) u st).2.1.getD l) =
            ∫⁻ u, ((fun (u : Fin (n + 1) → ℝ) i => c.mean i + c.stdv i * quant Φ (place Φ c i (u i))) ⁻¹' A).indicator 1 u
              ∂cubeLaw (n + 1) := by
          filter_upwards [place_ae Φ c hs hl] with u hu
          obtain ⟨h1, l', h2, h3⟩ := next_place Φ c hn 1 0 tran prob (Spec.dictOf names x) u (fun i => (hu i).2) y st
            (some l) (by exact h)
          rw [h1, h2, Option.getD_some, ih _ _ _ h3]
        refine (lintegral_congr_ae this).trans ?_
        rw [lintegral_const, Measure.restrict_apply_univ]
        exact (congrArg _ (show _ = (1 : ENNReal) by simpa [cubeLaw] using cubeLaw_univ (n + 1))).trans (mul_one _)
  cases k with
  | zero =>
      refine Eq.trans (sampled_zero Φ c hs hl hn 1 0 tran prob A st x) ?_
      simp only [hr]
      rfl
  | succ k =>
      unfold Spec.sampled Spec.means
      have : ∀ᵐ u ∂cubeLaw (n + 1), ((nextCore (gibbsProc names Φ c 0 tran prob (Spec.dictOf names x)) none u st).2.1.map
          (Spec.onward names (gibbsProc names Φ c 0 tran prob (Spec.dictOf names x)) A (k + 1)
            (nextCore (gibbsProc names Φ c 0 tran prob (Spec.dictOf names x)) none u st).1)).getD 0 =
          ∫⁻ u, ((fun (u : Fin (n + 1) → ℝ) i => c.mean i + c.stdv i * quant Φ (place Φ c i (u i))) ⁻¹' A).indicator 1 u
            ∂cubeLaw (n + 1) := by
        filter_upwards [place_ae Φ c hs hl] with u hu
        obtain ⟨h1, l', h2, h3⟩ := next_place Φ c hn 1 0 tran prob (Spec.dictOf names x) u (fun i => (hu i).2) x st none rfl
        rw [h1, h2, Option.map_some, Option.getD_some, hon _ _ _ _ h3]
      refine (lintegral_congr_ae this).trans ?_
      rw [lintegral_const, Measure.restrict_apply_univ]
      exact (congrArg _ (show _ = (1 : ENNReal) by simpa [cubeLaw] using cubeLaw_univ (n + 1))).trans (mul_one _)

/-! ### Limits are not kept -/

theorem c50Witness_lims (i : Fin 2) : c50Witness.lims i = (0, 1) := rfl

/-- Two variables of correlation one half limited to `[0, 1]`, started at 0 and 1: the first
variable gets values above 1 with a positive probability. -/
theorem C86_within_claim_fails : ¬ C86_within_claim := by
  intro h
  obtain ⟨Φ, hΦ⟩ := exists_normal
  have hs : ∀ i, 0 < c50Witness.stdv i := fun i => (stdv_sq c50Witness c50Witness_isCov i).1
  have hl : ∀ i, (c50Witness.lims i).1 < (c50Witness.lims i).2 := fun i => by simp [c50Witness_lims]
  set names : Fin 2 → Str := ![['x'], ['y']] with hnames
  have hn : Function.Injective names := by
    intro i j
    fin_cases i <;> fin_cases j <;> simp [hnames]
  have hx : (![0, 1] : Fin 2 → ℝ) ∈ Spec.allWithin c50Witness := by
    intro i
    fin_cases i <;> simp [Spec.limits, c50Witness_lims]
  have h1 := h 1 Φ hΦ c50Witness c50Witness_isCov hl names hn 1 1 (fun _ => 1) (some 0) 0 ![0, 1] hx
  have h2 := sampled_zero Φ c50Witness hs hl hn 1 1 1 (fun _ => 1) (Spec.allWithin c50Witness) (some 0) ![0, 1]
  have hd : (due 1 1 (some 0)).1 = [0] := due_one 1 0
  rw [hd] at h2
  have h3 := h2.symm.trans h1
  have hsh : c50Witness.shift 0 (fun j => (![0, 1] : Fin 2 → ℝ) ((0 : Fin 2).succAbove j)) = 1 / 2 := by
    rw [CondCov.shift, Fin.sum_univ_one, c50Witness_coef]
    simp [c50Witness]
  set σ := c50Witness.stdv 0 with hσ
  have hσ0 : 0 < σ := hs 0
  set a := (c50Witness.cdfs Φ 0).1 with ha
  set b := (c50Witness.cdfs Φ 0).2 with hb
  set t := ((Φ ((1 / 2 / σ : ℝ) : EReal)) : ℝ) with ht
  have hb2 : b = (Φ ((1 / σ : ℝ) : EReal) : ℝ) := by
    rw [hb, cdfs]
    simp only [c50Witness_lims, hσ]
    congr 2
    simp only [c50Witness, Pi.zero_apply, EReal.coe_zero, sub_zero]
    norm_cast
  have htb : t < b := by
    rw [hb2, ht]
    have : ((1 / 2 / σ : ℝ) : EReal) < ((1 / σ : ℝ) : EReal) := by
      rw [EReal.coe_lt_coe_iff]
      exact div_lt_div_of_pos_right (by norm_num) hσ0
    exact Φ.strictMono this
  have hab : a < b := by
    have := Φ.strictMono (stdLims_lt c50Witness 0 (hs 0) (hl 0))
    exact this
  set θ := max 0 ((t - a) / (b - a)) with hθ
  have hθ1 : θ < 1 := by
    rw [hθ, max_lt_iff, div_lt_one (by linarith)]
    exact ⟨one_pos, by linarith⟩
  have hθ0 : 0 ≤ θ := le_max_left _ _
  have hle : ∫⁻ u, (Spec.allWithin c50Witness).indicator 1
      (resampleBy Φ c50Witness (fun i => place Φ c50Witness i (u i)) [0] ![0, 1] ∘ (1 : Equiv.Perm (Fin 2)).symm)
        ∂cubeLaw 2 ≤ ∫⁻ u, (Set.Iic θ).indicator 1 (u 0) ∂cubeLaw 2 := by
    refine lintegral_mono_ae ?_
    filter_upwards [place_ae Φ c50Witness hs hl] with u hu
    by_cases hu0 : u 0 ≤ θ
    · rw [Set.indicator_of_mem (show u 0 ∈ Set.Iic θ from hu0)]
      exact Set.indicator_le_self' (fun _ _ => zero_le_one) _
    · rw [Set.indicator_of_notMem]
      · exact bot_le
      · intro hw
        have h5 := (hw 0).2
        simp only [c50Witness_lims] at h5
        have h6 : (resampleBy Φ c50Witness (fun i => place Φ c50Witness i (u i)) [0] ![0, 1] ∘
            (1 : Equiv.Perm (Fin 2)).symm) 0 = 1 / 2 + σ * quant Φ (place Φ c50Witness 0 (u 0)) := by
          have e : (1 : Equiv.Perm (Fin 2)).symm 0 = 0 := rfl
          have e2 : c50Witness.mean 0 = 0 := rfl
          rw [Function.comp_apply, e]
          simp only [resampleBy, resample, hsh, Function.update_self, e2, zero_add, hσ]
        rw [h6] at h5
        have h7 : 1 / 2 + σ * quant Φ (place Φ c50Witness 0 (u 0)) ≤ 1 := by exact_mod_cast h5
        have h8 : quant Φ (place Φ c50Witness 0 (u 0)) ≤ 1 / 2 / σ := by
          rw [le_div_iff₀ hσ0]
          linarith
        have h9 := (quant_le Φ (hu 0).2).mp h8
        have h10 : u 0 ≤ (t - a) / (b - a) := by
          rw [le_div_iff₀ (by linarith)]
          have : place Φ c50Witness 0 (u 0) = a + (b - a) * u 0 := rfl
          rw [this] at h9
          linarith
        exact hu0 (h10.trans (le_max_right _ _))
  have hm : Measurable ((Set.Iic θ).indicator (1 : ℝ → ENNReal)) := measurable_one.indicator measurableSet_Iic
  have hval : ∫⁻ u, (Set.Iic θ).indicator 1 (u 0) ∂cubeLaw 2 = ENNReal.ofReal θ := by
    rw [cubeLaw_pi]
    refine ((measurePreserving_eval (fun _ : Fin 2 => unitLaw) 0).lintegral_comp hm).trans ?_
    rw [lintegral_indicator_one measurableSet_Iic, unitLaw, Measure.restrict_apply measurableSet_Iic]
    have : Set.Iic θ ∩ Set.Ico 0 1 = Set.Icc 0 θ := by
      ext z
      simp only [Set.mem_inter_iff, Set.mem_Iic, Set.mem_Ico, Set.mem_Icc]
      exact ⟨fun h => ⟨h.2.1, h.1⟩, fun h => ⟨h.2, h.1, h.2.trans_lt hθ1⟩⟩
    rw [this, Real.volume_Icc, sub_zero]
  rw [h3, hval, ENNReal.one_le_ofReal] at hle
  exact absurd hle (not_le.mpr hθ1)

/-! ### The order of the start -/

/-- C86 claim: the order in which the values of the start are given does not matter. -/
def C86_order_claim : Prop :=
  ∀ (n : ℕ) (Φ : EReal ≃o Set.Icc (0 : ℝ) 1), Spec.IsNormal Φ → ∀ c : CondCov n, Spec.IsCov c.cov →
    Spec.Unlimited c → ∀ names : Fin (n + 1) → Str, Function.Injective names →
    ∀ (tran : ℝ) (prob : Dict Str (Option ℝ) → ℝ) (st : Option ℕ) (x : Fin (n + 1) → ℝ) (π : Equiv.Perm (Fin (n + 1)))
      (A : Set (Fin (n + 1) → ℝ)), MeasurableSet A →
    Spec.sampled names (gibbsProc names Φ c 0 tran prob (Spec.dictOf (names ∘ π) (x ∘ π))) A 0 st =
      Spec.sampled names (gibbsProc names Φ c 0 tran prob (Spec.dictOf names x)) A 0 st

/-- Two uncorrelated variables of unit variance, one of mean 0 and one of mean 10. -/
noncomputable def c86Apart : CondCov 1 where
  mean := ![0, 10]
  cov := 1
  lims := fun _ => (⊥, ⊤)

theorem c86Apart_isCov : Spec.IsCov c86Apart.cov := by
  constructor
  · intro i j
    fin_cases i <;> fin_cases j <;> simp [c86Apart]
  · intro x hx
    have : 0 < x 0 ^ 2 + x 1 ^ 2 := by
      by_contra h
      have h0 : x 0 = 0 := by nlinarith [sq_nonneg (x 1), sq_nonneg (x 0)]
      have h1 : x 1 = 0 := by nlinarith [sq_nonneg (x 1), sq_nonneg (x 0)]
      apply hx
      funext i
      fin_cases i
      · exact h0
      · exact h1
    simp [Fin.sum_univ_two, c86Apart]
    nlinarith

theorem c86Apart_off (i j : Fin 2) (h : i ≠ j) : c86Apart.cov i j = 0 := by
  simp [c86Apart, Matrix.one_apply, h]

theorem c86Apart_stdv (i : Fin 2) : c86Apart.stdv i = 1 := by
  rw [stdv_zero c86Apart c86Apart_off]
  simp [c86Apart]

theorem coordinate_law {Φ : EReal ≃o Set.Icc (0 : ℝ) 1} (hΦ : Spec.IsNormal Φ) (n : ℕ) (i : Fin n) (b : ℝ) :
    ∫⁻ u, (Set.Iic b).indicator 1 (quant Φ (u i)) ∂cubeLaw n = ENNReal.ofReal (Φ b : ℝ) := by
  have hm : Measurable fun a => (Set.Iic b).indicator (1 : ℝ → ENNReal) (quant Φ a) :=
    (measurable_one.indicator measurableSet_Iic).comp (quant_measurable Φ)
  rw [cubeLaw_pi]
  refine ((measurePreserving_eval (fun _ : Fin n => unitLaw) i).lintegral_comp hm).trans ?_
  have hm2 : Measurable ((Set.Iic b).indicator (1 : ℝ → ENNReal)) := measurable_one.indicator measurableSet_Iic
  rw [← lintegral_map hm2 (quant_measurable Φ), quant_law hΦ, lintegral_indicator_one measurableSet_Iic, hΦ b,
    Measure.real, ENNReal.ofReal_toReal (measure_ne_top _ _)]

/-- The values of the start are taken in the order they are given: with the variable of mean 10
first, it is drawn with mean 0. -/
theorem C86_order_claim_fails : ¬ C86_order_claim := by
  intro h
  obtain ⟨Φ, hΦ⟩ := exists_normal
  have hs : ∀ i, 0 < c86Apart.stdv i := fun i => by rw [c86Apart_stdv]; exact one_pos
  have hl : Spec.Unlimited c86Apart := fun _ => rfl
  have hl2 : ∀ i, (c86Apart.lims i).1 < (c86Apart.lims i).2 := fun i => bot_lt_top
  set names : Fin 2 → Str := ![['x'], ['y']] with hnames
  have hn : Function.Injective names := by
    intro i j
    fin_cases i <;> fin_cases j <;> simp [hnames]
  set A : Set (Fin 2 → ℝ) := {y | y 0 ≤ 5} with hA
  have hAm : MeasurableSet A := measurableSet_le (measurable_pi_apply 0) measurable_const
  have h1 := h 1 Φ hΦ c86Apart c86Apart_isCov hl names hn 1 (fun _ => 1) none 0 (Equiv.swap 0 1) A hAm
  have ha := sampled_zero Φ c86Apart hs hl2 hn (Equiv.swap 0 1) 0 1 (fun _ => 1) A none ((0 : Fin 2 → ℝ) ∘ Equiv.swap 0 1)
  have hb := sampled_zero Φ c86Apart hs hl2 hn 1 0 1 (fun _ => 1) A none 0
  have hd : (due 1 0 none).1 = List.finRange 2 := by simp [due, tfunBlock]
  have hp := place_unlimited Φ c86Apart hl hs
  have hr : ∀ (v y : Fin 2 → ℝ) i, resampleBy Φ c86Apart v (List.finRange 2) y i =
      c86Apart.mean i + quant Φ (v i) := by
    intro v y i
    rw [resampleBy_zero Φ c86Apart c86Apart_off, if_pos (List.mem_finRange i), c86Apart_stdv, one_mul]
  rw [hd] at ha hb
  have ea : ∀ u : Fin 2 → ℝ, A.indicator (1 : (Fin 2 → ℝ) → ENNReal)
      (resampleBy Φ c86Apart (fun i => place Φ c86Apart i (u i)) (List.finRange 2) ((0 : Fin 2 → ℝ) ∘ Equiv.swap 0 1) ∘
        (Equiv.swap (0 : Fin 2) 1).symm) = (Set.Iic (-5)).indicator 1 (quant Φ (u 1)) := by
    intro u
    have e : (resampleBy Φ c86Apart (fun i => place Φ c86Apart i (u i)) (List.finRange 2) ((0 : Fin 2 → ℝ) ∘ Equiv.swap 0 1) ∘
        (Equiv.swap (0 : Fin 2) 1).symm) 0 = 10 + quant Φ (u 1) := by
      simp only [Function.comp_apply, Equiv.symm_swap, Equiv.swap_apply_left, hr, hp]
      rfl
    by_cases hq : quant Φ (u 1) ≤ -5
    · refine (Set.indicator_of_mem ?_ _).trans (Set.indicator_of_mem (by exact hq) (1 : ℝ → ENNReal)).symm
      · rw [hA, Set.mem_setOf_eq, e]
        linarith
    · refine (Set.indicator_of_notMem ?_ _).trans (Set.indicator_of_notMem (by exact hq) (1 : ℝ → ENNReal)).symm
      rw [hA, Set.mem_setOf_eq, e]
      intro h
      exact hq (by linarith)
  have eb : ∀ u : Fin 2 → ℝ, A.indicator (1 : (Fin 2 → ℝ) → ENNReal)
      (resampleBy Φ c86Apart (fun i => place Φ c86Apart i (u i)) (List.finRange 2) 0 ∘
        (1 : Equiv.Perm (Fin 2)).symm) = (Set.Iic 5).indicator 1 (quant Φ (u 0)) := by
    intro u
    have e : (resampleBy Φ c86Apart (fun i => place Φ c86Apart i (u i)) (List.finRange 2) 0 ∘
        (1 : Equiv.Perm (Fin 2)).symm) 0 = quant Φ (u 0) := by
      have e : (1 : Equiv.Perm (Fin 2)).symm 0 = 0 := rfl
      have e2 : c86Apart.mean 0 = 0 := rfl
      rw [Function.comp_apply, e]
      simp only [hr, hp, e2, zero_add]
    by_cases hq : quant Φ (u 0) ≤ 5
    · refine (Set.indicator_of_mem ?_ _).trans (Set.indicator_of_mem (by exact hq) (1 : ℝ → ENNReal)).symm
      · rw [hA, Set.mem_setOf_eq, e]
        exact hq
    · refine (Set.indicator_of_notMem ?_ _).trans (Set.indicator_of_notMem (by exact hq) (1 : ℝ → ENNReal)).symm
      rw [hA, Set.mem_setOf_eq, e]
      exact hq
  simp only [ea] at ha
  simp only [eb] at hb
  rw [coordinate_law hΦ] at ha hb
  have h2 := ha.symm.trans (h1.trans hb)
  rw [ENNReal.ofReal_eq_ofReal_iff (Φ _).2.1 (Φ _).2.1] at h2
  have h3 : (((-5 : ℝ) : EReal)) < (((5 : ℝ) : EReal)) := by
    rw [EReal.coe_lt_coe_iff]
    norm_num
  exact absurd h2 (ne_of_lt (Φ.strictMono h3))

/-! ### Examples -/

/-- The distribution of examples/mcmc/gibbs_norm2d.py. -/
noncomputable def c86Example : CondCov 1 where
  mean := ![1 / 2, -1 / 2]
  cov := !![3 / 2, -1; -1, 2]
  lims := fun _ => (⊥, ⊤)

theorem c86Example_isCov : Spec.IsCov c86Example.cov := by
  constructor
  · intro i j
    fin_cases i <;> fin_cases j <;> simp [c86Example]
  · intro x hx
    have : 0 < 3 * x 0 ^ 2 - 4 * (x 0 * x 1) + 4 * x 1 ^ 2 := by
      by_contra h
      have h0 : x 0 = 0 := by nlinarith [sq_nonneg (x 0 - 2 * x 1), sq_nonneg (x 0)]
      have h1 : x 1 = 0 := by nlinarith [sq_nonneg (x 1), sq_nonneg (x 0)]
      apply hx
      funext i
      fin_cases i
      · exact h0
      · exact h1
    simp [Fin.sum_univ_two, c86Example]
    nlinarith

/-- The hypotheses of C86 are met by the example of the library, and by uncorrelated
limited variables. -/
example : (∃ Φ, Spec.IsNormal Φ) ∧ Spec.IsCov c86Example.cov ∧ Spec.Unlimited c86Example ∧
    (∀ i, (c86Example.lims i).1 < (c86Example.lims i).2) ∧
    Function.Injective (![['x'], ['y']] : Fin 2 → Str) := by
  refine ⟨exists_normal, c86Example_isCov, fun _ => rfl, fun _ => bot_lt_top, ?_⟩
  intro i j
  fin_cases i <;> fin_cases j <;> simp

/-- The coefficients asked for exist. -/
example (i : Fin 2) : ∃ β, ∀ w, Spec.errVar c86Example.cov i β ≤ Spec.errVar c86Example.cov i w := by
  obtain ⟨_, h2, h3⟩ := C50_best_predictor c86Example c86Example_isCov i
  refine ⟨c86Example.coef i, fun w => ?_⟩
  by_cases hw : w = c86Example.coef i
  · rw [hw]
  · rw [← h2]
    exact (h3 w hw).le

example : Spec.IsCov ({ c86Apart with lims := fun _ => (0, 1) } : CondCov 1).cov ∧
    (![0, 1] : Fin 2 → ℝ) ∈ Spec.allWithin ({ c86Apart with lims := fun _ => (0, 1) } : CondCov 1) ∧
    ∀ i j : Fin 2, i ≠ j → ({ c86Apart with lims := fun _ => (0, 1) } : CondCov 1).cov i j = 0 := by
  refine ⟨c86Apart_isCov, fun i => ?_, c86Apart_off⟩
  fin_cases i <;> simp [Spec.limits]

end Probayes
