/-
C110: random walks on flat targets, as in examples/mcmc/mcmc_prob3.py and mcmc_prob4b.py.
-/
import Verif.Props.DeltaFnShift
import Mathlib.MeasureTheory.Integral.Prod

namespace Probayes

open MeasureTheory

variable {n : ℕ} {Ω : Type}

/-! ### Specification -/

/-- The target that is `c` on a set and zero elsewhere. -/
noncomputable def Spec.flat (B : _root_.Set (Fin n → ℝ)) (c : ℝ) (x : Fin n → ℝ) : ℝ := B.indicator (fun _ => c) x

/-- The part of `B` that is in `A`, by volume. -/
noncomputable def Spec.portionOf (B A : _root_.Set (Fin n → ℝ)) : ℝ := volume.real (A ∩ B) / volume.real B

/-! ### The walk -/

theorem verdict_flat {B : Set (Fin n → ℝ)} {c : ℝ} (hc : npz ≤ c) (hastings : Bool) (q : (Fin n → ℝ) → (Fin n → ℝ) → ℝ)
    (x y : Fin n → ℝ) : Spec.verdict hastings false (Spec.flat B c) q x y = B.indicator (fun _ => 1) y := by
  have hc0 : 0 < c := npz_pos.trans_le hc
  simp only [Spec.verdict, Bool.and_false, Bool.false_eq_true, if_false, mul_one, Spec.flat]
  by_cases hy : y ∈ B
  · rw [Set.indicator_of_mem hy, Set.indicator_of_mem hy, min_eq_left]
    rw [le_div_iff₀ (npz_pos.trans_le (le_max_left _ _)), one_mul]
    by_cases hx : x ∈ B
    · rw [Set.indicator_of_mem hx, max_eq_right hc]
    · rw [Set.indicator_of_notMem hx, max_eq_left npz_pos.le]
      exact hc
  · rw [Set.indicator_of_notMem hy, Set.indicator_of_notMem hy, zero_div, min_eq_right zero_le_one]

/-- The chance to be in `A` after some steps, from `x`. -/
noncomputable def flatAt (g : (Fin n → ℝ) → ℝ) (B A : Set (Fin n → ℝ)) : ℕ → (Fin n → ℝ) → ℝ
  | 0, x => A.indicator (fun _ => 1) x
  | k + 1, x => (∫ y in B, g (y - x) * flatAt g B A k y) + (1 - ∫ y in B, g (y - x)) * flatAt g B A k x

section
variable {g : (Fin n → ℝ) → ℝ} (hg : Measurable g) (hg0 : ∀ δ, 0 ≤ g δ) (hg1 : ∫⁻ δ, ENNReal.ofReal (g δ) = 1)
  {B A : Set (Fin n → ℝ)} (hB : MeasurableSet B) (hA : MeasurableSet A)

include hg hg0 hg1

theorem shifted_integrable (x : Fin n → ℝ) : Integrable fun y => g (y - x) := by
  have : Integrable g := by
    refine ⟨hg.aestronglyMeasurable, ?_⟩
    rw [hasFiniteIntegral_iff_ofReal (Filter.Eventually.of_forall hg0), hg1]
    exact ENNReal.one_lt_top
  exact this.comp_sub_right x

theorem shifted_one (x : Fin n → ℝ) : ∫ y, g (y - x) = 1 := by
  rw [integral_sub_right_eq_self g x, integral_eq_lintegral_of_nonneg_ae (Filter.Eventually.of_forall hg0)
    hg.aestronglyMeasurable, hg1, ENNReal.toReal_one]

theorem shifted_part (x : Fin n → ℝ) (B : Set (Fin n → ℝ)) : 0 ≤ ∫ y in B, g (y - x) ∧ ∫ y in B, g (y - x) ≤ 1 := by
  refine ⟨integral_nonneg fun y => hg0 _, ?_⟩
  rw [← shifted_one hg hg0 hg1 x]
  exact setIntegral_le_integral (shifted_integrable hg hg0 hg1 x) (Filter.Eventually.of_forall fun y => hg0 _)

include hA in
theorem flatAt_measurable (k : ℕ) : Measurable (flatAt g B A k) := by
  induction k with
  | zero => exact measurable_const.indicator hA
  | succ k ih =>
    have hgs : Measurable fun p : (Fin n → ℝ) × (Fin n → ℝ) => g (p.2 - p.1) := hg.comp (measurable_snd.sub measurable_fst)
    have h1 : Measurable fun x => ∫ y in B, g (y - x) * flatAt g B A k y :=
      (hgs.mul (ih.comp measurable_snd)).stronglyMeasurable.integral_prod_right'.measurable
    have h2 : Measurable fun x => ∫ y in B, g (y - x) := hgs.stronglyMeasurable.integral_prod_right'.measurable
    exact h1.add ((measurable_const.sub h2).mul ih)

include hA in
theorem flat_product_integrable (x : Fin n → ℝ) {h : (Fin n → ℝ) → ℝ} (hm : Measurable h) (C : ℝ) (hb : ∀ y, |h y| ≤ C) :
    Integrable fun y => g (y - x) * h y := by
  refine (shifted_integrable hg hg0 hg1 x).mul_bdd (c := C) hm.aestronglyMeasurable ?_
  exact Filter.Eventually.of_forall fun y => by rw [Real.norm_eq_abs]; exact hb y

include hA in
theorem flatAt_bounds (k : ℕ) : ∀ x, 0 ≤ flatAt g B A k x ∧ flatAt g B A k x ≤ 1 := by
  induction k with
  | zero =>
    intro x
    by_cases hx : x ∈ A
    · simp [flatAt, hx]
    · simp [flatAt, hx]
  | succ k ih =>
    intro x
    obtain ⟨p0, p1⟩ := shifted_part hg hg0 hg1 x B
    have i1 : 0 ≤ ∫ y in B, g (y - x) * flatAt g B A k y := integral_nonneg fun y => mul_nonneg (hg0 _) (ih y).1
    have i2 : ∫ y in B, g (y - x) * flatAt g B A k y ≤ ∫ y in B, g (y - x) := by
      refine integral_mono ?_ (shifted_integrable hg hg0 hg1 x).integrableOn fun y => mul_le_of_le_one_right (hg0 _) (ih y).2
      exact (flat_product_integrable hg hg0 hg1 hA x (flatAt_measurable hg hg0 hg1 hA k) 1
        fun y => abs_le.2 ⟨by linarith [(ih y).1], (ih y).2⟩).integrableOn
    refine ⟨add_nonneg i1 (mul_nonneg (by linarith) (ih x).1), ?_⟩
    show _ + _ ≤ _
    nlinarith [mul_le_of_le_one_right (by linarith : (0 : ℝ) ≤ 1 - ∫ y in B, g (y - x)) (ih x).2]

include hB hA in
/-- What the process does, in those terms. -/
theorem arrives_flat [MeasurableSpace Ω] {P : Measure Ω} {cs : Fin n → Spec.Axis} (hcs : ∀ i, (cs i).uf = none)
    {f : Ω → Py (DeltaRet n)} {D : Ω → Fin n → ℝ} (hf : ∀ ω, f ω = .ok (.delta (D ω))) (hD : Measurable D)
    (hlaw : P.map D = volume.withDensity fun δ => ENNReal.ofReal (g δ)) {c : ℝ} (hc : npz ≤ c)
    {q : (Fin n → ℝ) → (Fin n → ℝ) → ℝ} (hq : ∀ x y, 0 < q x y) {hastings : Bool} {start : Fin n → ℝ}
    {pscale : PSpec} (hs : evalPscale pscale = .ok (.lin 1)) (k : ℕ) : ∀ (l : OPQR (Row (Fin n → ℝ))) (x : Fin n → ℝ),
    Spec.At (Spec.flat B c) l x →
    Spec.arrives P (Spec.mover cs false f (Spec.flat B c) q false hastings start pscale) k l A =
      ENNReal.ofReal (flatAt g B A k x) := by
  classical
  have hc0 : 0 < c := npz_pos.trans_le hc
  induction k with
  | zero =>
    intro l x h
    simp only [Spec.arrives, h.1, Option.map_some, Option.some.injEq, flatAt]
    by_cases hx : x ∈ A
    · rw [if_pos ⟨_, hx, rfl⟩, Set.indicator_of_mem hx, ENNReal.ofReal_one]
    · rw [if_neg (by rintro ⟨y, hy, rfl⟩; exact hx hy), Set.indicator_of_notMem hx, ENNReal.ofReal_zero]
  | succ k ih =>
    intro l x hl
    have hw : ∀ x, 0 ≤ Spec.flat B c x := fun x => Set.indicator_nonneg (fun _ _ => hc0.le) x
    have hb := flatAt_bounds hg hg0 hg1 hA (B := B) k
    have hm := flatAt_measurable hg hg0 hg1 hA (B := B) k
    let H : (Fin n → ℝ) → ℝ := fun y => if y ∈ B then flatAt g B A k y else flatAt g B A k x
    have hHm : Measurable H := Measurable.ite hB hm measurable_const
    have hHb : ∀ y, 0 ≤ H y ∧ H y ≤ 1 := by
      intro y
      simp only [H]
      split
      · exact hb y
      · exact hb x
    have hstep : Spec.arrives P (Spec.mover cs false f (Spec.flat B c) q false hastings start pscale) (k + 1) l A =
        ∫⁻ ω, ENNReal.ofReal (H (x + D ω)) ∂P := by
      simp only [Spec.arrives]
      congr 1
      funext d
      have hst : ∀ t, Spec.arrives P (Spec.mover cs false f (Spec.flat B c) q false hastings start pscale) k
            ((nextCore (Spec.mover cs false f (Spec.flat B c) q false hastings start pscale) (some l) ⟨d, t⟩ ()).2.1.getD l) A =
          if t ≤ Spec.verdict hastings false (Spec.flat B c) q x (x + D d) then
            ENNReal.ofReal (flatAt g B A k (x + D d)) else ENNReal.ofReal (flatAt g B A k x) := by
        intro t
        obtain ⟨l', smp, h1, h2, h3⟩ := shift_step cs hcs f (Spec.flat B c) q hq false hastings start pscale hs l x (D d)
          ⟨d, t⟩ hl (hf d)
        rw [h1]
        simp only [Option.getD_some]
        by_cases ht : t ≤ Spec.verdict hastings false (Spec.flat B c) q x (x + D d)
        · rw [if_pos ht]
          exact ih l' _ (h2 ht)
        · rw [if_neg ht, h3 ht]
          exact ih l x hl
      simp only [hst]
      obtain ⟨r0, r1⟩ := verdict_bounds (hastings := hastings) (pair := false) hw hq x (x + D d)
      rw [mean_le _ _ _ r0 r1, verdict_flat hc]
      by_cases hy : x + D d ∈ B
      · simp [H, hy]
      · simp [H, hy]
    have hHs : Measurable fun δ => ENNReal.ofReal (H (x + δ)) :=
      (hHm.comp (measurable_const.add measurable_id)).ennreal_ofReal
    rw [hstep, ← lintegral_map hHs hD, hlaw, lintegral_withDensity_eq_lintegral_mul _ hg.ennreal_ofReal hHs,
      ← lintegral_sub_right_eq_self _ x]
    have hcong : ∀ y : Fin n → ℝ, ((fun δ => ENNReal.ofReal (g δ)) * fun δ => ENNReal.ofReal (H (x + δ))) (y - x) =
        ENNReal.ofReal (g (y - x) * H y) := by
      intro y
      have : x + (y - x) = y := by abel
      simp only [Pi.mul_apply, this]
      rw [ENNReal.ofReal_mul (hg0 _)]
    simp only [hcong]
    have hint : Integrable fun y => g (y - x) * H y :=
      flat_product_integrable hg hg0 hg1 hA x hHm 1 fun y => abs_le.2 ⟨by linarith [(hHb y).1], (hHb y).2⟩
    rw [← ofReal_integral_eq_lintegral_ofReal hint (Filter.Eventually.of_forall fun y => mul_nonneg (hg0 _) (hHb y).1)]
    congr 1
    rw [← integral_add_compl hB hint]
    have e1 : ∫ y in B, g (y - x) * H y = ∫ y in B, g (y - x) * flatAt g B A k y := by
      refine setIntegral_congr_fun hB fun y hy => ?_
      simp [H, hy]
    have e2 : ∫ y in Bᶜ, g (y - x) * H y = (1 - ∫ y in B, g (y - x)) * flatAt g B A k x := by
      rw [setIntegral_congr_fun (g := fun y => g (y - x) * flatAt g B A k x) hB.compl fun y hy => by
        have : y ∉ B := hy
        simp [H, this]]
      rw [integral_mul_const, ← shifted_one hg hg0 hg1 x,
        ← integral_add_compl hB (shifted_integrable hg hg0 hg1 x), add_sub_cancel_left]
    rw [e1, e2]
    rfl

end

/-! ### Convergence -/

section
variable [MeasurableSpace Ω] {P : Measure Ω} [IsProbabilityMeasure P] {cs : Fin n → Spec.Axis}
  (hcs : ∀ i, (cs i).uf = none) {f : Ω → Py (DeltaRet n)} {D : Ω → Fin n → ℝ} (hf : ∀ ω, f ω = .ok (.delta (D ω)))
  (hD : Measurable D) {g : (Fin n → ℝ) → ℝ} (hg : Measurable g) (hg0 : ∀ δ, 0 ≤ g δ) (hsym : ∀ δ, g (-δ) = g δ)
  (hlaw : P.map D = volume.withDensity fun δ => ENNReal.ofReal (g δ)) {B A : Set (Fin n → ℝ)} (hB : MeasurableSet B)
  (hA : MeasurableSet A) {c : ℝ} (hc : npz ≤ c) {q : (Fin n → ℝ) → (Fin n → ℝ) → ℝ} (hq : ∀ x y, 0 < q x y)
  (hastings : Bool) (start : Fin n → ℝ) (hfin : volume B ≠ ⊤) (hpos : volume B ≠ 0) {ε : ℝ} (hε : 0 < ε)
  (hlow : ∀ x ∈ B, ∀ y ∈ B, ε ≤ g (y - x))

include hD hlaw in
theorem law_total : ∫⁻ δ, ENNReal.ofReal (g δ) = 1 := by
  have : (P.map D) Set.univ = 1 := by
    rw [Measure.map_apply hD MeasurableSet.univ]
    simp
  rw [hlaw, withDensity_apply _ MeasurableSet.univ, Measure.restrict_univ] at this
  exact this

include hcs hf hD hg hg0 hsym hlaw hB hA hc hq hfin

/-- The mean over the target does not change. -/
theorem flatAt_mean (k : ℕ) : ∫ y in B, flatAt g B A k y = volume.real (A ∩ B) := by
  have hg1 := law_total hD hlaw
  have hc0 : 0 < c := npz_pos.trans_le hc
  have hs : evalPscale (.flt 1) = .ok (.lin 1) := by simp [evalPscale]
  have hun : Spec.untransformed cs = id := by
    funext s i
    simp [Spec.untransformed, hcs i, UFun.inv]
  have hneg : P.map (fun ω => - D ω) = P.map D := by
    have : (fun ω => - D ω) = (fun δ => -δ) ∘ D := rfl
    rw [this, ← Measure.map_map measurable_neg hD, hlaw]
    ext S hS
    rw [Measure.map_apply measurable_neg hS, withDensity_apply _ hS, withDensity_apply _ (measurable_neg hS)]
    have hp : MeasurePreserving (fun δ : Fin n → ℝ => -δ) volume volume := Measure.measurePreserving_neg volume
    rw [← hp.setLIntegral_comp_preimage hS hg.ennreal_ofReal]
    simp only [hsym]
  have hkeep := C90_keeps_partial (P := P) (cs := cs) (q := q) (pair := false) (hastings := false) (start := fun _ => 0)
    (prob := Spec.flat B c) (w := Spec.flat B c) (pscale := .flt 1)
    (fun i => by rw [hcs i]; exact ⟨fun _ => rfl, measurable_id⟩) hf hD hneg
    ⟨⟨.lin 1, hs, one_pos, fun _ => trivial, fun _ => by simp [Spec.value]⟩, fun x => by
      by_cases hx : x ∈ B
      · simpa [Spec.flat, hx] using npz_pos.le.trans hc
      · simp [Spec.flat, hx]⟩ (measurable_const.indicator hB)
    (fun x ω _ => ⟨fun _ => ⟨.lin 1, hs, one_pos, trivial, by simpa [Spec.value] using hq _ _⟩, fun h => by simp at h⟩)
  rw [hun] at hkeep
  let l : (Fin n → ℝ) → OPQR (Row (Fin n → ℝ)) := fun x =>
    ⟨none, some ⟨x, .scalar (Spec.flat B c x)⟩, some ⟨x, .scalar (Spec.flat B c x)⟩, none⟩
  have hl : ∀ x, Spec.At (Spec.flat B c) (l x) x := fun x => ⟨rfl, _, rfl⟩
  have h1 := hkeep l hl k A hA
  simp only [id, arrives_flat hg hg0 hg1 hB hA hcs hf hD hlaw hc hq hs k _ _ (hl _)] at h1
  have e1 : ∀ s : Fin n → ℝ, ENNReal.ofReal (Spec.flat B c s) * ENNReal.ofReal (flatAt g B A k s) =
      B.indicator (fun s => ENNReal.ofReal c * ENNReal.ofReal (flatAt g B A k s)) s := by
    intro s
    by_cases hx : s ∈ B
    · simp [Spec.flat, hx]
    · simp [Spec.flat, hx]
  have e2 : ∀ s : Fin n → ℝ, ENNReal.ofReal (Spec.flat B c s) = B.indicator (fun _ => ENNReal.ofReal c) s := by
    intro s
    by_cases hx : s ∈ B
    · simp [Spec.flat, hx]
    · simp [Spec.flat, hx]
  simp only [e1] at h1
  simp only [e2] at h1
  rw [lintegral_indicator hB, lintegral_const_mul' _ _ ENNReal.ofReal_ne_top, show {s | s ∈ A} = A from rfl,
    lintegral_indicator hB, lintegral_const, Measure.restrict_restrict hB, Measure.restrict_apply_univ, Set.inter_comm] at h1
  have h2 : ∫⁻ s in B, ENNReal.ofReal (flatAt g B A k s) = volume (A ∩ B) :=
    (ENNReal.mul_right_inj (ENNReal.ofReal_pos.2 hc0).ne' ENNReal.ofReal_ne_top).1 h1
  rw [integral_eq_lintegral_of_nonneg_ae (Filter.Eventually.of_forall fun y => (flatAt_bounds hg hg0 hg1 hA k y).1)
    (flatAt_measurable hg hg0 hg1 hA k).aestronglyMeasurable, h2]
  rfl

include hpos hε hlow

theorem flatAt_rate : 0 ≤ 1 - ε * volume.real B ∧ 1 - ε * volume.real B < 1 ∨ B = ∅ := by
  have hg1 := law_total hD hlaw
  rcases B.eq_empty_or_nonempty with h | ⟨x, hx⟩
  · exact Or.inr h
  · refine Or.inl ⟨?_, ?_⟩
    · have h1 : ε * volume.real B ≤ ∫ y in B, g (y - x) := by
        have : ∫ _ in B, ε = ε * volume.real B := by rw [setIntegral_const, smul_eq_mul, mul_comm]
        rw [← this]
        exact setIntegral_mono_on (integrableOn_const hfin) (shifted_integrable hg hg0 hg1 x).integrableOn hB
          fun y hy => hlow x hx y hy
      linarith [(shifted_part hg hg0 hg1 x B).2]
    · have : 0 < volume.real B := ENNReal.toReal_pos hpos hfin
      nlinarith

/-- From a point of the set the chances tend to the portions of the set, at a geometric rate. -/
theorem flatAt_near (k : ℕ) : ∀ x ∈ B, |flatAt g B A k x - Spec.portionOf B A| ≤ (1 - ε * volume.real B) ^ k := by
  have hg1 := law_total hD hlaw
  have hV : 0 < volume.real B := ENNReal.toReal_pos hpos hfin
  have hπ0 : 0 ≤ Spec.portionOf B A := div_nonneg measureReal_nonneg measureReal_nonneg
  have hπ1 : Spec.portionOf B A ≤ 1 := (div_le_one hV).2 (measureReal_mono Set.inter_subset_right hfin)
  set π := Spec.portionOf B A with hπ
  induction k with
  | zero =>
    intro x _
    have := flatAt_bounds hg hg0 hg1 hA (B := B) 0 x
    rw [pow_zero, abs_le]
    constructor <;> linarith [this.1, this.2]
  | succ k ih =>
    intro x hx
    have hmean := flatAt_mean hcs hf hD hg hg0 hsym hlaw hB hA hc hq hfin k
    have hr0 : 0 ≤ 1 - ε * volume.real B := by
      rcases flatAt_rate hcs hf hD hg hg0 hsym hlaw hB hA hc hq hfin hpos hε hlow with h | h
      · exact h.1
      · simp [h] at hx
    set r := 1 - ε * volume.real B with hr
    have hm := flatAt_measurable hg hg0 hg1 hA (B := B) k
    have hb := flatAt_bounds hg hg0 hg1 hA (B := B) k
    set p := ∫ y in B, g (y - x) with hp
    obtain ⟨p0, p1⟩ := shifted_part hg hg0 hg1 x B
    have iF : IntegrableOn (fun y => flatAt g B A k y) B := by
      refine Measure.integrableOn_of_bounded hfin hm.aestronglyMeasurable (M := 1) (Filter.Eventually.of_forall fun y => ?_)
      rw [Real.norm_eq_abs]
      exact abs_le.2 ⟨by linarith [(hb y).1], (hb y).2⟩
    have ig : IntegrableOn (fun y => g (y - x)) B := (shifted_integrable hg hg0 hg1 x).integrableOn
    have igF : IntegrableOn (fun y => g (y - x) * flatAt g B A k y) B :=
      (flat_product_integrable hg hg0 hg1 hA x hm 1 fun y => abs_le.2 ⟨by linarith [(hb y).1], (hb y).2⟩).integrableOn
    have iε : IntegrableOn (fun _ : Fin n → ℝ => ε) B := integrableOn_const hfin
    have hε1 : ∫ _ in B, ε = ε * volume.real B := by rw [setIntegral_const, smul_eq_mul, mul_comm]
    have key : flatAt g B A (k + 1) x - π =
        (∫ y in B, (g (y - x) - ε) * (flatAt g B A k y - π)) + (1 - p) * (flatAt g B A k x - π) := by
      have e : ∀ y, (g (y - x) - ε) * (flatAt g B A k y - π) =
          (g (y - x) * flatAt g B A k y - g (y - x) * π) - (ε * flatAt g B A k y - ε * π) := fun y => by ring
      simp only [e]
      have i1 : IntegrableOn (fun y => g (y - x) * flatAt g B A k y - g (y - x) * π) B := igF.sub (ig.mul_const π)
      have i2 : IntegrableOn (fun y => ε * flatAt g B A k y - ε * π) B := (iF.const_mul ε).sub (iε.mul_const π)
      rw [integral_sub i1 i2, integral_sub igF (ig.mul_const π), integral_sub (iF.const_mul ε) (iε.mul_const π), integral_mul_const,
        integral_const_mul, integral_mul_const, hmean, hε1]
      have : π * volume.real B = volume.real (A ∩ B) := div_mul_cancel₀ _ hV.ne'
      show (_ + (1 - p) * flatAt g B A k x) - π = _
      rw [← this]
      ring
    have hbound : |∫ y in B, (g (y - x) - ε) * (flatAt g B A k y - π)| ≤ (p - ε * volume.real B) * r ^ k := by
      have h1 : ∀ y ∈ B, ‖(g (y - x) - ε) * (flatAt g B A k y - π)‖ ≤ (g (y - x) - ε) * r ^ k := by
        intro y hy
        rw [Real.norm_eq_abs, abs_mul, abs_of_nonneg (by linarith [hlow x hx y hy])]
        exact mul_le_mul_of_nonneg_left (ih y hy) (by linarith [hlow x hx y hy])
      have h2 := norm_integral_le_of_norm_le (μ := volume.restrict B) ((ig.sub iε).mul_const (r ^ k))
        ((ae_restrict_iff' hB).2 (Filter.Eventually.of_forall h1))
      rw [Real.norm_eq_abs, integral_mul_const] at h2
      refine h2.trans (le_of_eq ?_)
      have h3 : ∫ y in B, (g (y - x) - ε) = p - ε * volume.real B := by
        rw [← hε1]
        exact integral_sub ig iε
      rw [← h3]
      rfl
    rw [key]
    refine (abs_add_le _ _).trans ?_
    rw [abs_mul, abs_of_nonneg (by linarith : (0 : ℝ) ≤ 1 - p)]
    calc _ ≤ (p - ε * volume.real B) * r ^ k + (1 - p) * r ^ k :=
          add_le_add hbound (mul_le_mul_of_nonneg_left (ih x hx) (by linarith))
      _ = r ^ (k + 1) := by rw [pow_succ, hr]; ring

/-- C110: a walk whose displacements are as likely as their opposites, on a target that is flat on a set
and zero elsewhere, judged by either rule with any stated density, is, from any point of the set, in any part of it with
a chance that tends geometrically to the portion of the set. -/
theorem C110_rate (l : OPQR (Row (Fin n → ℝ))) (x : Fin n → ℝ) (hl : Spec.At (Spec.flat B c) l x) (hx : x ∈ B) (k : ℕ) :
    |(Spec.arrives P (Spec.mover cs false f (Spec.flat B c) q false hastings start (.flt 1)) k l A).toReal -
      Spec.portionOf B A| ≤ (1 - ε * volume.real B) ^ k := by
  have hg1 := law_total hD hlaw
  rw [arrives_flat hg hg0 hg1 hB hA hcs hf hD hlaw hc hq (by simp [evalPscale]) k l x hl,
    ENNReal.toReal_ofReal (flatAt_bounds hg hg0 hg1 hA k x).1]
  exact flatAt_near hcs hf hD hg hg0 hsym hlaw hB hA hc hq hfin hpos hε hlow k x hx

/-- C110: from any start from which the set can be reached, even one where the target is zero, the chances
tend to the portions of the set. -/
theorem C110_tends (l : OPQR (Row (Fin n → ℝ))) (x : Fin n → ℝ) (hl : Spec.At (Spec.flat B c) l x)
    (hreach : P {ω | x + D ω ∈ B} ≠ 0) :
    Filter.Tendsto (fun k => (Spec.arrives P
      (Spec.mover cs false f (Spec.flat B c) q false hastings start (.flt 1)) k l A).toReal) Filter.atTop
      (nhds (Spec.portionOf B A)) := by
  have hg1 := law_total hD hlaw
  have hV : 0 < volume.real B := ENNReal.toReal_pos hpos hfin
  have hr := flatAt_rate hcs hf hD hg hg0 hsym hlaw hB hA hc hq hfin hpos hε hlow
  rcases hr with hr | hr
  swap
  · simp [hr] at hV
  have hnear := flatAt_near hcs hf hD hg hg0 hsym hlaw hB hA hc hq hfin hpos hε hlow
  have hval : ∀ k, (Spec.arrives P (Spec.mover cs false f (Spec.flat B c) q false hastings start (.flt 1)) k l A).toReal =
      flatAt g B A k x := fun k => by
    rw [arrives_flat hg hg0 hg1 hB hA hcs hf hD hlaw hc hq (by simp [evalPscale]) k l x hl,
      ENNReal.toReal_ofReal (flatAt_bounds hg hg0 hg1 hA k x).1]
  simp only [hval]
  set r := 1 - ε * volume.real B with hrd
  set π := Spec.portionOf B A with hπ
  set p := ∫ y in B, g (y - x) with hp
  obtain ⟨p0, p1⟩ := shifted_part hg hg0 hg1 x B
  have ppos : 0 < p := by
    rcases p0.lt_or_eq with h | h
    · exact h
    · exfalso
      apply hreach
      have hS : MeasurableSet {δ : Fin n → ℝ | x + δ ∈ B} := (measurable_const.add measurable_id) hB
      have h1 : P {ω | x + D ω ∈ B} = (P.map D) {δ | x + δ ∈ B} := (Measure.map_apply hD hS).symm
      rw [h1, hlaw, withDensity_apply _ hS, ← lintegral_indicator hS, ← lintegral_sub_right_eq_self _ x]
      have h2 : ∀ y : Fin n → ℝ, {δ : Fin n → ℝ | x + δ ∈ B}.indicator (fun δ => ENNReal.ofReal (g δ)) (y - x) =
          B.indicator (fun y => ENNReal.ofReal (g (y - x))) y := by
        intro y
        have : x + (y - x) = y := by abel
        by_cases hy : y ∈ B
        · rw [Set.indicator_of_mem hy, Set.indicator_of_mem (by simpa [this] using hy)]
        · rw [Set.indicator_of_notMem hy, Set.indicator_of_notMem (by simpa [this] using hy)]
      simp only [h2]
      rw [lintegral_indicator hB, ← ofReal_integral_eq_lintegral_ofReal
        (shifted_integrable hg hg0 hg1 x).integrableOn (Filter.Eventually.of_forall fun y => hg0 _), ← h,
        ENNReal.ofReal_zero]
  -- a rate that is enough for both the first visit and what follows
  let s := max r (1 - p)
  have hs0 : 0 ≤ s := hr.1.trans (le_max_left _ _)
  have hs1 : s < 1 := max_lt hr.2 (by linarith)
  have hstep : ∀ k, |flatAt g B A (k + 1) x - π| ≤ r ^ k + (1 - p) * |flatAt g B A k x - π| := by
    intro k
    have hm := flatAt_measurable hg hg0 hg1 hA (B := B) k
    have hb := flatAt_bounds hg hg0 hg1 hA (B := B) k
    have ig : IntegrableOn (fun y => g (y - x)) B := (shifted_integrable hg hg0 hg1 x).integrableOn
    have igF : IntegrableOn (fun y => g (y - x) * flatAt g B A k y) B :=
      (flat_product_integrable hg hg0 hg1 hA x hm 1 fun y => abs_le.2 ⟨by linarith [(hb y).1], (hb y).2⟩).integrableOn
    have key : flatAt g B A (k + 1) x - π =
        (∫ y in B, g (y - x) * (flatAt g B A k y - π)) + (1 - p) * (flatAt g B A k x - π) := by
      simp only [mul_sub]
      rw [integral_sub igF (ig.mul_const π), integral_mul_const]
      show (_ + (1 - p) * flatAt g B A k x) - π = _
      ring
    have hbound : |∫ y in B, g (y - x) * (flatAt g B A k y - π)| ≤ p * r ^ k := by
      have h1 : ∀ y ∈ B, ‖g (y - x) * (flatAt g B A k y - π)‖ ≤ g (y - x) * r ^ k := by
        intro y hy
        rw [Real.norm_eq_abs, abs_mul, abs_of_nonneg (hg0 _)]
        exact mul_le_mul_of_nonneg_left (hnear k y hy) (hg0 _)
      have h2 := norm_integral_le_of_norm_le (μ := volume.restrict B) (ig.mul_const (r ^ k))
        ((ae_restrict_iff' hB).2 (Filter.Eventually.of_forall h1))
      rw [Real.norm_eq_abs, integral_mul_const] at h2
      exact h2
    rw [key]
    refine (abs_add_le _ _).trans ?_
    rw [abs_mul, abs_of_nonneg (by linarith : (0 : ℝ) ≤ 1 - p)]
    exact add_le_add_left (hbound.trans (mul_le_of_le_one_left (pow_nonneg hr.1 k) p1)) _
  have hall : ∀ k : ℕ, |flatAt g B A k x - π| ≤ s ^ k + k * s ^ (k - 1) := by
    intro k
    induction k with
    | zero =>
      have := flatAt_bounds hg hg0 hg1 hA (B := B) 0 x
      have hπ0 : 0 ≤ π := div_nonneg measureReal_nonneg measureReal_nonneg
      have hπ1 : π ≤ 1 := (div_le_one hV).2 (measureReal_mono Set.inter_subset_right hfin)
      simp only [pow_zero, Nat.cast_zero, zero_mul, add_zero]
      rw [abs_le]
      constructor <;> linarith [this.1, this.2]
    | succ k ih =>
      refine (hstep k).trans ?_
      have h1 : r ^ k ≤ s ^ k := pow_le_pow_left₀ hr.1 (le_max_left _ _) k
      have h2 : (1 - p) * |flatAt g B A k x - π| ≤ s * (s ^ k + k * s ^ (k - 1)) :=
        mul_le_mul (le_max_right _ _) ih (abs_nonneg _) hs0
      have h3 : s * (k * s ^ (k - 1)) = k * s ^ k := by
        cases k with
        | zero => simp
        | succ k => rw [Nat.add_sub_cancel, pow_succ]; ring
      have h4 : s * (s ^ k + k * s ^ (k - 1)) = s ^ (k + 1) + k * s ^ k := by
        rw [mul_add, h3, pow_succ]; ring
      rw [Nat.add_sub_cancel]
      push_cast
      linarith
  have hlim : Filter.Tendsto (fun k : ℕ => s ^ k + k * s ^ (k - 1)) Filter.atTop (nhds 0) := by
    have t1 := tendsto_pow_atTop_nhds_zero_of_lt_one hs0 hs1
    have t2 : Filter.Tendsto (fun k : ℕ => (k : ℝ) * s ^ (k - 1)) Filter.atTop (nhds 0) := by
      rw [← Filter.tendsto_add_atTop_iff_nat 1]
      have t3 := tendsto_self_mul_const_pow_of_lt_one hs0 hs1
      have := t3.add t1
      simp only [add_zero] at this
      refine this.congr fun k => ?_
      rw [Nat.add_sub_cancel]
      push_cast
      ring
    simpa using t1.add t2
  rw [tendsto_iff_dist_tendsto_zero]
  exact squeeze_zero (fun k => dist_nonneg) (fun k => by rw [Real.dist_eq]; exact hall k) hlim

end

end Probayes
