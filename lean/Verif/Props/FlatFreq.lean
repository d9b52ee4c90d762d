/-
C110: the proportions of samples of random walks on flat targets.
-/
import Verif.Props.FlatTargetUp

namespace Probayes

open MeasureTheory

variable {n : ℕ} {Ω : Type} [MeasurableSpace Ω]

/-! ### Specification -/

/-- The mean, over the draws of `k` samples, of the square of `a` plus the sum, over the samples, of one if the state
is in `A`, less `π`. -/
noncomputable def Spec.squared (P : Measure Ω) (R : Proc Unit (Row (Fin n → ℝ)) (DDraw Ω)) (A : _root_.Set (Fin n → ℝ))
    (π : ℝ) : ℕ → OPQR (Row (Fin n → ℝ)) → ℝ → ENNReal
  | 0, _, a => ENNReal.ofReal (a ^ 2)
  | k + 1, l, a => ∫⁻ d, Spec.mean (fun t =>
      let l' := (nextCore R (some l) ⟨d, t⟩ ()).2.1.getD l
      Spec.squared P R A π k l' (a + ((open Classical in if ∃ x ∈ A, l'.p.map Row.val = some x then 1 else 0) - π))) ∂P

/-! ### One step -/

/-- Where the walk is after a displacement. -/
noncomputable def flatNext (B : Set (Fin n → ℝ)) (x δ : Fin n → ℝ) : Fin n → ℝ :=
  open Classical in if x + δ ∈ B then x + δ else x

section
variable {P : Measure Ω} [IsProbabilityMeasure P] {cs : Fin n → Spec.Axis}
  (hcs : ∀ i, (cs i).uf = none) {f : Ω → Py (DeltaRet n)} {D : Ω → Fin n → ℝ} (hf : ∀ ω, f ω = .ok (.delta (D ω)))
  (hD : Measurable D) {g : (Fin n → ℝ) → ℝ} (hg : Measurable g) (hg0 : ∀ δ, 0 ≤ g δ) (hsym : ∀ δ, g (-δ) = g δ)
  (hlaw : P.map D = volume.withDensity fun δ => ENNReal.ofReal (g δ)) {B A : Set (Fin n → ℝ)} (hB : MeasurableSet B)
  (hA : MeasurableSet A) {c : ℝ} (hc : npz ≤ c) {q : (Fin n → ℝ) → (Fin n → ℝ) → ℝ} (hq : ∀ x y, 0 < q x y)
  (hastings : Bool) (start : Fin n → ℝ) (hfin : volume B ≠ ⊤) (hpos : volume B ≠ 0) {ε : ℝ} (hε : 0 < ε)
  (hlow : ∀ x ∈ B, ∀ y ∈ B, ε ≤ g (y - x))

include hD hB in
theorem flatNext_measurable (x : Fin n → ℝ) : Measurable fun ω => flatNext B x (D ω) := by
  classical
  have h : Measurable fun ω => x + D ω := measurable_const.add hD
  exact Measurable.ite (h hB) h measurable_const

include hcs hf hD hg hg0 hlaw hB hA hc hq in
/-- The chance after one more step is the mean of the chances after the first. -/
theorem flatAt_succ (k : ℕ) (x : Fin n → ℝ) :
    flatAt g B A (k + 1) x = ∫ ω, flatAt g B A k (flatNext B x (D ω)) ∂P := by
  classical
  have hg1 := law_total hD hlaw
  have hs : evalPscale (.flt 1) = .ok (.lin 1) := by simp [evalPscale]
  have hb := flatAt_bounds hg hg0 hg1 hA (B := B)
  let l : OPQR (Row (Fin n → ℝ)) := ⟨none, some ⟨x, .scalar (Spec.flat B c x)⟩, some ⟨x, .scalar 1⟩, none⟩
  have hl : Spec.At (Spec.flat B c) l x := ⟨rfl, _, rfl⟩
  have hw : ∀ x, 0 ≤ Spec.flat B c x := fun x => Set.indicator_nonneg (fun _ _ => (npz_pos.trans_le hc).le) x
  have h1 := arrives_flat hg hg0 hg1 hB hA hcs hf hD hlaw hc hq (hastings := false) (start := fun _ => 0) hs (k + 1) l x hl
  have h2 : Spec.arrives P (Spec.mover cs false f (Spec.flat B c) q false false (fun _ => 0) (.flt 1)) (k + 1) l A =
      ∫⁻ ω, ENNReal.ofReal (flatAt g B A k (flatNext B x (D ω))) ∂P := by
    simp only [Spec.arrives]
    congr 1
    funext d
    have hst : ∀ t, Spec.arrives P (Spec.mover cs false f (Spec.flat B c) q false false (fun _ => 0) (.flt 1)) k
          ((nextCore (Spec.mover cs false f (Spec.flat B c) q false false (fun _ => 0) (.flt 1)) (some l) ⟨d, t⟩ ()).2.1.getD l) A =
        if t ≤ Spec.verdict false false (Spec.flat B c) q x (x + D d) then
          ENNReal.ofReal (flatAt g B A k (x + D d)) else ENNReal.ofReal (flatAt g B A k x) := by
      intro t
      obtain ⟨l', smp, e1, e2, e3⟩ := shift_step cs hcs f (Spec.flat B c) q hq false false (fun _ => 0) (.flt 1) hs l x (D d)
        ⟨d, t⟩ hl (hf d)
      rw [e1]
      simp only [Option.getD_some]
      by_cases ht : t ≤ Spec.verdict false false (Spec.flat B c) q x (x + D d)
      · rw [if_pos ht]
        exact arrives_flat hg hg0 hg1 hB hA hcs hf hD hlaw hc hq hs k l' _ (e2 ht)
      · rw [if_neg ht, e3 ht]
        exact arrives_flat hg hg0 hg1 hB hA hcs hf hD hlaw hc hq hs k l x hl
    simp only [hst]
    obtain ⟨r0, r1⟩ := verdict_bounds (hastings := false) (pair := false) hw hq x (x + D d)
    rw [mean_le _ _ _ r0 r1, verdict_flat hc]
    by_cases hy : x + D d ∈ B
    · simp [flatNext, hy]
    · simp [flatNext, hy]
  rw [integral_eq_lintegral_of_nonneg_ae (Filter.Eventually.of_forall fun ω => (hb k _).1)
    ((flatAt_measurable hg hg0 hg1 hA k).comp (flatNext_measurable hD hB x)).aestronglyMeasurable, ← h2, h1,
    ENNReal.toReal_ofReal (hb (k + 1) x).1]

/-- The mean of the sum of deviations over `k` steps. -/
noncomputable def devSum (g : (Fin n → ℝ) → ℝ) (B A : Set (Fin n → ℝ)) (π : ℝ) (k : ℕ) (x : Fin n → ℝ) : ℝ :=
  ∑ j ∈ Finset.range k, (flatAt g B A (j + 1) x - π)

include hcs hf hD hg hg0 hsym hlaw hB hA hc hq hfin hpos hε hlow

theorem devSum_bound (k : ℕ) (x : Fin n → ℝ) (hx : x ∈ B) :
    |devSum g B A (Spec.portionOf B A) k x| ≤ k ∧
      |devSum g B A (Spec.portionOf B A) k x| ≤ 1 / (ε * volume.real B) := by
  have hV : 0 < volume.real B := ENNReal.toReal_pos hpos hfin
  have hr := flatAt_rate hcs hf hD hg hg0 hsym hlaw hB hA hc hq hfin hpos hε hlow
  rcases hr with hr | hr
  swap
  · simp [hr] at hx
  have hnear := flatAt_near hcs hf hD hg hg0 hsym hlaw hB hA hc hq hfin hpos hε hlow
  have h1 : |devSum g B A (Spec.portionOf B A) k x| ≤ ∑ j ∈ Finset.range k, (1 - ε * volume.real B) ^ (j + 1) :=
    (Finset.abs_sum_le_sum_abs _ _).trans (Finset.sum_le_sum fun j _ => hnear (j + 1) x hx)
  refine ⟨h1.trans ?_, h1.trans ?_⟩
  · calc ∑ j ∈ Finset.range k, (1 - ε * volume.real B) ^ (j + 1) ≤ ∑ _j ∈ Finset.range k, (1 : ℝ) :=
          Finset.sum_le_sum fun j _ => pow_le_one₀ hr.1 hr.2.le
      _ = k := by simp
  · have h2 : ∑ j ∈ Finset.range k, (1 - ε * volume.real B) ^ (j + 1) ≤ ∑ j ∈ Finset.range k, (1 - ε * volume.real B) ^ j :=
      Finset.sum_le_sum fun j _ => pow_le_pow_of_le_one hr.1 hr.2.le (Nat.le_succ j)
    refine h2.trans ?_
    have h3 := Summable.sum_le_tsum (Finset.range k) (fun j _ => pow_nonneg hr.1 j)
      (summable_geometric_of_lt_one hr.1 hr.2)
    rw [tsum_geometric_of_lt_one hr.1 hr.2] at h3
    rw [one_div]
    rw [sub_sub_cancel] at h3
    exact h3

theorem squared_le (k : ℕ) : ∀ (l : OPQR (Row (Fin n → ℝ))) (x : Fin n → ℝ), Spec.At (Spec.flat B c) l x → x ∈ B → ∀ a : ℝ,
    Spec.squared P (Spec.mover cs false f (Spec.flat B c) q false hastings start (.flt 1)) A (Spec.portionOf B A) k l a ≤
      ENNReal.ofReal (a ^ 2 + 2 * a * devSum g B A (Spec.portionOf B A) k x + k * (1 + 2 / (ε * volume.real B))) := by
  classical
  have hg1 := law_total hD hlaw
  have hs : evalPscale (.flt 1) = .ok (.lin 1) := by simp [evalPscale]
  have hV : 0 < volume.real B := ENNReal.toReal_pos hpos hfin
  have hw : ∀ x, 0 ≤ Spec.flat B c x := fun x => Set.indicator_nonneg (fun _ _ => (npz_pos.trans_le hc).le) x
  have hπ0 : 0 ≤ Spec.portionOf B A := div_nonneg measureReal_nonneg measureReal_nonneg
  have hπ1 : Spec.portionOf B A ≤ 1 := (div_le_one hV).2 (measureReal_mono Set.inter_subset_right hfin)
  have hdev := devSum_bound hcs hf hD hg hg0 hsym hlaw hB hA hc hq hfin hpos hε hlow
  have hb := flatAt_bounds hg hg0 hg1 hA (B := B)
  have hm := flatAt_measurable hg hg0 hg1 hA (B := B)
  set π := Spec.portionOf B A with hπ
  set T := 1 / (ε * volume.real B) with hT
  have hTT : 2 / (ε * volume.real B) = 2 * T := by rw [hT]; ring
  have hT0 : 0 ≤ T := by positivity
  rw [hTT]
  have hdm : ∀ k, Measurable (devSum g B A π k) := fun k =>
    Finset.measurable_sum _ fun j _ => (hm (j + 1)).sub measurable_const
  induction k with
  | zero =>
    intro l x _ _ a
    simp [Spec.squared, devSum]
  | succ k ih =>
    intro l x hl hx a
    let h : (Fin n → ℝ) → ℝ := fun z => A.indicator (fun _ => 1) z - π
    have hh : ∀ z, |h z| ≤ 1 := by
      intro z
      simp only [h]
      by_cases hz : z ∈ A
      · rw [Set.indicator_of_mem hz, abs_le]; constructor <;> linarith
      · rw [Set.indicator_of_notMem hz, abs_le]; constructor <;> linarith
    have hhm : Measurable h := (measurable_const.indicator hA).sub measurable_const
    let X : Ω → Fin n → ℝ := fun ω => flatNext B x (D ω)
    have hXm : Measurable X := flatNext_measurable hD hB x
    have hXB : ∀ ω, X ω ∈ B := by
      intro ω
      simp only [X, flatNext]
      split
      · assumption
      · exact hx
    let Q : Ω → ℝ := fun ω => (a + h (X ω)) ^ 2 + 2 * (a + h (X ω)) * devSum g B A π k (X ω) + k * (1 + 2 * T)
    have hstep : Spec.squared P (Spec.mover cs false f (Spec.flat B c) q false hastings start (.flt 1)) A π (k + 1) l a ≤
        ∫⁻ ω, ENNReal.ofReal (Q ω) ∂P := by
      simp only [Spec.squared]
      refine lintegral_mono fun d => ?_
      let V : OPQR (Row (Fin n → ℝ)) → ENNReal := fun l' =>
        Spec.squared P (Spec.mover cs false f (Spec.flat B c) q false hastings start (.flt 1)) A π k l'
          (a + ((if ∃ x ∈ A, l'.p.map Row.val = some x then 1 else 0) - π))
      have hVle : ∀ l' z, Spec.At (Spec.flat B c) l' z → z ∈ B → V l' ≤
          ENNReal.ofReal ((a + h z) ^ 2 + 2 * (a + h z) * devSum g B A π k z + k * (1 + 2 * T)) := by
        intro l' z hz hzB
        have e : ((if ∃ x ∈ A, l'.p.map Row.val = some x then (1 : ℝ) else 0) - π) = h z := by
          simp only [hz.1, Option.map_some, Option.some.injEq, h]
          by_cases hzA : z ∈ A
          · rw [if_pos ⟨_, hzA, rfl⟩, Set.indicator_of_mem hzA]
          · rw [if_neg (by rintro ⟨y, hy, rfl⟩; exact hzA hy), Set.indicator_of_notMem hzA]
        simp only [V, e]
        exact ih l' z hz hzB (a + h z)
      by_cases hy : x + D d ∈ B
      · have hX : X d = x + D d := by simp [X, flatNext, hy]
        have hle : ∀ t, V ((nextCore (Spec.mover cs false f (Spec.flat B c) q false hastings start (.flt 1)) (some l)
            ⟨d, t⟩ ()).2.1.getD l) ≤ if t ≤ 1 then ENNReal.ofReal (Q d) else ⊤ := by
          intro t
          obtain ⟨l', smp, e1, e2, e3⟩ := shift_step cs hcs f (Spec.flat B c) q hq false hastings start (.flt 1) hs l x (D d)
            ⟨d, t⟩ hl (hf d)
          rw [verdict_flat hc, Set.indicator_of_mem hy] at e2 e3
          by_cases ht : t ≤ 1
          · rw [if_pos ht, e1]
            simp only [Option.getD_some, Q, hX]
            exact hVle l' _ (e2 ht) hy
          · rw [if_neg ht]
            exact le_top
        refine (lintegral_mono hle).trans (le_of_eq ?_)
        have := mean_le (ENNReal.ofReal (Q d)) ⊤ 1 zero_le_one le_rfl
        simp only [ENNReal.ofReal_one, one_mul, sub_self, ENNReal.ofReal_zero, zero_mul, add_zero] at this
        exact this
      · have hX : X d = x := by simp [X, flatNext, hy]
        have hle : ∀ t, V ((nextCore (Spec.mover cs false f (Spec.flat B c) q false hastings start (.flt 1)) (some l)
            ⟨d, t⟩ ()).2.1.getD l) ≤ if t ≤ 0 then ⊤ else ENNReal.ofReal (Q d) := by
          intro t
          obtain ⟨l', smp, e1, e2, e3⟩ := shift_step cs hcs f (Spec.flat B c) q hq false hastings start (.flt 1) hs l x (D d)
            ⟨d, t⟩ hl (hf d)
          rw [verdict_flat hc, Set.indicator_of_notMem hy] at e2 e3
          by_cases ht : t ≤ 0
          · rw [if_pos ht]
            exact le_top
          · rw [if_neg ht, e1, e3 ht]
            simp only [Option.getD_some, Q, hX]
            exact hVle l x hl hx
        refine (lintegral_mono hle).trans (le_of_eq ?_)
        have := mean_le ⊤ (ENNReal.ofReal (Q d)) 0 le_rfl zero_le_one
        simp only [ENNReal.ofReal_zero, zero_mul, sub_zero, ENNReal.ofReal_one, one_mul, zero_add] at this
        exact this
    refine hstep.trans ?_
    -- integrate the bound
    have bdd : ∀ (φ : Ω → ℝ) (C : ℝ), Measurable φ → (∀ ω, |φ ω| ≤ C) → Integrable φ P := by
      intro φ C h1 h2
      exact Integrable.of_bound h1.aestronglyMeasurable C (Filter.Eventually.of_forall fun ω => by
        rw [Real.norm_eq_abs]; exact h2 ω)
    have mh : Measurable fun ω => h (X ω) := hhm.comp hXm
    have md : Measurable fun ω => devSum g B A π k (X ω) := (hdm k).comp hXm
    have ih' : Integrable (fun ω => h (X ω)) P := bdd _ 1 mh fun ω => hh _
    have id' : Integrable (fun ω => devSum g B A π k (X ω)) P := bdd _ T md fun ω => (hdev k _ (hXB ω)).2
    have ihd : Integrable (fun ω => h (X ω) * devSum g B A π k (X ω)) P := by
      refine bdd _ T (mh.mul md) fun ω => ?_
      rw [abs_mul]
      exact (mul_le_of_le_one_left (abs_nonneg _) (hh _)).trans (hdev k _ (hXB ω)).2
    have ihh : Integrable (fun ω => h (X ω) * h (X ω)) P := by
      refine bdd _ 1 (mh.mul mh) fun ω => ?_
      rw [abs_mul]
      exact mul_le_one₀ (hh _) (abs_nonneg _) (hh _)
    have hQ0 : ∀ ω, 0 ≤ Q ω := by
      intro ω
      obtain ⟨d1, d2⟩ := hdev k _ (hXB ω)
      simp only [Q]
      set u := a + h (X ω)
      set m := devSum g B A π k (X ω)
      have h1 : m ^ 2 ≤ k * T := by
        rw [← sq_abs, sq]
        exact mul_le_mul d1 d2 (abs_nonneg _) (Nat.cast_nonneg k)
      have h2 : (0 : ℝ) ≤ k := Nat.cast_nonneg k
      nlinarith [sq_nonneg (u + m), mul_nonneg h2 hT0]
    have hQe : Q = fun ω => (a ^ 2 + k * (1 + 2 * T)) + (2 * a) * (h (X ω) + devSum g B A π k (X ω)) +
        (h (X ω) * h (X ω) + 2 * (h (X ω) * devSum g B A π k (X ω))) := by
      funext ω
      simp only [Q]
      ring
    have i1 : Integrable (fun ω => (2 * a) * (h (X ω) + devSum g B A π k (X ω))) P := (ih'.add id').const_mul _
    have i2 : Integrable (fun ω => h (X ω) * h (X ω) + 2 * (h (X ω) * devSum g B A π k (X ω))) P :=
      ihh.add (ihd.const_mul 2)
    have i3 : Integrable (fun ω => (a ^ 2 + k * (1 + 2 * T)) + (2 * a) * (h (X ω) + devSum g B A π k (X ω))) P :=
      (integrable_const _).add i1
    have hQi : Integrable Q P := by
      rw [hQe]
      exact i3.add i2
    rw [← ofReal_integral_eq_lintegral_ofReal hQi (Filter.Eventually.of_forall hQ0)]
    refine ENNReal.ofReal_le_ofReal ?_
    have hlast : ∫ ω, (h (X ω) * h (X ω) + 2 * (h (X ω) * devSum g B A π k (X ω))) ∂P ≤ 1 + 2 * T := by
      have : ∫ _ω, (1 + 2 * T) ∂P = 1 + 2 * T := by simp
      rw [← this]
      refine integral_mono i2 (integrable_const _) fun ω => ?_
      have h1 : h (X ω) * h (X ω) ≤ 1 := (le_abs_self _).trans (by
        rw [abs_mul]; exact mul_le_one₀ (hh _) (abs_nonneg _) (hh _))
      have h2 : h (X ω) * devSum g B A π k (X ω) ≤ T := (le_abs_self _).trans (by
        rw [abs_mul]
        exact (mul_le_of_le_one_left (abs_nonneg _) (hh _)).trans (hdev k _ (hXB ω)).2)
      show _ ≤ 1 + 2 * T
      linarith
    have hmid : ∫ ω, (h (X ω) + devSum g B A π k (X ω)) ∂P = devSum g B A π (k + 1) x := by
      have hsucc := flatAt_succ hcs hf hD hg hg0 hlaw hB hA hc hq
      have hfi : ∀ j, Integrable (fun ω => flatAt g B A j (X ω)) P := fun j =>
        bdd _ 1 ((hm j).comp hXm) fun ω => abs_le.2 ⟨by linarith [(hb j (X ω)).1], (hb j (X ω)).2⟩
      have e : ∀ ω, h (X ω) + devSum g B A π k (X ω) = ∑ j ∈ Finset.range (k + 1), (flatAt g B A j (X ω) - π) := by
        intro ω
        rw [Finset.sum_range_succ', add_comm]
        rfl
      simp only [e]
      have hfs : ∀ j, Integrable (fun ω => flatAt g B A j (X ω) - π) P := fun j => (hfi j).sub (integrable_const π)
      rw [integral_finset_sum _ fun j _ => hfs j]
      refine Finset.sum_congr rfl fun j _ => ?_
      rw [integral_sub (hfi j) (integrable_const π), hsucc j x]
      simp [X]
    rw [hQe, integral_add i3 i2, integral_add (integrable_const _) i1, integral_const_mul, hmid]
    simp only [integral_const, probReal_univ, one_smul]
    push_cast
    nlinarith

/-- C110: from a point of the set, the mean square of the difference between the proportion of `N` samples in a part
and its portion of the volume is at most a constant over `N`. -/
theorem C110_proportions (l : OPQR (Row (Fin n → ℝ))) (x : Fin n → ℝ) (hl : Spec.At (Spec.flat B c) l x) (hx : x ∈ B) (N : ℕ) :
    Spec.squared P (Spec.mover cs false f (Spec.flat B c) q false hastings start (.flt 1)) A (Spec.portionOf B A) N l 0 /
      (N : ENNReal) ^ 2 ≤ ENNReal.ofReal (1 + 2 / (ε * volume.real B)) / N := by
  have h := squared_le hcs hf hD hg hg0 hsym hlaw hB hA hc hq hastings start hfin hpos hε hlow N l x hl hx 0
  have hV : 0 < volume.real B := ENNReal.toReal_pos hpos hfin
  have h1 : (0 : ℝ) ^ 2 + 2 * 0 * devSum g B A (Spec.portionOf B A) N x + N * (1 + 2 / (ε * volume.real B)) =
      N * (1 + 2 / (ε * volume.real B)) := by ring
  rw [h1, ENNReal.ofReal_mul (Nat.cast_nonneg N), ENNReal.ofReal_natCast] at h
  rcases Nat.eq_zero_or_pos N with rfl | hN
  · rw [Nat.cast_zero, ENNReal.div_zero (by
      rw [Ne, ENNReal.ofReal_eq_zero, not_le]; positivity)]
    exact le_top
  · refine (ENNReal.div_le_div_right h _).trans (le_of_eq ?_)
    have h0 : (N : ENNReal) ≠ 0 := by exact_mod_cast hN.ne'
    have ht : (N : ENNReal) ≠ ⊤ := ENNReal.natCast_ne_top N
    rw [sq, ENNReal.mul_div_mul_left _ _ h0 ht]

end

/-- C110: standard normal steps on a target that is flat within limits: the mean square of the difference between
the proportion of `N` samples in a part and its portion of the volume is at most a constant, the same for
all starts within the limits and all parts, over `N`. -/
theorem C110_box_proportions {n : ℕ} (a b : Fin n → ℝ) (hab : ∀ i, a i < b i) {c : ℝ} (hc : npz ≤ c)
    {q : (Fin n → ℝ) → (Fin n → ℝ) → ℝ} (hq : ∀ x y, 0 < q x y) {cs : Fin n → Spec.Axis} (hcs : ∀ i, (cs i).uf = none)
    (hastings : Bool) (start : Fin n → ℝ) : ∃ K : ℝ, ∀ A : Set (Fin n → ℝ), MeasurableSet A →
    ∀ (l : OPQR (Row (Fin n → ℝ))) (x : Fin n → ℝ), Spec.At (Spec.flat (Set.Icc a b) c) l x → x ∈ Set.Icc a b → ∀ N : ℕ,
      Spec.squared (normals n) (Spec.mover cs false (fun δ => .ok (.delta δ)) (Spec.flat (Set.Icc a b) c) q false hastings
        start (.flt 1)) A (Spec.portionOf (Set.Icc a b) A) N l 0 / (N : ENNReal) ^ 2 ≤ ENNReal.ofReal K / N := by
  obtain ⟨ε, hε, hlow⟩ := standard_low a b
  exact ⟨_, fun A hA l x hl hx N => C110_proportions hcs (fun _ => rfl) measurable_id standard_continuous.measurable
    (fun δ => (standard_pos δ).le) standard_even (normals_density n) measurableSet_Icc hA hc hq hastings start
    (box_finite a b) (box_volume a b hab) hε hlow l x hl hx N⟩

/-- C110: examples/mcmc/mcmc_prob3.py, started at 5: the proportion of samples up to `v` tends, in mean square, to
that of the uniform distribution from 3 to 7. -/
theorem C110_prob3_proportions (hastings : Bool) (start : Fin 1 → ℝ) : ∃ K : ℝ, ∀ v, 3 ≤ v → v ≤ 7 →
    ∀ l : OPQR (Row (Fin 1 → ℝ)), Spec.At (Spec.flat (Set.Icc (fun _ => 3) fun _ => 7) (1 / 4)) l (fun _ => 5) → ∀ N : ℕ,
      Spec.squared (normals 1) (Spec.mover (fun _ => ⟨.tuple (-1 : ℝ) (1 : ℝ), none⟩) false (fun δ => .ok (.delta δ))
        (Spec.flat (Set.Icc (fun _ => 3) fun _ => 7) (1 / 4)) (fun x y => ProbabilityTheory.gaussianPDFReal (x 0) 1 (y 0))
        false hastings start (.flt 1)) {s | s 0 ≤ v} ((v - 3) / 4) N l 0 / (N : ENNReal) ^ 2 ≤ ENNReal.ofReal K / N := by
  obtain ⟨K, hK⟩ := C110_box_proportions (n := 1) (fun _ => 3) (fun _ => 7) (fun _ => by norm_num) (c := 1 / 4)
    (q := fun x y => ProbabilityTheory.gaussianPDFReal (x 0) 1 (y 0)) (by unfold npz; norm_num)
    (fun x y => ProbabilityTheory.gaussianPDFReal_pos _ _ _ one_ne_zero)
    (cs := fun _ => ⟨.tuple (-1 : ℝ) (1 : ℝ), none⟩) (fun _ => rfl) hastings start
  refine ⟨K, fun v h3 h7 l hl N => ?_⟩
  have := hK {s | s 0 ≤ v} (measurableSet_le (measurable_pi_apply 0) measurable_const) l (fun _ => 5) hl
    ⟨fun _ => by norm_num, fun _ => by norm_num⟩ N
  rwa [portion_prob3 v ⟨h3, h7⟩] at this

end Probayes
