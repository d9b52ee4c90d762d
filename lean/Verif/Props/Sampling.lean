/-
C97: random samples of a variable are independent and have the law its transform declares; the
values of a finite set are equally likely.
-/
import Verif.Spec.Sampling
import Verif.Props.RVCont
import Verif.Lemmas.Moments
import Mathlib.Probability.StrongLaw
import Mathlib.Probability.Independence.InfinitePi
import Mathlib.GroupTheory.Perm.Basic
import Mathlib.Data.Fintype.Perm
import Mathlib.Analysis.SpecialFunctions.Log.Basic

namespace Probayes

open MeasureTheory ProbabilityTheory Filter Topology

instance streamLaw_prob : IsProbabilityMeasure Spec.streamLaw := by
  unfold Spec.streamLaw
  haveI : ∀ _ : ℕ, IsProbabilityMeasure (volume.restrict (Set.Ico (0 : ℝ) 1)) := fun _ => unitLaw_prob
  infer_instance

theorem streamLaw_eval (i : ℕ) : Spec.streamLaw.map (fun r => r i) = unitLaw :=
  (measurePreserving_eval_infinitePi (fun _ : ℕ => unitLaw) i).map_eq

theorem streamLaw_unit : ∀ᵐ r ∂Spec.streamLaw, ∀ i, r i ∈ Set.Ico (0 : ℝ) 1 := by
  rw [ae_all_iff]
  intro i
  have h : ∀ᵐ u ∂unitLaw, u ∈ Set.Ico (0 : ℝ) 1 := ae_restrict_mem measurableSet_Ico
  rw [← streamLaw_eval i] at h
  exact ae_of_ae_map (measurable_pi_apply i).aemeasurable h

theorem unitLaw_below {c : ℝ} (h0 : 0 ≤ c) (h1 : c ≤ 1) :
    unitLaw (Set.Ico 0 1 ∩ Set.Iic c) = ENNReal.ofReal c := by
  rw [Measure.restrict_apply (measurableSet_Ico.inter measurableSet_Iic)]
  have h : volume (Set.Ico (0 : ℝ) 1 ∩ Set.Iic c ∩ Set.Ico 0 1) = volume (Set.Icc (0 : ℝ) c) := by
    refine le_antisymm (measure_mono ?_) ?_
    · rintro u ⟨⟨⟨a, -⟩, b⟩, -⟩
      exact ⟨a, b⟩
    · rw [Real.volume_Icc, sub_zero]
      calc ENNReal.ofReal c = volume (Set.Ico (0 : ℝ) c) := by rw [Real.volume_Ico, sub_zero]
        _ ≤ volume (Set.Ico (0 : ℝ) 1 ∩ Set.Iic c ∩ Set.Ico 0 1) := by
          refine measure_mono ?_
          intro u hu
          have hu1 : u < 1 := lt_of_lt_of_le hu.2 h1
          exact ⟨⟨⟨hu.1, hu1⟩, hu.2.le⟩, hu.1, hu1⟩
  rw [h, Real.volume_Icc, sub_zero]

/-- Samples obtained one by one from the draws by the same map. -/
theorem stream_joint (φ : ℝ → ℝ) (n : ℕ) (t c : Fin n → ℝ) (h0 : ∀ i, 0 ≤ c i) (h1 : ∀ i, c i ≤ 1)
    (hφ : ∀ i, ∀ u ∈ Set.Ico (0 : ℝ) 1, φ u ≤ t i ↔ u ≤ c i) :
    Spec.streamLaw {r | ∀ i : Fin n, φ (r i) ≤ t i} = ∏ i, ENNReal.ofReal (c i) := by
  let c' : ℕ → ℝ := fun i => if h : i < n then c ⟨i, h⟩ else 0
  have hc : ∀ i : Fin n, c' i = c i := fun i => by simp [c']
  have hset : Spec.streamLaw {r | ∀ i : Fin n, φ (r i) ≤ t i} =
      Spec.streamLaw (Set.pi (Finset.range n) fun i => Set.Ico 0 1 ∩ Set.Iic (c' i)) := by
    refine measure_congr ?_
    filter_upwards [streamLaw_unit] with r hr
    refine propext ?_
    show (∀ i : Fin n, φ (r i) ≤ t i) ↔ r ∈ Set.pi (Finset.range n) fun i => Set.Ico 0 1 ∩ Set.Iic (c' i)
    constructor
    · intro h i hi
      have hi' : i < n := by simpa using hi
      refine ⟨hr i, ?_⟩
      have := (hφ ⟨i, hi'⟩ (r i) (hr i)).mp (h ⟨i, hi'⟩)
      rw [← hc] at this
      exact this
    · intro h i
      refine (hφ i (r i) (hr i)).mpr ?_
      have := (h i (by simp)).2
      rwa [← hc]
  rw [hset]
  unfold Spec.streamLaw
  rw [Measure.infinitePi_pi (fun _ : ℕ => unitLaw)
    (fun i _ => measurableSet_Ico.inter measurableSet_Iic), Finset.prod_range]
  refine Finset.prod_congr rfl fun i _ => ?_
  rw [hc, unitLaw_below (h0 i) (h1 i)]

/-- The fraction of samples below a value tends to its share. -/
theorem stream_limit (φ : ℝ → ℝ) (t c : ℝ) (h0 : 0 ≤ c) (h1 : c ≤ 1)
    (hφ : ∀ u ∈ Set.Ico (0 : ℝ) 1, φ u ≤ t ↔ u ≤ c) :
    ∀ᵐ r ∂Spec.streamLaw, Tendsto (fun n : ℕ =>
      (((List.range n).countP fun i => decide (φ (r i) ≤ t) : ℕ) : ℝ) / n) atTop (𝓝 c) := by
  classical
  let A : Set ℝ := Set.Ico 0 1 ∩ Set.Iic c
  have hA : MeasurableSet A := measurableSet_Ico.inter measurableSet_Iic
  let g : ℝ → ℝ := A.indicator fun _ => 1
  have hg : Measurable g := measurable_const.indicator hA
  let Z : ℕ → (ℕ → ℝ) → ℝ := fun k r => g (r k)
  have hint : Integrable (Z 0) Spec.streamLaw := by
    refine Integrable.of_bound (C := 1) (hg.comp (measurable_pi_apply 0)).aestronglyMeasurable ?_
    refine Filter.Eventually.of_forall fun r => ?_
    simp only [Z, g, Set.indicator]
    split <;> simp
  have hlaw := strong_law_ae_real Z hint (by
      intro i j hij
      have hi := (iIndepFun_infinitePi (P := fun _ : ℕ => unitLaw) (X := fun _ u => g u)
        (fun _ => hg)).indepFun hij
      exact hi)
    (by
      intro k
      refine ⟨(hg.comp (measurable_pi_apply k)).aemeasurable, (hg.comp (measurable_pi_apply 0)).aemeasurable, ?_⟩
      show Spec.streamLaw.map (g ∘ fun r => r k) = Spec.streamLaw.map (g ∘ fun r => r 0)
      rw [← Measure.map_map hg (measurable_pi_apply k), ← Measure.map_map hg (measurable_pi_apply 0),
        streamLaw_eval, streamLaw_eval])
  have hmean : ∫ r, Z 0 r ∂Spec.streamLaw = c := by
    have h2 : ∫ r, g (r 0) ∂Spec.streamLaw = ∫ u, g u ∂unitLaw := by
      rw [← streamLaw_eval 0, integral_map (measurable_pi_apply 0).aemeasurable hg.aestronglyMeasurable]
    show ∫ r, g (r 0) ∂Spec.streamLaw = c
    rw [h2, integral_indicator_const _ hA, Measure.real, unitLaw_below h0 h1, ENNReal.toReal_ofReal h0]
    simp
  rw [hmean] at hlaw
  filter_upwards [hlaw, streamLaw_unit] with r hr hu
  refine hr.congr fun n => ?_
  congr 1
  have hz : ∀ k, Z k r = if φ (r k) ≤ t then 1 else 0 := by
    intro k
    simp only [Z, g, Set.indicator]
    have : r k ∈ A ↔ φ (r k) ≤ t := by
      rw [hφ _ (hu k)]
      exact ⟨fun h => h.2, fun h => ⟨hu k, h⟩⟩
    by_cases h : φ (r k) ≤ t
    · rw [if_pos (this.mpr h), if_pos h]
    · rw [if_neg (fun h' => h (this.mp h')), if_neg h]
  induction n with
  | zero => simp
  | succ n ih =>
    rw [Finset.sum_range_succ, ih, List.range_succ, List.countP_append, hz]
    by_cases h : φ (r n) ≤ t <;> simp [h]

/-! ### Float variables -/

/-- A sample is below `t` if its draw is below the share of `t`. -/
theorem through_le {uf : UFun} {lo hi t : ℝ} (hlt : lo < hi) (huf : Spec.Monotone uf lo hi)
    (ht : t ∈ Set.Icc lo hi) : 0 ≤ Spec.portion uf lo hi t ∧ Spec.portion uf lo hi t ≤ 1 ∧
    ∀ u ∈ Set.Ico (0 : ℝ) 1, uf.inv (uf.fwd lo + (uf.fwd hi - uf.fwd lo) * u) ≤ t ↔
      u ≤ Spec.portion uf lo hi t := by
  have l0 : lo ∈ Set.Icc lo hi := ⟨le_refl _, hlt.le⟩
  have l1 : hi ∈ Set.Icc lo hi := ⟨hlt.le, le_refl _⟩
  rcases uf with _ | ⟨f, g⟩
  · have hd : 0 < hi - lo := by linarith
    simp only [Spec.portion, Spec.through, UFun.inv, UFun.fwd, id]
    refine ⟨div_nonneg (by linarith [ht.1]) hd.le, (div_le_one hd).mpr (by linarith [ht.2]), ?_⟩
    intro u _
    rw [le_div_iff₀ hd]
    constructor <;> intro h <;> linarith
  · obtain ⟨hc, hm, hg⟩ := huf
    simp only [Spec.portion, Spec.through, UFun.inv, UFun.fwd]
    rcases hm with hm | hm
    · have hd : 0 < f hi - f lo := by linarith [hm l0 l1 hlt]
      have m0 := hm.monotoneOn l0 ht ht.1
      have m1 := hm.monotoneOn ht l1 ht.2
      refine ⟨div_nonneg (by linarith) hd.le, (div_le_one hd).mpr (by linarith), ?_⟩
      intro u hu
      obtain ⟨x, hx, hxy⟩ := intermediate_value_Icc hlt.le hc
        (show f lo + (f hi - f lo) * u ∈ Set.Icc (f lo) (f hi) from
          ⟨by nlinarith [hu.1], by nlinarith [hu.2]⟩)
      rw [← hxy, hg x hx, le_div_iff₀ hd, ← hm.le_iff_le hx ht, hxy]
      constructor <;> intro h <;> linarith
    · have hd : f hi - f lo < 0 := by linarith [hm l0 l1 hlt]
      have m0 := hm.antitoneOn l0 ht ht.1
      have m1 := hm.antitoneOn ht l1 ht.2
      refine ⟨div_nonneg_of_nonpos (by linarith) hd.le, (div_le_one_of_neg hd).mpr (by linarith), ?_⟩
      intro u hu
      obtain ⟨x, hx, hxy⟩ := intermediate_value_Icc' hlt.le hc
        (show f lo + (f hi - f lo) * u ∈ Set.Icc (f hi) (f lo) from
          ⟨by nlinarith [hu.2], by nlinarith [hu.1]⟩)
      rw [← hxy, hg x hx, le_div_iff_of_neg hd, ← hm.le_iff_ge ht hx, hxy]
      constructor <;> intro h <;> linarith

section
variable (s : FSet) (lo hi : ℝ) (hlo : (FloatVar.make s).lo = lo) (hhi : (FloatVar.make s).hi = hi)
  (hlt : lo < hi) (uf : UFun) (huf : Spec.Monotone uf lo hi)
include hlo hhi hlt huf

omit hlt huf in
theorem evaluate_random (n : ℕ) (hn : 1 ≤ n) (r : ℕ → ℝ) :
    (FloatVar.make s).evaluate uf (-(n : ℤ)) r = .ok (.array ((List.range n).map fun i =>
      uf.inv (uf.fwd lo + (uf.fwd hi - uf.fwd lo) * r i))) ∧
    (FloatVar.make s).evaluate uf 0 r =
      .ok (.scalar (uf.inv (uf.fwd lo + (uf.fwd hi - uf.fwd lo) * r 0))) := by
  obtain ⟨a, b, hm⟩ := make_spec s lo hi hlo hhi
  have h0 : ¬ (-(n : ℤ) = 0) := by omega
  have h1 : -(n : ℤ) < 0 := by omega
  rw [hm, evaluate_eq, evaluate_eq]
  refine ⟨?_, by simp only [uniform, if_true]⟩
  simp only [uniform, if_neg h0, if_pos h1, Int.natAbs_neg, Int.natAbs_natCast, List.map_map]
  rfl

/-- C97: `n` random values of a float variable are independent, each at most `t` with the share
of the transformed set below `t` as probability. -/
theorem C97_joint (n : ℕ) (hn : 1 ≤ n) (t : Fin n → ℝ) (ht : ∀ i, lo ≤ t i ∧ t i ≤ hi) :
    Spec.streamLaw {r | ∃ xs : List ℝ, (FloatVar.make s).evaluate uf (-(n : ℤ)) r = .ok (.array xs) ∧
        ∃ h : xs.length = n, ∀ i : Fin n, xs[i.1]'(h ▸ i.2) ≤ t i} =
      ∏ i, ENNReal.ofReal (Spec.portion uf lo hi (t i)) := by
  rw [← stream_joint (fun u => uf.inv (uf.fwd lo + (uf.fwd hi - uf.fwd lo) * u)) n t
    (fun i => Spec.portion uf lo hi (t i)) (fun i => (through_le hlt huf (ht i)).1)
    (fun i => (through_le hlt huf (ht i)).2.1) (fun i => (through_le hlt huf (ht i)).2.2)]
  congr 1
  ext r
  simp only [Set.mem_setOf_eq]
  rw [(evaluate_random s lo hi hlo hhi uf n hn r).1]
  constructor
  · rintro ⟨xs, h1, h2, h3⟩ i
    obtain rfl := SA.array.inj (Except.ok.inj h1)
    have := h3 i
    simpa using this
  · intro h
    exact ⟨_, rfl, by simp, fun i => by simpa using h i⟩

/-- C97: one random value (`{0}`, or no values given). -/
theorem C97_one (t : ℝ) (ht : lo ≤ t ∧ t ≤ hi) :
    Spec.streamLaw {r | ∃ x : ℝ, (FloatVar.make s).evaluate uf 0 r = .ok (.scalar x) ∧ x ≤ t} =
      ENNReal.ofReal (Spec.portion uf lo hi t) := by
  have h := stream_joint (fun u => uf.inv (uf.fwd lo + (uf.fwd hi - uf.fwd lo) * u)) 1 (fun _ => t)
    (fun _ => Spec.portion uf lo hi t) (fun _ => (through_le hlt huf ht).1)
    (fun _ => (through_le hlt huf ht).2.1) (fun _ => (through_le hlt huf ht).2.2)
  rw [Fin.prod_univ_one] at h
  rw [← h]
  congr 1
  ext r
  simp only [Set.mem_setOf_eq]
  rw [(evaluate_random s lo hi hlo hhi uf 1 (le_refl _) r).2]
  constructor
  · rintro ⟨x, h1, h2⟩ i
    obtain rfl := SA.scalar.inj (Except.ok.inj h1)
    simpa using h2
  · intro h
    exact ⟨_, rfl, by simpa using h 0⟩

/-- C97: the fraction of `n` random values that are at most `t` tends to the share of the
transformed set below `t`, almost surely. -/
theorem C97_limit (t : ℝ) (ht : lo ≤ t ∧ t ≤ hi) :
    ∀ᵐ r ∂Spec.streamLaw, ∃ xs : ℕ → List ℝ,
      (∀ n : ℕ, 1 ≤ n → (FloatVar.make s).evaluate uf (-(n : ℤ)) r = .ok (.array (xs n)) ∧ (xs n).length = n) ∧
      Tendsto (fun n => (((xs n).countP fun x => decide (x ≤ t) : ℕ) : ℝ) / n) atTop
        (𝓝 (Spec.portion uf lo hi t)) := by
  filter_upwards [stream_limit (fun u => uf.inv (uf.fwd lo + (uf.fwd hi - uf.fwd lo) * u)) t
    (Spec.portion uf lo hi t) (through_le hlt huf ht).1 (through_le hlt huf ht).2.1
    (through_le hlt huf ht).2.2] with r hr
  refine ⟨fun n => (List.range n).map fun i => uf.inv (uf.fwd lo + (uf.fwd hi - uf.fwd lo) * r i),
    fun n hn => ⟨(evaluate_random s lo hi hlo hhi uf n hn r).1, by simp⟩, ?_⟩
  refine hr.congr fun n => ?_
  rw [List.countP_map]
  rfl

end

/-- C97 for a random variable with cumulative functions `F` and `G`: `n` random values are
independent, each with the law `F` describes, restricted to the declared set. -/
theorem C97_cumulative (v : CRV) (F G : ℝ → ℝ) (hpf : v.pfun = some (F, G)) (huf : v.ufun = none)
    (lo hi : ℝ) (hlo : v.var.lo = lo) (hhi : v.var.hi = hi) (hlt : lo < hi) (hF : Spec.CDF F G lo hi)
    (n : ℕ) (hn : 1 ≤ n) (t : Fin n → ℝ) (ht : ∀ i, lo ≤ t i ∧ t i ≤ hi) :
    Spec.streamLaw {r | ∃ xs : List ℝ, v.evaluate true (.count (-(n : ℤ))) r = .ok (.array xs) ∧
        ∃ h : xs.length = n, ∀ i : Fin n, xs[i.1]'(h ▸ i.2) ≤ t i} =
      ∏ i, ENNReal.ofReal ((F (t i) - F lo) / (F hi - F lo)) := by
  have l0 : lo ∈ Set.Icc lo hi := ⟨le_refl _, hlt.le⟩
  have l1 : hi ∈ Set.Icc lo hi := ⟨hlt.le, le_refl _⟩
  have hd : 0 < F hi - F lo := by linarith [hF.1 l0 l1 hlt]
  rw [← stream_joint (fun u => G (F lo + (F hi - F lo) * u)) n t
    (fun i => (F (t i) - F lo) / (F hi - F lo))
    (fun i => div_nonneg (by linarith [hF.1.monotoneOn l0 (ht i) (ht i).1]) hd.le)
    (fun i => (div_le_one hd).mpr (by linarith [hF.1.monotoneOn (ht i) l1 (ht i).2]))
    (by
      intro i u hu
      obtain ⟨k0, k1, k2, -⟩ := cdf_point hlt hF u hu.1 hu.2.le
      rw [le_div_iff₀ hd, ← hF.1.le_iff_le ⟨k1, k2⟩ (ht i), k0]
      constructor <;> intro h <;> linarith)]
  congr 1
  ext r
  simp only [Set.mem_setOf_eq]
  have h0 : ¬ (-(n : ℤ) = 0) := by omega
  have h1 : -(n : ℤ) < 0 := by omega
  rw [evaluate_pfun v F G hpf huf lo hi hlo hhi]
  simp only [uniform, if_neg h0, if_pos h1, Int.natAbs_neg, Int.natAbs_natCast, SA.toVArg, VArg.map,
    List.map_map]
  constructor
  · rintro ⟨xs, h1, h2, h3⟩ i
    obtain rfl := VArg.array.inj (Except.ok.inj h1)
    have := h3 i
    simpa using this
  · intro h
    exact ⟨_, rfl, by simp, fun i => by simpa using h i⟩

/-! ### Examples of float variables -/

/-- C97 with a logarithmic transform (examples/var_examples/zipf1dsamp.py: a value in `[lo, hi]`, 0 < lo): a random
value is at most `t` with probability `log (t / lo) / log (hi / lo)`. -/
theorem C97_logarithmic (s : FSet) (lo hi : ℝ) (hlo : (FloatVar.make s).lo = lo)
    (hhi : (FloatVar.make s).hi = hi) (h0 : 0 < lo) (hlt : lo < hi) (t : ℝ) (ht : lo ≤ t ∧ t ≤ hi) :
    Spec.streamLaw {r | ∃ x : ℝ,
        (FloatVar.make s).evaluate (some (Real.log, Real.exp)) 0 r = .ok (.scalar x) ∧ x ≤ t} =
      ENNReal.ofReal (Real.log (t / lo) / Real.log (hi / lo)) := by
  have huf : Spec.Monotone (some (Real.log, Real.exp)) lo hi := by
    refine ⟨Real.continuousOn_log.mono fun x hx => ?_, Or.inl fun x hx y _ h => ?_, fun x hx => ?_⟩
    · exact (lt_of_lt_of_le h0 hx.1).ne'
    · exact Real.log_lt_log (lt_of_lt_of_le h0 hx.1) h
    · exact Real.exp_log (lt_of_lt_of_le h0 hx.1)
  rw [C97_one s lo hi hlo hhi hlt _ huf t ht, Real.log_div (lt_of_lt_of_le h0 ht.1).ne' h0.ne',
    Real.log_div (h0.trans hlt).ne' h0.ne']
  rfl

/-- A decreasing transform also meets the hypothesis. -/
example : Spec.Monotone (some (fun x => -x, fun y => -y)) 0 1 :=
  ⟨continuous_neg.continuousOn, Or.inr fun _ _ _ _ h => neg_lt_neg h, fun _ _ => neg_neg _⟩

/-- Two values of a variable over [1, 8] on a logarithmic scale (the docstring of
`Variable.evaluate`): both are at most 2 with probability 1/9. -/
example : Spec.streamLaw {r | ∃ xs : List ℝ, (FloatVar.make (.list ⟨(1 : ℝ), false⟩ ⟨(8 : ℝ), false⟩)).evaluate
      (some (Real.log, Real.exp)) (-(2 : ℕ)) r = .ok (.array xs) ∧
        ∃ h : xs.length = 2, ∀ i : Fin 2, xs[i.1]'(by rw [h]; exact i.2) ≤ 2} = ENNReal.ofReal (1 / 9) := by
  have hn : ¬ (((8 : ℝ) : EReal) < ((1 : ℝ) : EReal)) := by
    rw [EReal.coe_lt_coe_iff]; norm_num
  have huf : Spec.Monotone (some (Real.log, Real.exp)) 1 8 :=
    ⟨Real.continuousOn_log.mono fun x hx => (lt_of_lt_of_le one_pos hx.1).ne',
      Or.inl fun x hx y _ h => Real.log_lt_log (lt_of_lt_of_le one_pos hx.1) h,
      fun x hx => Real.exp_log (lt_of_lt_of_le one_pos hx.1)⟩
  rw [C97_joint (.list ⟨(1 : ℝ), false⟩ ⟨(8 : ℝ), false⟩) 1 8
    (congrArg FloatVar.lo (if_neg hn))
    (congrArg FloatVar.hi (if_neg hn)) (by norm_num) _ huf 2 (by norm_num) (fun _ => 2)
    (fun _ => by norm_num), Fin.prod_univ_two]
  have h8 : Real.log 8 = 3 * Real.log 2 := by
    rw [show (8 : ℝ) = 2 ^ 3 by norm_num, Real.log_pow]; norm_num
  have h2 : Real.log 2 ≠ 0 := (Real.log_pos (by norm_num)).ne'
  have hs : Spec.portion (some (Real.log, Real.exp)) 1 8 2 = 1 / 3 := by
    simp only [Spec.portion, Spec.through, Real.log_one, sub_zero, h8]
    field_simp
  rw [hs, ← ENNReal.ofReal_mul (by norm_num)]
  norm_num

/-- Two values of the triangular distribution: both are at most 1/2 with probability 1/16. -/
example : Spec.streamLaw {r | ∃ xs : List ℝ, triangular.evaluate true (.count (-((2 : ℕ) : ℤ))) r =
      .ok (.array xs) ∧ ∃ h : xs.length = 2, ∀ i : Fin 2, xs[i.1]'(by rw [h]; exact i.2) ≤ 1 / 2} =
    ENNReal.ofReal (1 / 16) := by
  rw [C97_cumulative triangular _ _ rfl rfl 0 1 triangular_lo triangular_hi zero_lt_one triangular_cdf
    2 (by norm_num) (fun _ => 1 / 2) (fun _ => by norm_num), Fin.prod_univ_two,
    ← ENNReal.ofReal_mul (by norm_num)]
  norm_num

/-! ### Finite sets -/

section
open Classical

/-- C97: one random value of a finite set (`{0}`): of the equally likely draws of the index, as
many give `x` as `x` occurs in the set. -/
theorem C97_equally {α : Type} (isBool : Bool) (vset : List α) (perm : List ℕ) (x : α)
    (hx : x ∈ vset) (hnd : vset.Nodup) :
    (Finset.univ.filter fun r : Fin vset.length =>
      evaluateD isBool vset (some 0) r perm = .ok (.scalar x)).card = 1 := by
  obtain ⟨j, hj, rfl⟩ := List.mem_iff_getElem.mp hx
  rw [Finset.card_eq_one]
  refine ⟨⟨j, hj⟩, ?_⟩
  ext r
  simp only [Finset.mem_filter, Finset.mem_univ, true_and, Finset.mem_singleton, evaluateD, if_true,
    List.getElem?_eq_getElem r.2]
  constructor
  · intro h
    exact Fin.ext ((hnd.getElem_inj_iff).mp (DOut.scalar.inj (Except.ok.inj h)))
  · rintro rfl
    rfl

/-- Each position of a random permutation is equally likely to hold each number. -/
theorem perm_position (n : ℕ) (M : Finset (Fin n)) (i : Fin n) :
    (Finset.univ.filter fun σ : Equiv.Perm (Fin n) => σ i ∈ M).card * n = M.card * n.factorial := by
  have hsame : ∀ k : Fin n, (Finset.univ.filter fun σ : Equiv.Perm (Fin n) => σ k ∈ M).card =
      (Finset.univ.filter fun σ : Equiv.Perm (Fin n) => σ i ∈ M).card := by
    intro k
    refine Finset.card_bij (fun σ _ => σ * Equiv.swap i k) ?_ ?_ ?_
    · intro σ h
      simpa [Equiv.Perm.mul_apply] using h
    · intro a _ b _ h
      exact mul_right_cancel h
    · intro σ h
      refine ⟨σ * Equiv.swap i k, ?_, ?_⟩
      · simpa [Equiv.Perm.mul_apply] using h
      · rw [mul_assoc, Equiv.swap_mul_self, mul_one]
  have h1 : ∑ k : Fin n, (Finset.univ.filter fun σ : Equiv.Perm (Fin n) => σ k ∈ M).card =
      (Finset.univ.filter fun σ : Equiv.Perm (Fin n) => σ i ∈ M).card * n := by
    rw [Finset.sum_congr rfl fun k _ => hsame k]
    simp [mul_comm]
  rw [← h1]
  simp only [Finset.card_filter]
  rw [Finset.sum_comm]
  have h2 : ∀ σ : Equiv.Perm (Fin n), (∑ k : Fin n, if σ k ∈ M then 1 else 0) = M.card := by
    intro σ
    rw [Equiv.sum_comp σ fun m => if m ∈ M then 1 else 0]
    simp
  rw [Finset.sum_congr rfl fun σ _ => h2 σ]
  simp [Fintype.card_perm, mul_comm]

/-- The permutations for which the `i`-th of `n` random values of the finite set is `x`. -/
noncomputable def Spec.arranged {α : Type} (isBool : Bool) (vset : List α) (n : ℕ) (i : Fin n) (x : α) :
    Finset (Equiv.Perm (Fin n)) :=
  Finset.univ.filter fun σ => ∃ ys : List α,
    evaluateD isBool vset (some (-(n : ℤ))) 0 (List.ofFn fun k => (σ k : ℕ)) = .ok (.array ys) ∧
      ys[i.1]? = some x

theorem arranged_card {α : Type} (isBool : Bool) (vset : List α) (n : ℕ) (i : Fin n) (x : α)
    (hL : lengthD isBool vset = vset.length) (hne : vset ≠ []) :
    (Spec.arranged isBool vset n i x).card * n =
      (Finset.univ.filter fun m : Fin n => vset[m.1 % vset.length]? = some x).card * n.factorial := by
  rw [← perm_position n _ i]
  congr 2
  ext σ
  have hpos : 0 < vset.length := List.length_pos_of_ne_nil hne
  have hn0 : ¬ (-(n : ℤ) = 0) := by have := i.2; omega
  have hn1 : ¬ (0 < -(n : ℤ)) := by omega
  obtain ⟨ys, hy, hl, hg⟩ := takeIdx_ok vset
    ((List.ofFn fun k => (σ k : ℕ)).map (· % vset.length))
    (by intro a ha; obtain ⟨b, -, rfl⟩ := List.mem_map.mp ha; exact Nat.mod_lt _ hpos)
  have hev : evaluateD isBool vset (some (-(n : ℤ))) 0 (List.ofFn fun k => (σ k : ℕ)) =
      .ok (.array ys) := by
    simp only [evaluateD, if_neg hn0, if_neg hn1, hL, hy, Bind.bind, Except.bind, Pure.pure, Except.pure]
  have hi := hg i.1 (by simp)
  simp only [List.getElem_map, List.getElem_ofFn, Fin.eta] at hi
  simp only [Spec.arranged, Finset.mem_filter, Finset.mem_univ, true_and, hev]
  rw [← hi]
  constructor
  · rintro ⟨zs, h1, h2⟩
    obtain rfl := DOut.array.inj (Except.ok.inj h1)
    exact h2
  · intro h
    exact ⟨ys, rfl, h⟩

/-- How many of the first `L * q` numbers leave the remainder `j`. -/
theorem remainder_count (L q j : ℕ) (hj : j < L) :
    (Finset.univ.filter fun m : Fin (L * q) => m.1 % L = j).card = q := by
  refine Eq.trans (Eq.symm ?_) (Finset.card_fin q)
  refine Finset.card_bij (fun k _ => ⟨j + L * k.1, ?_⟩) ?_ ?_ ?_
  · have : L * (k.1 + 1) ≤ L * q := Nat.mul_le_mul_left _ k.2
    rw [Nat.mul_add, Nat.mul_one] at this
    omega
  · intro k _
    simp [Nat.add_mul_mod_self_left, Nat.mod_eq_of_lt hj]
  · intro a _ b _ h
    have h' : j + L * a.1 = j + L * b.1 := congrArg Fin.val h
    exact Fin.ext (Nat.eq_of_mul_eq_mul_left (by omega) (Nat.add_left_cancel h'))
  · intro m hm
    have hm' : m.1 % L = j := by simpa using hm
    refine ⟨⟨m.1 / L, Nat.div_lt_of_lt_mul m.2⟩, Finset.mem_univ _, Fin.ext ?_⟩
    show j + L * (m.1 / L) = m.1
    rw [← hm']
    exact Nat.mod_add_div _ _

/-- C97 as asked: each of `n` random values of a finite set is equally likely to be any of them. -/
def C97_claim : Prop :=
  ∀ (vset : List ℤ), vset ≠ [] → vset.Nodup → ∀ (n : ℕ) (i : Fin n), ∀ x ∈ vset,
    (Spec.arranged false vset n i x).card * vset.length = n.factorial

/-- C97 when the number of values is a multiple of the size of the set.  Missing: other numbers,
for which the code favours the first values of the set. -/
theorem C97_finite_partial {α : Type} (isBool : Bool) (vset : List α) (hnd : vset.Nodup)
    (hL : lengthD isBool vset = vset.length) (n : ℕ) (hn : vset.length ∣ n) (i : Fin n)
    (x : α) (hx : x ∈ vset) :
    (Spec.arranged isBool vset n i x).card * vset.length = n.factorial := by
  obtain ⟨q, rfl⟩ := hn
  obtain ⟨j, hj, rfl⟩ := List.mem_iff_getElem.mp hx
  have h := arranged_card isBool vset _ i vset[j] hL (List.ne_nil_of_mem hx)
  have hM : (Finset.univ.filter fun m : Fin (vset.length * q) =>
      vset[m.1 % vset.length]? = some vset[j]).card = q := by
    refine Eq.trans ?_ (remainder_count vset.length q j hj)
    congr 1
    ext m
    have hm : m.1 % vset.length < vset.length := Nat.mod_lt _ (by omega)
    simp only [Finset.mem_filter, Finset.mem_univ, true_and, List.getElem?_eq_getElem hm,
      Option.some.injEq, hnd.getElem_inj_iff]
  rw [hM] at h
  have hq : 0 < q := by
    rcases Nat.eq_zero_or_pos q with rfl | h0
    · exact absurd i.2 (by simp)
    · exact h0
  refine Nat.eq_of_mul_eq_mul_right hq ?_
  rw [mul_assoc, h, mul_comm]

/-- C97 for any number of values: the share of the permutations that put `x` in a place is the
share of the numbers below `n` whose remainder picks `x`. -/
theorem C97_any_partial {α : Type} (isBool : Bool) (vset : List α) (hne : vset ≠ [])
    (hL : lengthD isBool vset = vset.length) (n : ℕ) (i : Fin n) (x : α) :
    ((Spec.arranged isBool vset n i x).card : ℚ) / n.factorial =
      (Finset.univ.filter fun m : Fin n => vset[m.1 % vset.length]? = some x).card / n := by
  have hn : (n : ℚ) ≠ 0 := by have := i.2; exact_mod_cast (by omega : n ≠ 0)
  have hf : (n.factorial : ℚ) ≠ 0 := by exact_mod_cast n.factorial_ne_zero
  rw [div_eq_div_iff hf hn]
  exact_mod_cast arranged_card isBool vset n i x hL hne

/-- One random value asked for as `{-1}` is always the first of the set. -/
theorem C97_single_first {α : Type} (x : α) (xs : List α) (σ : Equiv.Perm (Fin 1)) :
    evaluateD false (x :: xs) (some (-1)) 0 (List.ofFn fun k => (σ k : ℕ)) = .ok (.array [x]) := by
  have h : (List.ofFn fun k : Fin 1 => (σ k : ℕ)) = [0] := by simp
  rw [h]
  simp [evaluateD, takeIdx, lengthD, Bind.bind, Except.bind, Pure.pure, Except.pure]

/-- The claim fails: `{-1}` never gives the second value. -/
theorem C97_claim_fails : ¬ C97_claim := by
  intro h
  have h1 := h [10, 20] (by simp) (by decide) 1 0 20 (by simp)
  have h2 : Spec.arranged false [(10 : ℤ), 20] 1 0 20 = ∅ := by
    refine Finset.filter_eq_empty_iff.mpr ?_
    rintro σ - ⟨ys, hy, hv⟩
    have h3 := C97_single_first (10 : ℤ) [20] σ
    simp only [Nat.cast_one] at hy
    rw [h3] at hy
    obtain rfl := DOut.array.inj (Except.ok.inj hy)
    simp at hv
  rw [h2] at h1
  simp at h1

/-- Six values of a set of three. -/
example (i : Fin 6) : (Spec.arranged false ['a', 'b', 'c'] 6 i 'b').card * 3 = Nat.factorial 6 :=
  C97_finite_partial false ['a', 'b', 'c'] (by decide) rfl 6 (by decide) i 'b' (by simp)

end

end Probayes
