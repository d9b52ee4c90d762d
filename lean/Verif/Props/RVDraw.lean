/-
C104: the random draws of a Boolean variable follow the probability it reports.
-/
import Verif.Model.RVDraw
import Verif.Props.RVState
import Verif.Props.Sampling

namespace Probayes

open MeasureTheory ProbabilityTheory Filter Topology

/-- Independent draws of the Bernoulli distributions. -/
structure Spec.Coins {Ω : Type} [MeasurableSpace Ω] (μ : Measure Ω) (coin : Ω → ℝ → ℕ → Bool) : Prop where
  measurable : ∀ b i, Measurable fun ω => coin ω b i
  independent : ∀ b, 0 ≤ b → b ≤ 1 → iIndepFun (fun i ω => coin ω b i) μ
  chance : ∀ b, 0 ≤ b → b ≤ 1 → ∀ i, μ {ω | coin ω b i = true} = ENNReal.ofReal b

/-- True as 1 and False as 0. -/
def Spec.truth (b : Bool) : ℚ := if b then 1 else 0

/-- C104 as intended: whatever was set to a Boolean variable before, a value drawn with `{0}` is
True or False with the probability that calling the variable with that value reports. -/
def C104_claim : Prop :=
  ∀ (Ω : Type) (_ : MeasurableSpace Ω) (μ : Measure Ω) (coin : Ω → ℝ → ℕ → Bool) (R : Ω → ℕ),
    IsProbabilityMeasure μ → Spec.Coins μ coin → (∀ i < 2, μ {ω | R ω = i} = 1 / 2) →
    ∀ (fmt : Val → Str) (name : Str) (prob : Option RVProb) (ps : PSpec) (s : RVState) (ops : List RVOp),
      newRV name true [0, 1] prob ps = .ok s → (∀ op ∈ ops, ¬ Spec.SetsSet op) →
      Spec.GoodName fmt (s.run ops).toDRV →
      ∀ v : Bool, ∀ d, (s.run ops).call fmt (fun _ _ => false) (.scalar (Spec.truth v)) 0 [] = .ok d →
        μ {ω | (s.run ops).evaluate (coin ω) (.count 0) (R ω) [] = .ok (.scalar (Spec.truth v))} =
          ENNReal.ofReal (d.at [])

/-! ### The state after a bias was set -/

theorem quiet_sfun (op : RVOp) (s : RVState) (h : s.defProb = false) (ho : ¬ Spec.SetsProb op) :
    (s.apply op).1.defProb = false ∧ (s.apply op).1.sfun = s.sfun ∧ (s.apply op).1.prob = s.prob ∧
      (s.apply op).1.isBool = s.isBool := by
  cases op with
  | vset vals =>
    simp only [RVState.apply, RVState.setVset]
    split
    · exact ⟨h, rfl, rfl, rfl⟩
    · rw [if_neg (by rw [h]; simp)]
      exact ⟨h, rfl, rfl, rfl⟩
  | prob p q => exact absurd trivial ho
  | tran t => exact ⟨h, rfl, rfl, rfl⟩
  | pscale q =>
    simp only [RVState.apply, RVState.setPscale]
    split <;> exact ⟨h, rfl, rfl, rfl⟩

theorem quiet_run (ops : List RVOp) : ∀ s : RVState, s.defProb = false → (∀ op ∈ ops, ¬ Spec.SetsProb op) →
    (s.run ops).sfun = s.sfun ∧ (s.run ops).prob = s.prob ∧ (s.run ops).isBool = s.isBool := by
  induction ops with
  | nil => exact fun s _ _ => ⟨rfl, rfl, rfl⟩
  | cons op ops ih =>
    intro s h ho
    obtain ⟨a1, a2, a3, a4⟩ := quiet_sfun op s h (ho op (by simp))
    obtain ⟨b1, b2, b3⟩ := ih _ a1 fun o h' => ho o (by simp [h'])
    rw [run_cons]
    exact ⟨b1.trans a2, b2.trans a3, b3.trans a4⟩

section
variable {name : Str} {vset : List ℚ} {prob : Option RVProb} {ps : PSpec} {s₀ : RVState}
  (hn : newRV name true vset prob ps = .ok s₀) (l l' : List RVOp) (b : ℝ)
  (hfar : 501e-8 < |b - 1 / 2|) (ps' : PSpec) (hps : Spec.ScaleOk ps') (hl' : ∀ op ∈ l', ¬ Spec.SetsProb op)
  (s : RVState) (hs : s = s₀.run (l ++ .prob (some (.scalar b)) ps' :: l'))

include hn hfar hps hl' hs

theorem biased_state : s.drawBias = some b ∧ s.prob = .fn (bernoulliFn b) ∧ evalPscale s.scale.spec = .ok s.scale := by
  have hi := newRV_inv name true vset prob ps s₀ hn
  have hb0 : s₀.isBool = true := newRV_isBool name true vset prob ps s₀ hn
  have hl := run_inv l s₀ hi
  have hbl : (s₀.run l).isBool = true := by rw [(run_fields l s₀ hi).1, hb0]
  obtain ⟨c, hc, -⟩ := setScale_ok _ hl.scale ps' hps
  have hcl : isclose b (1 / 2) = false := by
    simp only [isclose, decide_eq_false_iff_not, not_le]
    rw [abs_of_pos (by norm_num : (0 : ℝ) < 1 / 2)]
    refine lt_of_le_of_lt ?_ hfar
    norm_num
  have hst : ((s₀.run l).apply (.prob (some (.scalar b)) ps')).1 =
      { s₀.run l with scale := c, prob := .fn (bernoulliFn b), defProb := false, sfun := some b } := by
    simp only [RVState.apply, RVState.setProb, hc, RVState.bernoulli, hbl, hcl, Bool.false_eq_true, if_false]
  have hinv := run_inv (l ++ .prob (some (.scalar b)) ps' :: l') s₀ hi
  rw [← hs] at hinv
  obtain ⟨q1, q2, q3⟩ := quiet_run l' ((s₀.run l).apply (.prob (some (.scalar b)) ps')).1 (by rw [hst]) hl'
  rw [run_append, run_cons] at hs
  rw [← hs, hst] at q1 q2 q3
  refine ⟨?_, q2, hinv.scale⟩
  rw [RVState.drawBias, q3, q1]
  simp [hbl]

/-- What is drawn. -/
theorem biased_draws (h0 : 0 ≤ b) (h1 : b ≤ 1) (coin : ℝ → ℕ → Bool) (r : ℕ) (perm : List ℕ) :
    s.evaluate coin (.count 0) r perm = .ok (.scalar (Spec.truth (coin b 0))) ∧
    ∀ n : ℕ, 0 < n → s.evaluate coin (.count (-n)) r perm =
      .ok (.array ((List.range n).map fun i => Spec.truth (coin b i))) := by
  obtain ⟨a1, -, -⟩ := biased_state hn l l' b hfar ps' hps hl' s hs
  refine ⟨?_, fun n hn' => ?_⟩
  · simp only [RVState.evaluate, a1, bernoulliSfun, h0, h1, and_self, if_true]
    rfl
  · simp only [RVState.evaluate, a1, bernoulliSfun, h0, h1, and_self, if_true]
    rw [if_pos (by omega), Int.natAbs_neg, Int.natAbs_natCast, if_neg (by omega)]
    rfl

/-- What is reported. -/
theorem biased_call (fmt : Val → Str) (hg : Spec.GoodName fmt s.toDRV) (coin : ℝ → ℕ → Bool) (req : Req) (r : ℕ)
    (perm : List ℕ) (xs : VArg ℚ) (hx : s.evaluate coin req r perm = .ok xs) :
    ∃ d, s.call fmt coin req r perm = .ok d ∧ d.WF fmt ∧ d.keylist = [s.name] ∧ d.values s.name = some xs.toVal ∧
      d.shape = xs.sizes ∧ d.pscale = s.scale ∧
      ∀ i x, xs.entry i = some x → d.prob.get i = x * (2 * b - 1) + (1 - b) := by
  obtain ⟨-, a2, a3⟩ := biased_state hn l l' b hfar ps' hps hl' s hs
  obtain ⟨a, ha, hsh, hget⟩ : ∃ a, bernoulliFn b xs = .ok a ∧ a.shape = xs.sizes ∧
      ∀ i x, xs.entry i = some x → a.get i = x * (2 * b - 1) + (1 - b) := by
    cases xs with
    | scalar y =>
      refine ⟨_, rfl, rfl, ?_⟩
      intro i x hi
      rcases i with _ | ⟨i, is⟩ <;> simp [VArg.entry] at hi
      rw [hi]
    | array ys =>
      refine ⟨_, rfl, by simp [listArr, VArg.sizes], ?_⟩
      intro i x hi
      rcases i with _ | ⟨i, _ | ⟨j, is⟩⟩ <;> simp [VArg.entry] at hi
      simp [listArr, List.getD_eq_getElem?_getD, hi]
  obtain ⟨d, d1, d2, -, -, d5, d6, -, d8, d9, d10⟩ :=
    build_one hg (entry_distName hg req) xs a hsh s.scale.spec s.scale a3
  refine ⟨d, ?_, d2, d5, d6, d8, d10, by rw [d9]; exact hget⟩
  have he : s.toDRV.evalProb xs = .ok a := by
    have : s.toDRV.prob = .fn (bernoulliFn b) := a2
    simp only [DRV.evalProb, this, ha]
  simp only [RVState.call, hx, Bind.bind, Except.bind]
  rw [he]
  exact d1

/-- C104: after a bias was set on scale one, the values drawn with `{-n}` are any n values with
the product of the probabilities that calling the variable with these values reports; so the draws
are independent and each follows the probability.  Likewise the value drawn with `{0}`.  Missing of
the claim: biases close to one half, other scales, and probabilities that were set after one
another. -/
theorem C104_law_partial {Ω : Type} [MeasurableSpace Ω] (μ : Measure Ω) [IsProbabilityMeasure μ]
    (coin : Ω → ℝ → ℕ → Bool) (hcoin : Spec.Coins μ coin) (h0 : 0 ≤ b) (h1 : b ≤ 1) (hscale : s.scale = .lin 1)
    (fmt : Val → Str) (hg : Spec.GoodName fmt s.toDRV) (R : Ω → ℕ) (P : Ω → List ℕ) (any : ℝ → ℕ → Bool) (r : ℕ)
    (perm : List ℕ) :
    (∀ vs : List Bool, vs ≠ [] → ∃ d, s.call fmt any (.array (vs.map Spec.truth)) r perm = .ok d ∧
      d.shape = [vs.length] ∧
      μ {ω | s.evaluate (coin ω) (.count (-(vs.length : ℕ))) (R ω) (P ω) = .ok (.array (vs.map Spec.truth))} =
        ENNReal.ofReal (∏ i ∈ Finset.range vs.length, d.at [i])) ∧
    ∀ v : Bool, ∃ d, s.call fmt any (.scalar (Spec.truth v)) r perm = .ok d ∧ d.shape = [] ∧
      μ {ω | s.evaluate (coin ω) (.count 0) (R ω) (P ω) = .ok (.scalar (Spec.truth v))} =
        ENNReal.ofReal (d.at []) := by
  have hinj : ∀ u v : Bool, Spec.truth u = Spec.truth v ↔ u = v := by decide
  have hchance : ∀ i (v : Bool), μ {ω | coin ω b i = v} =
      ENNReal.ofReal ((Spec.truth v : ℝ) * (2 * b - 1) + (1 - b)) := by
    intro i v
    cases v
    · have hc : {ω | coin ω b i = false} = {ω | coin ω b i = true}ᶜ := by ext ω; simp
      have hm : MeasurableSet {ω | coin ω b i = true} := hcoin.measurable b i (measurableSet_singleton true)
      rw [hc, prob_compl_eq_one_sub hm, hcoin.chance b h0 h1 i]
      simp only [Spec.truth, Bool.false_eq_true, if_false, Rat.cast_zero, zero_mul, zero_add]
      rw [ENNReal.ofReal_sub _ h0, ENNReal.ofReal_one]
    · rw [hcoin.chance b h0 h1 i]
      congr 1
      simp [Spec.truth]; ring
  have hev : ∀ xs : VArg ℚ, s.evaluate any (match xs with | .scalar x => .scalar x | .array xs => .array xs) r perm =
      .ok xs := by
    intro xs
    cases xs <;> rfl
  refine ⟨fun vs hvs => ?_, fun v => ?_⟩
  · obtain ⟨d, d1, -, -, -, d5, d6, d7⟩ := biased_call hn l l' b hfar ps' hps hl' s hs fmt hg any
      (.array (vs.map Spec.truth)) r perm (.array (vs.map Spec.truth)) rfl
    refine ⟨d, d1, by simpa [VArg.sizes] using d5, ?_⟩
    have hset : {ω | s.evaluate (coin ω) (.count (-(vs.length : ℕ))) (R ω) (P ω) =
        .ok (.array (vs.map Spec.truth))} =
        ⋂ i ∈ Finset.range vs.length, (fun ω => coin ω b i) ⁻¹' {vs.getD i false} := by
      ext ω
      simp only [Set.mem_setOf_eq, Set.mem_iInter, Finset.mem_range, Set.mem_preimage, Set.mem_singleton_iff]
      rw [(biased_draws hn l l' b hfar ps' hps hl' s hs h0 h1 (coin ω) (R ω) (P ω)).2 _ (List.length_pos_of_ne_nil hvs)]
      simp only [Except.ok.injEq, VArg.array.injEq]
      constructor
      · intro h i hi
        have := congrArg (fun m => m[i]?) h
        simp only [List.getElem?_map, List.getElem?_range hi, List.getElem?_eq_getElem hi, Option.map_some,
          Option.some.injEq, hinj] at this
        rw [this, List.getD_eq_getElem?_getD, List.getElem?_eq_getElem hi]
        rfl
      · intro h
        apply List.ext_getElem (by simp)
        intro i hi1 hi2
        have hi : i < vs.length := by simpa using hi2
        simp only [List.getElem_map, List.getElem_range, hinj]
        rw [h i hi, List.getD_eq_getElem?_getD, List.getElem?_eq_getElem hi]
        rfl
    rw [hset, (hcoin.independent b h0 h1).measure_inter_preimage_eq_mul _ (fun i _ => measurableSet_singleton _),
      ENNReal.ofReal_prod_of_nonneg]
    · refine Finset.prod_congr rfl fun i hi => ?_
      have hi : i < vs.length := by simpa using hi
      have := d7 [i] (Spec.truth (vs.getD i false)) (by
        simp [VArg.entry, List.getD_eq_getElem?_getD, List.getElem?_eq_getElem hi])
      show μ {ω | coin ω b i = vs.getD i false} = _
      rw [hchance, PD.at, d6, hscale, Spec.value, this]
      simp [Spec.factor]
    · intro i hi
      have hi : i < vs.length := by simpa using hi
      have := d7 [i] (Spec.truth (vs.getD i false)) (by
        simp [VArg.entry, List.getD_eq_getElem?_getD, List.getElem?_eq_getElem hi])
      rw [PD.at, d6, hscale, Spec.value, this]
      cases vs.getD i false <;> simp [Spec.truth, Spec.factor] <;> linarith
  · obtain ⟨d, d1, -, -, -, d5, d6, d7⟩ := biased_call hn l l' b hfar ps' hps hl' s hs fmt hg any
      (.scalar (Spec.truth v)) r perm (.scalar (Spec.truth v)) rfl
    refine ⟨d, d1, d5, ?_⟩
    have hset : {ω | s.evaluate (coin ω) (.count 0) (R ω) (P ω) = .ok (.scalar (Spec.truth v))} =
        {ω | coin ω b 0 = v} := by
      ext ω
      simp only [Set.mem_setOf_eq]
      rw [(biased_draws hn l l' b hfar ps' hps hl' s hs h0 h1 (coin ω) (R ω) (P ω)).1]
      simp only [Except.ok.injEq, VArg.scalar.injEq, hinj]
    rw [hset, hchance, PD.at, d6, hscale, Spec.value, d7 [] (Spec.truth v) rfl]
    simp [Spec.factor]

/-- C104: calling the variable with `{-n}` gives the values drawn, each with its probability. -/
theorem C104_called (h0 : 0 ≤ b) (h1 : b ≤ 1) (hscale : s.scale = .lin 1) (fmt : Val → Str)
    (hg : Spec.GoodName fmt s.toDRV) (coin : ℝ → ℕ → Bool) (r : ℕ) (perm : List ℕ) (n : ℕ) (h : 0 < n) :
    ∃ d, s.call fmt coin (.count (-n)) r perm = .ok d ∧ d.keylist = [s.name] ∧
      d.values s.name = some (.arr [n] ((List.range n).map fun i => Spec.truth (coin b i))) ∧ d.shape = [n] ∧
      ∀ i < n, d.at [i] = if coin b i then b else 1 - b := by
  obtain ⟨d, d1, -, d3, d4, d5, d6, d7⟩ := biased_call hn l l' b hfar ps' hps hl' s hs fmt hg coin _ r perm _
    ((biased_draws hn l l' b hfar ps' hps hl' s hs h0 h1 coin r perm).2 n h)
  refine ⟨d, d1, d3, by simpa [VArg.toVal] using d4, by simpa [VArg.sizes] using d5, fun i hi => ?_⟩
  have := d7 [i] (Spec.truth (coin b i)) (by simp [VArg.entry, hi])
  rw [PD.at, d6, hscale, Spec.value, this]
  cases coin b i <;> simp [Spec.truth, Spec.factor]
  ring

/-- C104: the fraction of True among n values drawn tends to the probability as n grows. -/
theorem C104_frequency {Ω : Type} [MeasurableSpace Ω] (μ : Measure Ω) [IsProbabilityMeasure μ]
    (coin : Ω → ℝ → ℕ → Bool) (hcoin : Spec.Coins μ coin) (h0 : 0 ≤ b) (h1 : b ≤ 1) (R : Ω → ℕ) (P : Ω → List ℕ) :
    ∃ X : ℕ → Ω → List ℚ,
      (∀ n, 0 < n → ∀ ω, s.evaluate (coin ω) (.count (-(n : ℕ))) (R ω) (P ω) = .ok (.array (X n ω))) ∧
      ∀ᵐ ω ∂μ, Tendsto (fun n : ℕ => ((X n ω).count 1 : ℝ) / n) atTop (𝓝 b) := by
  refine ⟨fun n ω => (List.range n).map fun i => Spec.truth (coin ω b i),
    fun n hn' ω => (biased_draws hn l l' b hfar ps' hps hl' s hs h0 h1 (coin ω) (R ω) (P ω)).2 n hn', ?_⟩
  let g : Bool → ℝ := fun v => if v then 1 else 0
  have hg : Measurable g := measurable_of_finite g
  let Z : ℕ → Ω → ℝ := fun i ω => g (coin ω b i)
  have hZ : ∀ i, Measurable (Z i) := fun i => hg.comp (hcoin.measurable b i)
  have hmeas : ∀ i, MeasurableSet {ω | coin ω b i = true} := fun i =>
    hcoin.measurable b i (measurableSet_singleton true)
  have hlawI : ∀ i, μ.map (fun ω => coin ω b i) = μ.map (fun ω => coin ω b 0) := by
    intro i
    have hs : ∀ (j : ℕ), μ.map (fun ω => coin ω b j) {true} = ENNReal.ofReal b := by
      intro j
      rw [Measure.map_apply (hcoin.measurable b j) (measurableSet_singleton true)]
      exact hcoin.chance b h0 h1 j
    haveI : ∀ j, IsProbabilityMeasure (μ.map fun ω => coin ω b j) := fun j =>
      Measure.isProbabilityMeasure_map (hcoin.measurable b j).aemeasurable
    refine Measure.ext_of_singleton fun v => ?_
    cases v
    · have hc : ({false} : Set Bool) = {true}ᶜ := by ext v; cases v <;> simp
      rw [hc, prob_compl_eq_one_sub (measurableSet_singleton true),
        prob_compl_eq_one_sub (measurableSet_singleton true), hs, hs]
    · rw [hs, hs]
  have hlaw := strong_law_ae_real (μ := μ) Z
    (Integrable.of_bound (C := 1) (hZ 0).aestronglyMeasurable (Filter.Eventually.of_forall fun ω => by
      show ‖g (coin ω b 0)‖ ≤ 1
      cases coin ω b 0 <;> simp [g]))
    (fun i j hij => ((hcoin.independent b h0 h1).indepFun hij).comp hg hg)
    (fun i => ⟨(hZ i).aemeasurable, (hZ 0).aemeasurable, by
      show μ.map (g ∘ fun ω => coin ω b i) = μ.map (g ∘ fun ω => coin ω b 0)
      rw [← Measure.map_map hg (hcoin.measurable b i), ← Measure.map_map hg (hcoin.measurable b 0), hlawI i]⟩)
  have hmean : ∫ ω, Z 0 ω ∂μ = b := by
    have : Z 0 = {ω | coin ω b 0 = true}.indicator fun _ => (1 : ℝ) := by
      funext ω
      show g (coin ω b 0) = _
      cases hc : coin ω b 0 <;> simp [g, Set.indicator, hc]
    rw [this, integral_indicator_const _ (hmeas 0), Measure.real, hcoin.chance b h0 h1 0, ENNReal.toReal_ofReal h0]
    simp
  rw [hmean] at hlaw
  filter_upwards [hlaw] with ω hω
  refine hω.congr fun n => ?_
  congr 1
  induction n with
  | zero => simp
  | succ n ih =>
    rw [Finset.sum_range_succ, ih, List.range_succ, List.map_append, List.count_append]
    show _ + g (coin ω b n) = _
    cases hc : coin ω b n <;> simp [g, Spec.truth, hc]

end

/-! ### Witnesses -/

/-- Independent uniform draws compared with the bias. -/
noncomputable def streamCoin (ω : ℕ → ℝ) (b : ℝ) (i : ℕ) : Bool := decide (0 ≤ ω i ∧ ω i < 1 ∧ ω i ≤ b)

theorem stream_coins : Spec.Coins Spec.streamLaw streamCoin := by
  have hset : ∀ b : ℝ, MeasurableSet {u : ℝ | 0 ≤ u ∧ u < 1 ∧ u ≤ b} := fun b =>
    (measurableSet_le measurable_const measurable_id).inter
      ((measurableSet_lt measurable_id measurable_const).inter (measurableSet_le measurable_id measurable_const))
  have hm : ∀ b : ℝ, Measurable fun u : ℝ => decide (0 ≤ u ∧ u < 1 ∧ u ≤ b) := by
    intro b
    refine measurable_to_bool ?_
    convert hset b using 1
    ext u
    simp
  refine ⟨fun b i => (hm b).comp (measurable_pi_apply i), fun b _ _ => ?_, fun b h0 h1 i => ?_⟩
  · exact iIndepFun_infinitePi (P := fun _ : ℕ => unitLaw)
      (X := fun _ u => decide (0 ≤ u ∧ u < 1 ∧ u ≤ b)) (fun _ => hm b)
  · have : {ω : ℕ → ℝ | streamCoin ω b i = true} = (fun ω => ω i) ⁻¹' (Set.Ico 0 1 ∩ Set.Iic b) := by
      ext ω
      simp [streamCoin, and_assoc]
    rw [this, ← Measure.map_apply (measurable_pi_apply i) (measurableSet_Ico.inter measurableSet_Iic), streamLaw_eval,
      unitLaw_below h0 h1]

/-- A variable set to a bias of nine tenths and then to one half: it draws with the old bias. -/
theorem stale_state : ∃ s₀ s, newRV ['x'] true [0, 1] none .none = .ok s₀ ∧
    s = s₀.run [.prob (some (.scalar (9 / 10))) .none, .prob (some (.scalar (1 / 2))) .none] ∧
    s.drawBias = some (9 / 10) ∧ s.prob = .scalar (1 / 2) ∧ s.scale = .lin 1 ∧ s.name = ['x'] ∧ s.vset = [0, 1] := by
  have hn := newRV_default ['x'] true [0, 1] (by simp)
  have hh := default_half
  have hclose : isclose (1 / 2) (1 / 2) = true := by simp [isclose]; norm_num
  have h3 : evalPscale (PScale.lin 1).spec = .ok (.lin 1) := by simp [PScale.spec, evalPscale]
  have h4 : setScale (some (.lin 1)) .none = .ok (.lin 1) := by
    simp [setScale, PSpec.truthy, h3]
  have hfar : isclose (9 / 10) (1 / 2) = false := by
    simp only [isclose, decide_eq_false_iff_not, not_le]
    rw [abs_of_pos (by norm_num), abs_of_pos (by norm_num)]
    norm_num
  simp only [if_true, hh, RVState.bernoulli, hclose] at hn
  refine ⟨_, _, hn, rfl, ?_⟩
  simp only [RVState.run, RVState.apply, RVState.setProb, h4, RVState.bernoulli, hfar, hclose,
      RVState.drawBias, List.foldl_cons, List.foldl_nil, if_true, Bool.false_eq_true, if_false]
  trivial

/-- C104 as intended fails: a coin set to be fair after it was biased reports one half for True
but draws it with probability nine tenths. -/
theorem C104_claim_fails : ¬ C104_claim := by
  intro h
  obtain ⟨s₀, s, hn, hs, a1, a2, a3, a4, a5⟩ := stale_state
  have hfair : ∀ i < 2, Spec.streamLaw {ω | (if streamCoin ω (1 / 2) 0 then 0 else 1 : ℕ) = i} = 1 / 2 := by
    have h1 := stream_coins.chance (1 / 2) (by norm_num) (by norm_num) 0
    have hm : MeasurableSet {ω | streamCoin ω (1 / 2) 0 = true} :=
      stream_coins.measurable (1 / 2) 0 (measurableSet_singleton true)
    have he : ENNReal.ofReal (1 / 2) = 1 / 2 := by
      rw [ENNReal.ofReal_div_of_pos (by norm_num)]; simp
    intro i hi
    interval_cases i
    · have : {ω | (if streamCoin ω (1 / 2) 0 then 0 else 1 : ℕ) = 0} = {ω | streamCoin ω (1 / 2) 0 = true} := by
        ext ω; cases hc : streamCoin ω (1 / 2) 0 <;> simp [hc]
      rw [this, h1, he]
    · have : {ω | (if streamCoin ω (1 / 2) 0 then 0 else 1 : ℕ) = 1} = {ω | streamCoin ω (1 / 2) 0 = true}ᶜ := by
        ext ω; cases hc : streamCoin ω (1 / 2) 0 <;> simp [hc]
      rw [this, prob_compl_eq_one_sub hm, h1, he]
      simp
  have hg : Spec.GoodName (fun _ => ['v']) s.toDRV := by
    have : s.toDRV.name = ['x'] := a4
    constructor <;> first | (rw [this]; decide) | simp
  obtain ⟨d, d1, -, -, -, -, -, -, -, d9, d10⟩ := C60_call hg (1 / 2) a2 (.lin 1)
    (by show evalPscale s.scale.spec = _; rw [a3]; simp [PScale.spec, evalPscale]) (.scalar 1) 0 [] (.scalar 1) rfl
  have hcall : s.call (fun _ => ['v']) (fun _ _ => false) (.scalar (Spec.truth true)) 0 [] = .ok d := d1
  have hd : d.at [] = 1 / 2 := by
    have := d10 [] 1 rfl
    have hv : s.toDRV.vset = [0, 1] := a5
    rw [hv, if_pos (by simp)] at this
    rw [PD.at, d9, Spec.value, this]
    simp [Spec.factor]
  have := h (ℕ → ℝ) inferInstance Spec.streamLaw streamCoin (fun ω => if streamCoin ω (1 / 2) 0 then 0 else 1)
    inferInstance stream_coins hfair (fun _ => ['v']) ['x'] none .none s₀
    [.prob (some (.scalar (9 / 10))) .none, .prob (some (.scalar (1 / 2))) .none] hn
    (by simp [Spec.SetsSet]) (hs ▸ hg) true d (hs ▸ hcall)
  rw [← hs, hd] at this
  have hset : {ω | s.evaluate (streamCoin ω) (.count 0) (if streamCoin ω (1 / 2) 0 then 0 else 1) [] =
      .ok (.scalar (Spec.truth true))} = {ω | streamCoin ω (9 / 10) 0 = true} := by
    ext ω
    have he : s.evaluate (streamCoin ω) (.count 0) (if streamCoin ω (1 / 2) 0 then 0 else 1) [] =
        .ok (.scalar (Spec.truth (streamCoin ω (9 / 10) 0))) := by
      simp only [RVState.evaluate, a1, bernoulliSfun]
      rw [if_pos (by norm_num), if_pos (by norm_num)]
      rfl
    simp only [Set.mem_setOf_eq, he, Except.ok.injEq, VArg.scalar.injEq]
    cases streamCoin ω (9 / 10) 0 <;> simp [Spec.truth]
  rw [hset, stream_coins.chance (9 / 10) (by norm_num) (by norm_num) 0,
    ENNReal.ofReal_eq_ofReal_iff (by norm_num) (by norm_num)] at this
  norm_num at this

/-- C104: a Boolean variable with the default probability on the logarithmic scale, whose logarithm
is taken for the bias, raises for every random draw. -/
theorem C104_log_raises (name : Str) :
    ∃ s, newRV name true [0, 1] none (.str "log") = .ok s ∧
      ∀ coin r perm, ∀ n : ℤ, n ≤ 0 → s.evaluate coin (.count n) r perm = .error .value := by
  have he : evalPscale (.str "log") = .ok (.log 0 0) := by simp [evalPscale, complexZero]
  have h2 : setScale none (.str "log") = .ok (.log 0 0) := by simp [setScale, PSpec.truthy, he]
  have h3 : evalPscale (PScale.log 0 0).spec = .ok (.log 0 0) := by
    simp [PScale.spec, evalPscale, complexZero]
  have h4 : setScale (some (.log 0 0)) .none = .ok (.log 0 0) := by
    simp [setScale, PSpec.truthy, h3]
  have h5 : defaultProb 2 (PScale.log 0 0).spec = .ok (-Real.log 2) := by
    have := nlhv_eq 2 (by norm_num)
    simp only [defaultProb, rescale, h3, he, Bind.bind, Except.bind, Pure.pure, Except.pure, this, rescaleE]
    simp
  have hl : 0 < Real.log 2 := Real.log_pos (by norm_num)
  have hfar : isclose (-Real.log 2) (1 / 2) = false := by
    simp only [isclose, decide_eq_false_iff_not, not_le]
    rw [abs_of_neg (by linarith : -Real.log 2 - 1 / 2 < 0), abs_of_pos (by norm_num : (0:ℝ) < 1/2)]
    have : (1e-8 + 1e-5 * (1/2) : ℝ) < 1/2 := by norm_num
    linarith
  refine ⟨⟨name, true, [0, 1], 2, .log 0 0, .fn (bernoulliFn (-Real.log 2)), true, .none,
    some (-Real.log 2)⟩, ?_, ?_⟩
  · simp only [newRV, h2, h4, RVState.setProb, RVState.defaulted, h5, RVState.bernoulli, hfar, Bind.bind,
      Except.bind, Pure.pure, Except.pure, List.isEmpty_cons, if_true, Bool.false_eq_true, if_false]
  · intro coin r perm n hn
    simp only [RVState.evaluate, RVState.drawBias, if_true, bernoulliSfun, if_pos hn]
    rw [if_neg (by rintro ⟨h, -⟩; linarith)]

/-- A case of `C104_law_partial`: a fair coin whose probability is then set to one quarter draws
True, False, True with probability 3/64. -/
example : ∃ s₀ s, newRV ['x'] true [0, 1] none .none = .ok s₀ ∧
    s = s₀.run ([.tran .none] ++ .prob (some (.scalar (1 / 4))) .none :: [.vset [0, 1]]) ∧
    Spec.streamLaw {ω | s.evaluate (streamCoin ω) (.count (-3)) 0 [] = .ok (.array [1, 0, 1])} =
      ENNReal.ofReal (3 / 64) := by
  have hn := newRV_default ['x'] true [0, 1] (by simp)
  have hh := default_half
  have hclose : isclose (1 / 2) (1 / 2) = true := by simp [isclose]; norm_num
  have h3 : evalPscale (PScale.lin 1).spec = .ok (.lin 1) := by simp [PScale.spec, evalPscale]
  have h4 : setScale (some (.lin 1)) .none = .ok (.lin 1) := by
    simp [setScale, PSpec.truthy, h3]
  have hfar : isclose (1 / 4) (1 / 2) = false := by
    simp only [isclose, decide_eq_false_iff_not, not_le]
    rw [abs_of_neg (by norm_num : (1 / 4 - 1 / 2 : ℝ) < 0), abs_of_pos (by norm_num : (0 : ℝ) < 1 / 2)]
    norm_num
  simp only [if_true, hh, RVState.bernoulli, hclose] at hn
  refine ⟨_, _, hn, rfl, ?_⟩
  generalize hs : RVState.run _ _ = s
  replace hs := hs.symm
  have hq : (501e-8 : ℝ) < |1 / 4 - 1 / 2| := by
    rw [abs_of_neg (by norm_num : (1 / 4 - 1 / 2 : ℝ) < 0)]; norm_num
  have hscale : s.scale = .lin 1 := by
    rw [hs]
    simp only [RVState.run, RVState.apply, RVState.setProb, h4, RVState.bernoulli, hfar, RVState.setVset, RVState.setTran,
      List.foldl_cons, List.foldl_nil, if_true, Bool.false_eq_true, if_false, List.cons_append, List.nil_append, List.isEmpty_cons]
    try rfl
  have hname : s.toDRV.name = ['x'] := by
    show s.name = _
    rw [hs]
    simp only [RVState.run, RVState.apply, RVState.setProb, h4, RVState.bernoulli, hfar, RVState.setVset, RVState.setTran,
      List.foldl_cons, List.foldl_nil, if_true, Bool.false_eq_true, if_false, List.cons_append, List.nil_append, List.isEmpty_cons]
    try rfl
  have hg : Spec.GoodName (fun _ => ['v']) s.toDRV := by
    constructor <;> first | (rw [hname]; decide) | simp
  obtain ⟨d, d1, d2, d3⟩ := (C104_law_partial hn [.tran .none] [.vset [0, 1]] (1 / 4) hq .none
    (fun h => absurd h (by simp [Spec.Stated])) (by simp [Spec.SetsProb]) s hs Spec.streamLaw streamCoin stream_coins (by norm_num)
    (by norm_num) hscale (fun _ => ['v']) hg (fun _ => 0) (fun _ => []) (fun _ _ => false) 0 []).1
    [true, false, true] (by simp)
  obtain ⟨d', e1, -, -, -, -, e6, e7⟩ := biased_call hn [.tran .none] [.vset [0, 1]] (1 / 4) hq .none
    (fun h => absurd h (by simp [Spec.Stated])) (by simp [Spec.SetsProb]) s hs (fun _ => ['v']) hg (fun _ _ => false)
    (.array ([true, false, true].map Spec.truth)) 0 [] (.array ([true, false, true].map Spec.truth)) rfl
  obtain rfl : d = d' := by rw [d1] at e1; exact Except.ok.inj e1
  have f0 := e7 [0] 1 (by simp [VArg.entry, Spec.truth])
  have f1 := e7 [1] 0 (by simp [VArg.entry, Spec.truth])
  have f2 := e7 [2] 1 (by simp [VArg.entry, Spec.truth])
  refine Eq.trans d3 ?_
  rw [hscale] at e6
  congr 1
  simp only [List.length_cons, List.length_nil, Finset.prod_range_succ, Finset.prod_range_zero, PD.at, e6,
    Spec.value, f0, f1, f2, Spec.factor]
  norm_num

end Probayes
