/-
C99: repeated steps of a continuous random variable are a Markov chain.
-/
import Verif.Model.StepChain
import Verif.Props.RVContStep
import Verif.Props.Sampling
import Mathlib.Probability.Kernel.Basic
import Mathlib.MeasureTheory.Constructions.Pi
import Mathlib.MeasureTheory.Constructions.BorelSpace.Order

namespace Probayes

open MeasureTheory ProbabilityTheory

/-- The probability that a Markov chain with the given law of successors, now at `x`, is next in
the first of the sets, then in the second, and so on. -/
noncomputable def Spec.pathLaw (K : ℝ → Measure ℝ) : (n : ℕ) → (Fin n → Set ℝ) → ℝ → ENNReal
  | 0, _, _ => 1
  | n + 1, A, x => ∫⁻ y in A 0, Spec.pathLaw K n (fun i => A i.succ) y ∂K x

/-- `K x` is the law of the cumulative function `F x` restricted to the limits. -/
def Spec.Truncated (K : ℝ → Measure ℝ) (F : ℝ → EReal → ℝ) (lo hi : EReal) : Prop :=
  ∀ x, IsProbabilityMeasure (K x) ∧ ∀ y : ℝ, lo ≤ y → (y : EReal) ≤ hi →
    K x (Set.Iic y) = ENNReal.ofReal ((F x y - F x lo) / (F x hi - F x lo))

/-- The steps `ds` lead from `x` through the values `ys`, each step with the number `g` gives it. -/
inductive Spec.Leads (fmt : ℝ → Str) (v : CRV) (b : PScale) (g : ℝ → ℝ → ℝ) :
    ℝ → List ℝ → List CDist → Prop
  | nil (x : ℝ) : Spec.Leads fmt v b g x [] []
  | cons (x y : ℝ) (ys : List ℝ) (d : CDist) (ds : List CDist)
      (h : Spec.Stepped fmt v b g (.scalar y) (.scalar x) d) (t : Spec.Leads fmt v b g y ys ds) :
      Spec.Leads fmt v b g x (y :: ys) (d :: ds)

/-! ### Measures -/

theorem ext_limits (μ ν : Measure ℝ) [IsFiniteMeasure μ] (lo hi : EReal) (hle : lo < hi)
    (h : ∀ y : ℝ, lo ≤ y → (y : EReal) ≤ hi → μ (Set.Iic y) = ν (Set.Iic y))
    (h0 : ∀ y : ℝ, (y : EReal) = lo → μ (Set.Iic y) = 0)
    (h1 : ∀ y : ℝ, (y : EReal) = hi → μ (Set.Ioi y) = 0 ∧ ν (Set.Ioi y) = 0) : μ = ν := by
  refine Measure.ext_of_Iic μ ν fun y => ?_
  by_cases hl : lo ≤ y
  · by_cases hh : (y : EReal) ≤ hi
    · exact h y hl hh
    · rw [not_le] at hh
      obtain ⟨z, rfl⟩ : ∃ z : ℝ, (z : EReal) = hi := by
        induction hi with
        | bot => exact absurd hle not_lt_bot
        | coe z => exact ⟨z, rfl⟩
        | top => exact absurd hh not_top_lt
      have hzy : z < y := by exact_mod_cast hh
      have key : ∀ m : Measure ℝ, m (Set.Ioi z) = 0 → m (Set.Iic y) = m (Set.Iic z) := by
        intro m hm
        refine le_antisymm ?_ (measure_mono (Set.Iic_subset_Iic.mpr hzy.le))
        calc m (Set.Iic y) ≤ m (Set.Iic z ∪ Set.Ioi z) := measure_mono (by rw [Set.Iic_union_Ioi]; exact Set.subset_univ _)
          _ ≤ m (Set.Iic z) + m (Set.Ioi z) := measure_union_le _ _
          _ = m (Set.Iic z) := by rw [hm, add_zero]
      rw [key μ (h1 z rfl).1, key ν (h1 z rfl).2]
      exact h z hle.le (le_refl _)
  · rw [not_le] at hl
    obtain ⟨z, rfl⟩ : ∃ z : ℝ, (z : EReal) = lo := by
      induction lo with
      | bot => exact absurd hl not_lt_bot
      | coe z => exact ⟨z, rfl⟩
      | top => exact absurd hle not_top_lt
    have hyz : y < z := by exact_mod_cast hl
    have e0 : μ (Set.Iic z) = 0 := h0 z rfl
    have e1 : ν (Set.Iic z) = 0 := by rw [← h z (le_refl _) hle.le]; exact e0
    rw [measure_mono_null (Set.Iic_subset_Iic.mpr hyz.le) e0,
      measure_mono_null (Set.Iic_subset_Iic.mpr hyz.le) e1]

/-- The successor of `x` for the draw `u`. -/
noncomputable def quantile (F : ℝ → EReal → ℝ) (G : ℝ → ℝ → ℝ) (lo hi : EReal) (x u : ℝ) : ℝ :=
  G x (F x lo + (F x hi - F x lo) * u)

section
variable {F : ℝ → EReal → ℝ} {G : ℝ → ℝ → ℝ} {lo hi : EReal} (hle : lo < hi)
include hle

theorem quantile_Iic {x : ℝ} (hF : Spec.CondCDF F G lo hi x) (y : ℝ) (h0 : lo ≤ y) (h1 : (y : EReal) ≤ hi) :
    unitLaw {u | quantile F G lo hi x u ≤ y} = ENNReal.ofReal ((F x y - F x lo) / (F x hi - F x lo)) := by
  have l0 : lo ∈ Set.Icc lo hi := ⟨le_refl _, hle.le⟩
  have l1 : hi ∈ Set.Icc lo hi := ⟨hle.le, le_refl _⟩
  have hd : 0 < F x hi - F x lo := by linarith [hF.mono l0 l1 hle]
  have hyh := hF.mono.monotoneOn ⟨h0, h1⟩ l1 h1
  rw [Measure.restrict_apply' measurableSet_Ico]
  refine volume_squeeze _ _ ((div_le_one hd).mpr (by linarith)) ?_ (fun u hu => ⟨hu.2.1, hu.2.2⟩)
  intro u hu0 hu1
  obtain ⟨k0, k1, k2, -, -⟩ := cond_point hle hF u hu0.le hu1.le
    (fun h => absurd h hu0.ne') (fun h => absurd h hu1.ne)
  have hcmp := hF.mono.le_iff_le ⟨k1, k2⟩ ⟨h0, h1⟩
  rw [k0, EReal.coe_le_coe_iff] at hcmp
  rw [le_div_iff₀ hd]
  constructor
  · intro h
    have := hcmp.mpr h.1
    linarith
  · intro h
    exact ⟨hcmp.mp (by linarith), hu0.le, hu1⟩

theorem quantile_law {x : ℝ} (hF : Spec.CondCDF F G lo hi x) (hm : Measurable (quantile F G lo hi x))
    (ν : Measure ℝ) (hν : ∀ y : ℝ, lo ≤ y → (y : EReal) ≤ hi →
      ν (Set.Iic y) = ENNReal.ofReal ((F x y - F x lo) / (F x hi - F x lo)))
    (hν1 : ∀ y : ℝ, (y : EReal) = hi → ν (Set.Ioi y) = 0) :
    unitLaw.map (quantile F G lo hi x) = ν := by
  have l0 : lo ∈ Set.Icc lo hi := ⟨le_refl _, hle.le⟩
  have l1 : hi ∈ Set.Icc lo hi := ⟨hle.le, le_refl _⟩
  have hd : 0 < F x hi - F x lo := by linarith [hF.mono l0 l1 hle]
  haveI : IsProbabilityMeasure unitLaw := unitLaw_prob
  haveI : IsProbabilityMeasure (unitLaw.map (quantile F G lo hi x)) :=
    Measure.isProbabilityMeasure_map hm.aemeasurable
  have hI : ∀ y : ℝ, lo ≤ y → (y : EReal) ≤ hi → unitLaw.map (quantile F G lo hi x) (Set.Iic y) =
      ENNReal.ofReal ((F x y - F x lo) / (F x hi - F x lo)) := by
    intro y h0 h1
    rw [Measure.map_apply hm measurableSet_Iic]
    exact quantile_Iic hle hF y h0 h1
  refine ext_limits _ ν lo hi hle (fun y h0 h1 => by rw [hI y h0 h1, hν y h0 h1]) ?_ ?_
  · rintro y rfl
    rw [hI y (le_refl _) hle.le]
    simp
  · rintro y rfl
    refine ⟨?_, hν1 y rfl⟩
    rw [← Set.compl_Iic, prob_compl_eq_zero_iff measurableSet_Iic, hI y hle.le (le_refl _), div_self hd.ne']
    simp

end

/-! ### Paths -/

/-- The path of a map driven by draws stays in the sets. -/
def pathIn (φ : ℝ → ℝ → ℝ) : (n : ℕ) → (Fin n → Set ℝ) → ℝ → (Fin n → ℝ) → Prop
  | 0, _, _, _ => True
  | n + 1, A, x, u => φ x (u 0) ∈ A 0 ∧ pathIn φ n (fun i => A i.succ) (φ x (u 0)) fun i => u i.succ

theorem pathIn_measurable {φ : ℝ → ℝ → ℝ} (hφ : Measurable fun p : ℝ × ℝ => φ p.1 p.2) :
    ∀ (n : ℕ) (A : Fin n → Set ℝ), (∀ i, MeasurableSet (A i)) →
      MeasurableSet {p : ℝ × (Fin n → ℝ) | pathIn φ n A p.1 p.2}
  | 0, _, _ => by simp [pathIn]
  | n + 1, A, hA => by
    have h1 : Measurable fun p : ℝ × (Fin (n + 1) → ℝ) => φ p.1 (p.2 0) :=
      hφ.comp (measurable_fst.prodMk ((measurable_pi_apply 0).comp measurable_snd))
    have h2 : Measurable fun p : ℝ × (Fin (n + 1) → ℝ) => (φ p.1 (p.2 0), fun i : Fin n => p.2 i.succ) :=
      h1.prodMk (measurable_pi_lambda _ fun i => (measurable_pi_apply _).comp measurable_snd)
    exact (h1 (hA 0)).inter (h2 (pathIn_measurable hφ n _ fun i => hA i.succ))

theorem pathIn_law {φ : ℝ → ℝ → ℝ} (hφ : Measurable fun p : ℝ × ℝ => φ p.1 p.2) (K : ℝ → Measure ℝ)
    (hK : ∀ x, unitLaw.map (φ x) = K x) : ∀ (n : ℕ) (A : Fin n → Set ℝ), (∀ i, MeasurableSet (A i)) →
      ∀ x, (Measure.pi fun _ : Fin n => unitLaw) {u | pathIn φ n A x u} = Spec.pathLaw K n A x
  | 0, A, _, x => by
    haveI : IsProbabilityMeasure unitLaw := unitLaw_prob
    have : {u : Fin 0 → ℝ | pathIn φ 0 A x u} = Set.univ := by ext; simp [pathIn]
    rw [this, Spec.pathLaw, measure_univ]
  | n + 1, A, hA, x => by
    haveI : IsProbabilityMeasure unitLaw := unitLaw_prob
    have hx : Measurable (φ x) := hφ.comp measurable_prodMk_left
    have ih := pathIn_law hφ K hK n (fun i => A i.succ) fun i => hA i.succ
    have hS := pathIn_measurable hφ n (fun i => A i.succ) fun i => hA i.succ
    let T : Set (ℝ × (Fin n → ℝ)) := {p | φ x p.1 ∈ A 0 ∧ pathIn φ n (fun i => A i.succ) (φ x p.1) p.2}
    have hT : MeasurableSet T := by
      have h1 : Measurable fun p : ℝ × (Fin n → ℝ) => φ x p.1 := hx.comp measurable_fst
      exact (h1 (hA 0)).inter ((h1.prodMk measurable_snd) hS)
    have hmp := measurePreserving_piFinSuccAbove (fun _ : Fin (n + 1) => unitLaw) 0
    have hpre : {u : Fin (n + 1) → ℝ | pathIn φ (n + 1) A x u} =
        (MeasurableEquiv.piFinSuccAbove (fun _ => ℝ) 0) ⁻¹' T := by
      ext u
      rfl
    rw [hpre, hmp.measure_preimage hT.nullMeasurableSet, Measure.prod_apply hT]
    have hmeas : Measurable (Spec.pathLaw K n fun i => A i.succ) := by
      have := measurable_measure_prodMk_left (ν := Measure.pi fun _ : Fin n => unitLaw) hS
      have e : (Spec.pathLaw K n fun i => A i.succ) = fun y => (Measure.pi fun _ : Fin n => unitLaw)
          (Prod.mk y ⁻¹' {p : ℝ × (Fin n → ℝ) | pathIn φ n (fun i => A i.succ) p.1 p.2}) :=
        funext fun y => (ih y).symm
      rw [e]
      exact this
    have hin : ∀ u, (Measure.pi fun _ : Fin n => unitLaw) (Prod.mk u ⁻¹' T) =
        (A 0).indicator (Spec.pathLaw K n fun i => A i.succ) (φ x u) := by
      intro u
      by_cases h : φ x u ∈ A 0
      · rw [Set.indicator_of_mem h, ← ih]
        congr 1
        ext w
        simp [T, h]
      · rw [Set.indicator_of_notMem h]
        have : Prod.mk u ⁻¹' T = ∅ := by ext w; simp [T, h]
        rw [this, measure_empty]
    calc ∫⁻ u, (Measure.pi fun _ : Fin n => unitLaw) (Prod.mk u ⁻¹' T) ∂unitLaw
        = ∫⁻ u, (A 0).indicator (Spec.pathLaw K n fun i => A i.succ) (φ x u) ∂unitLaw :=
          lintegral_congr hin
      _ = ∫⁻ y, (A 0).indicator (Spec.pathLaw K n fun i => A i.succ) y ∂(unitLaw.map (φ x)) :=
          (lintegral_map (hmeas.indicator (hA 0)) hx).symm
      _ = Spec.pathLaw K (n + 1) A x := by
          rw [hK, lintegral_indicator (hA 0), Spec.pathLaw]

/-- The values the draws lead to. -/
def orbitOf (φ : ℝ → ℝ → ℝ) : ℝ → List ℝ → List ℝ
  | _, [] => []
  | x, u :: us => φ x u :: orbitOf φ (φ x u) us

theorem orbitOf_in (φ : ℝ → ℝ → ℝ) : ∀ (n : ℕ) (A : Fin n → Set ℝ) (x : ℝ) (u : Fin n → ℝ),
    pathIn φ n A x u ↔ ∀ i : Fin n, ∃ y, (orbitOf φ x (List.ofFn u))[i.1]? = some y ∧ y ∈ A i
  | 0, A, x, u => by simp [pathIn]
  | n + 1, A, x, u => by
    rw [pathIn, orbitOf_in φ n, Fin.forall_fin_succ]
    simp [List.ofFn_succ, orbitOf]

/-! ### Steps -/

section
variable (fmt : ℝ → Str) (v : CRV) (s : FSet) (hs : v.var = FloatVar.make s)
  (b : PScale) (hb : evalPscale v.pscale = .ok b) (g : ℝ → ℝ → ℝ)
  (hg : Spec.Conditional s v.tran false g) (hfn : Spec.Functional v.tran) (huf : v.ufun = none)
  (hdl : v.delta = none) (F : ℝ → EReal → ℝ) (G : ℝ → ℝ → ℝ) (htf : v.tfun = some (F, G))
  (hle : v.var.lo < v.var.hi) (hF : ∀ x, Spec.CondCDF F G v.var.lo v.var.hi x)
include hs hb hg hfn huf hdl htf hle hF

theorem one_step (pred : CReq) (x u : ℝ) (r0 : ℕ → ℝ) (hp : v.evaluate true pred r0 = .ok (.scalar x)) :
    ∃ d, v.step fmt pred .none false r0 (fun _ => u) = .ok d ∧
      Spec.Stepped fmt v b g (.scalar (quantile F G v.var.lo v.var.hi x u)) (.scalar x) d := by
  have he := fn_succ hfn huf hle F G htf x (hF x) 0 (fun _ => u)
  simp only [uniform, if_true] at he
  refine step_spec fmt v s hs b hb false g hg pred .none (.count 0) r0 (fun _ => u) (.scalar x) _ hp ?_ he
  cases ht : v.tran <;> simp_all [CRV.defaultSucc, Spec.Functional]

omit hs hb hg hfn huf hdl htf hle hF in
theorem stepped_number {d : CDist} {x y : ℝ} (h : Spec.Stepped fmt v b g (.scalar y) (.scalar x) d) :
    d.number v.prime = .ok y ∧ d.successor = some y := by
  refine ⟨?_, by simp [CDist.successor, h.vals]⟩
  simp [CDist.number, h.vals, CRV.prime]

theorem simulate_orbit (r0 : ℕ → ℝ) : ∀ (us : List ℝ) (pred : CReq) (x : ℝ),
    v.evaluate true pred r0 = .ok (.scalar x) →
    ∃ ds, v.simulate fmt r0 pred us = .ok ds ∧
      Spec.Leads fmt v b g x (orbitOf (quantile F G v.var.lo v.var.hi) x us) ds
  | [], _, x, _ => ⟨[], rfl, .nil x⟩
  | u :: us, pred, x, hp => by
    obtain ⟨d, h1, h2⟩ := one_step fmt v s hs b hb g hg hfn huf hdl F G htf hle hF pred x u r0 hp
    obtain ⟨ds, h3, h4⟩ := simulate_orbit r0 us (.scalar (quantile F G v.var.lo v.var.hi x u)) _ rfl
    refine ⟨d :: ds, ?_, .cons _ _ _ _ _ h2 h4⟩
    simp only [CRV.simulate, h1, (stepped_number fmt v b g h2).1, h3, bind, Except.bind, pure, Except.pure]

omit hs hb hg hfn huf hdl htf hle hF in
theorem Spec.Leads.successors {x : ℝ} {ys : List ℝ} {ds : List CDist} (h : Spec.Leads fmt v b g x ys ds) :
    ds.map CDist.successor = ys.map some := by
  induction h with
  | nil => rfl
  | cons x y ys d ds h t ih => simp [(stepped_number fmt v b g h).2, ih]

omit hs hb hg hfn huf hdl htf hle hF in
theorem orbitOf_length (φ : ℝ → ℝ → ℝ) : ∀ (us : List ℝ) (x : ℝ), (orbitOf φ x us).length = us.length
  | [], _ => rfl
  | _ :: us, x => by simp [orbitOf, orbitOf_length φ us]

omit hs hb hg hfn huf hdl htf in
theorem orbitOf_mem (hx : ∀ u, 0 < u → u < 1 → ∀ x, v.var.lo < (quantile F G v.var.lo v.var.hi x u : EReal) ∧
      (quantile F G v.var.lo v.var.hi x u : EReal) < v.var.hi) : ∀ (us : List ℝ) (x : ℝ),
    (∀ u ∈ us, 0 < u ∧ u < 1) → ∀ y ∈ orbitOf (quantile F G v.var.lo v.var.hi) x us,
      v.var.lo < (y : EReal) ∧ (y : EReal) < v.var.hi
  | [], _, _ => by simp [orbitOf]
  | u :: us, x, hu => by
    intro y hy
    rcases List.mem_cons.mp hy with rfl | hy
    · exact hx u (hu u (by simp)).1 (hu u (by simp)).2 x
    · exact orbitOf_mem hx us _ (fun w hw => hu w (by simp [hw])) y hy

/-- C99: whatever the draws, the loop gives as many steps as asked for; each starts where the one
before ended and has the number of the transition.  For draws in (0, 1) all values are between
the limits. -/
theorem C99_chain (r0 : ℕ → ℝ) (us : List ℝ) (x : ℝ) :
    ∃ ys ds, v.simulate fmt r0 (.scalar x) us = .ok ds ∧ ys.length = us.length ∧
      Spec.Leads fmt v b g x ys ds ∧
      ((∀ u ∈ us, 0 < u ∧ u < 1) → ∀ y ∈ ys, v.var.lo < (y : EReal) ∧ (y : EReal) < v.var.hi) := by
  obtain ⟨ds, h1, h2⟩ := simulate_orbit fmt v s hs b hb g hg hfn huf hdl F G htf hle hF r0 us (.scalar x) x rfl
  refine ⟨_, ds, h1, orbitOf_length _ us x, h2, ?_⟩
  refine orbitOf_mem v F G hle hF (fun u h0 h1 x => ?_) us x
  obtain ⟨-, -, -, k3, k4⟩ := cond_point hle (hF x) u h0.le h1.le
    (fun h => absurd h h0.ne') (fun h => absurd h h1.ne)
  exact ⟨k3 h0, k4 h1⟩

/-- The successors of the steps are in the sets, one by one. -/
def Spec.Visits {n : ℕ} (r : Py (List CDist)) (A : Fin n → Set ℝ) : Prop :=
  ∃ ds, r = .ok ds ∧ ds.length = n ∧ ∀ i : Fin n, ∃ d y, ds[i.1]? = some d ∧ d.successor = some y ∧ y ∈ A i

theorem visits_iff (r0 : ℕ → ℝ) {n : ℕ} (A : Fin n → Set ℝ) (pred : CReq) (x : ℝ) (u : Fin n → ℝ)
    (hp : v.evaluate true pred r0 = .ok (.scalar x)) :
    Spec.Visits (v.simulate fmt r0 pred (List.ofFn u)) A ↔ pathIn (quantile F G v.var.lo v.var.hi) n A x u := by
  obtain ⟨ds, h1, h2⟩ := simulate_orbit fmt v s hs b hb g hg hfn huf hdl F G htf hle hF r0 (List.ofFn u) pred x hp
  have h3 := h2.successors
  have hlen : ds.length = n := by
    have := congrArg List.length h3
    simpa [orbitOf_length] using this
  rw [orbitOf_in, Spec.Visits]
  have hi : ∀ i : Fin n, (ds[i.1]?).map CDist.successor =
      ((orbitOf (quantile F G v.var.lo v.var.hi) x (List.ofFn u))[i.1]?).map some := by
    intro i
    rw [← List.getElem?_map, h3, List.getElem?_map]
  constructor
  · rintro ⟨ds', e, -, h⟩ i
    rw [h1] at e
    cases e
    obtain ⟨d, y, k1, k2, k3⟩ := h i
    have := hi i
    rw [k1, Option.map_some, k2] at this
    cases ho : (orbitOf (quantile F G v.var.lo v.var.hi) x (List.ofFn u))[i.1]? with
    | none => rw [ho] at this; cases this
    | some z =>
      rw [ho] at this
      cases this
      exact ⟨y, rfl, k3⟩
  · intro h
    refine ⟨ds, h1, hlen, fun i => ?_⟩
    obtain ⟨y, k1, k2⟩ := h i
    have := hi i
    rw [k1] at this
    cases hd : ds[i.1]? with
    | none => rw [hd] at this; cases this
    | some d =>
      rw [hd] at this
      exact ⟨d, y, rfl, Option.some.inj this, k2⟩

variable (hG : Measurable fun p : ℝ × ℝ => G p.1 p.2) (hlo : Measurable fun x => F x v.var.lo)
  (hhi : Measurable fun x => F x v.var.hi)
include hG hlo hhi

omit hs hb hg hfn huf hdl htf hle hF in
theorem quantile_measurable : Measurable fun p : ℝ × ℝ => quantile F G v.var.lo v.var.hi p.1 p.2 := by
  have h : Measurable fun p : ℝ × ℝ => F p.1 v.var.lo + (F p.1 v.var.hi - F p.1 v.var.lo) * p.2 :=
    (hlo.comp measurable_fst).add
      (((hhi.comp measurable_fst).sub (hlo.comp measurable_fst)).mul measurable_snd)
  exact hG.comp (measurable_fst.prodMk h)

omit hs hb hg hfn huf hdl htf in
theorem within_law (K : ℝ → Measure ℝ) (hK : Spec.Truncated K F v.var.lo v.var.hi) (x : ℝ) :
    unitLaw.map (quantile F G v.var.lo v.var.hi x) = K x := by
  haveI := (hK x).1
  refine quantile_law hle (hF x) ((quantile_measurable v F G hG hlo hhi).comp measurable_prodMk_left) _
    (hK x).2 ?_
  intro y hy
  have hd : 0 < F x v.var.hi - F x v.var.lo := by
    linarith [(hF x).mono ⟨le_refl _, hle.le⟩ ⟨hle.le, le_refl _⟩ hle]
  rw [← Set.compl_Iic, prob_compl_eq_zero_iff measurableSet_Iic, (hK x).2 y (hy ▸ hle.le) hy.le, hy,
    div_self hd.ne', ENNReal.ofReal_one]

/-- C99: the steps from a given value are the Markov chain whose successors follow the conditional
distribution restricted to the limits: any path has the probability of this chain. -/
theorem C99_path (K : ℝ → Measure ℝ) (hK : Spec.Truncated K F v.var.lo v.var.hi) (r0 : ℕ → ℝ) (x : ℝ) (n : ℕ)
    (A : Fin n → Set ℝ) (hA : ∀ i, MeasurableSet (A i)) :
    (Measure.pi fun _ : Fin n => volume.restrict (Set.Ico (0 : ℝ) 1))
      {u | Spec.Visits (v.simulate fmt r0 (.scalar x) (List.ofFn u)) A} = Spec.pathLaw K n A x := by
  rw [← pathIn_law (quantile_measurable v F G hG hlo hhi) K
    (within_law v F G hle hF hG hlo hhi K hK) n A hA x]
  congr 1
  ext u
  exact visits_iff fmt v s hs b hb g hg hfn huf hdl F G htf hle hF r0 A (.scalar x) x u rfl

/-- C99: the loop as in the example, from a random value (`{0}`) of a bounded set, for a variable
without cumulative functions of its own: the chain started uniformly. -/
theorem C99_start (K : ℝ → Measure ℝ) (hK : Spec.Truncated K F v.var.lo v.var.hi) (a c : ℝ)
    (ha : v.var.lo = a) (hc : v.var.hi = c) (hpf : v.pfun = none) (n : ℕ)
    (A : Fin n → Set ℝ) (hA : ∀ i, MeasurableSet (A i)) :
    ((volume.restrict (Set.Ico (0 : ℝ) 1)).prod (Measure.pi fun _ : Fin n => volume.restrict (Set.Ico (0 : ℝ) 1)))
      {p | Spec.Visits (v.simulate fmt (fun _ => p.1) (.count 0) (List.ofFn p.2)) A} =
    ∫⁻ u in Set.Ico 0 1, Spec.pathLaw K n A (a + (c - a) * u) := by
  have hev : ∀ u : ℝ, v.evaluate true (.count 0) (fun _ => u) = .ok (.scalar (a + (c - a) * u)) := by
    intro u
    rw [hs] at ha hc
    obtain ⟨x0, x1, hm⟩ := make_spec s a c ha hc
    simp only [CRV.evaluate, hpf, hs, hm, evaluate_eq, huf, uniform, UFun.inv, UFun.fwd, if_true, id,
      SA.toVArg, bind, Except.bind, pure, Except.pure]
  have hmeas : Measurable fun p : ℝ × (Fin n → ℝ) => (a + (c - a) * p.1, p.2) :=
    (measurable_const.add (measurable_const.mul measurable_fst)).prodMk measurable_snd
  have hS := hmeas (pathIn_measurable (quantile_measurable v F G hG hlo hhi) n A hA)
  have hset : {p : ℝ × (Fin n → ℝ) | Spec.Visits (v.simulate fmt (fun _ => p.1) (.count 0) (List.ofFn p.2)) A} =
      (fun p : ℝ × (Fin n → ℝ) => (a + (c - a) * p.1, p.2)) ⁻¹'
        {p | pathIn (quantile F G v.var.lo v.var.hi) n A p.1 p.2} := by
    ext p
    exact visits_iff fmt v s hs b hb g hg hfn huf hdl F G htf hle hF _ A (.count 0) _ p.2 (hev p.1)
  haveI : IsProbabilityMeasure (volume.restrict (Set.Ico (0 : ℝ) 1)) := unitLaw_prob
  rw [hset, Measure.prod_apply hS]
  refine lintegral_congr fun u => ?_
  exact pathIn_law (quantile_measurable v F G hG hlo hhi) K
    (within_law v F G hle hF hG hlo hhi K hK) n A hA (a + (c - a) * u)

omit hs hb hg hfn huf hdl htf in
theorem pathLaw_keeps (K : ℝ → Measure ℝ) (hK : Spec.Truncated K F v.var.lo v.var.hi) (μ : Measure ℝ)
    (hμ : ∀ B, MeasurableSet B → ∫⁻ x, K x B ∂μ = μ B) (B : Set ℝ) (hB : MeasurableSet B) :
    ∀ n : ℕ, ∫⁻ x, Spec.pathLaw K (n + 1) (fun i => if i = Fin.last n then B else Set.univ) x ∂μ = μ B := by
  have hKm : Measurable K := by
    refine Measure.measurable_of_measurable_coe _ fun C hC => ?_
    have hm := quantile_measurable v F G hG hlo hhi
    have h1 : ∀ x, K x C = unitLaw (Prod.mk x ⁻¹' {p : ℝ × ℝ | quantile F G v.var.lo v.var.hi p.1 p.2 ∈ C}) := by
      intro x
      have hx : Measurable (quantile F G v.var.lo v.var.hi x) := hm.comp measurable_prodMk_left
      rw [← within_law v F G hle hF hG hlo hhi K hK x, Measure.map_apply hx hC]
      rfl
    haveI : IsProbabilityMeasure unitLaw := unitLaw_prob
    simp only [h1]
    exact measurable_measure_prodMk_left (hm hC)
  have hbind : μ.bind K = μ := by
    ext C hC
    rw [Measure.bind_apply hC hKm.aemeasurable]
    exact hμ C hC
  have hmeas : ∀ (n : ℕ) (A : Fin n → Set ℝ), (∀ i, MeasurableSet (A i)) → Measurable (Spec.pathLaw K n A) := by
    intro n A hA
    haveI : IsProbabilityMeasure unitLaw := unitLaw_prob
    have hm := quantile_measurable v F G hG hlo hhi
    have := measurable_measure_prodMk_left (ν := Measure.pi fun _ : Fin n => unitLaw) (pathIn_measurable hm n A hA)
    have e : Spec.pathLaw K n A = fun y => (Measure.pi fun _ : Fin n => unitLaw)
        (Prod.mk y ⁻¹' {p : ℝ × (Fin n → ℝ) | pathIn (quantile F G v.var.lo v.var.hi) n A p.1 p.2}) :=
      funext fun y => (pathIn_law hm K (within_law v F G hle hF hG hlo hhi K hK) n A hA y).symm
    rw [e]
    exact this
  intro n
  induction n with
  | zero => simpa [Spec.pathLaw] using hμ B hB
  | succ n ih =>
    have e : ∀ x, Spec.pathLaw K (n + 1 + 1) (fun i => if i = Fin.last (n + 1) then B else Set.univ) x =
        ∫⁻ y, Spec.pathLaw K (n + 1) (fun i => if i = Fin.last n then B else Set.univ) y ∂K x := by
      intro x
      rw [Spec.pathLaw]
      have h0 : ¬ ((0 : Fin (n + 1 + 1)) = Fin.last (n + 1)) := by
        intro h
        have := congrArg Fin.val h
        simp at this
      rw [if_neg h0, Measure.restrict_univ]
      have h1 : (fun i : Fin (n + 1) => if i.succ = Fin.last (n + 1) then B else Set.univ) =
          fun i => if i = Fin.last n then B else Set.univ := by
        funext i
        have h2 : i.succ = Fin.last (n + 1) ↔ i = Fin.last n := by
          rw [← Fin.succ_last, Fin.succ_inj]
        by_cases h3 : i = Fin.last n
        · rw [if_pos (h2.mpr h3), if_pos h3]
        · rw [if_neg fun h => h3 (h2.mp h), if_neg h3]
      rw [h1]
    rw [lintegral_congr e, ← Measure.lintegral_bind hKm.aemeasurable, hbind, ih]
    refine (hmeas _ _ fun i => ?_).aemeasurable
    split
    · exact hB
    · exact MeasurableSet.univ

/-- C99: a distribution that the conditional distribution keeps is kept by the steps: if the first
value follows it, so does the value after any number of steps. -/
theorem C99_keeps (K : ℝ → Measure ℝ) (hK : Spec.Truncated K F v.var.lo v.var.hi) (μ : Measure ℝ)
    (hμ : ∀ B, MeasurableSet B → ∫⁻ x, K x B ∂μ = μ B) (r0 : ℕ → ℝ) (n : ℕ) (B : Set ℝ) (hB : MeasurableSet B) :
    ∫⁻ x, (Measure.pi fun _ : Fin (n + 1) => volume.restrict (Set.Ico (0 : ℝ) 1))
      {u | Spec.Visits (v.simulate fmt r0 (.scalar x) (List.ofFn u))
        fun i => if i = Fin.last n then B else Set.univ} ∂μ = μ B := by
  rw [← pathLaw_keeps v F G hle hF hG hlo hhi K hK μ hμ B hB n]
  refine lintegral_congr fun x => ?_
  refine C99_path fmt v s hs b hb g hg hfn huf hdl F G htf hle hF hG hlo hhi K hK r0 x (n + 1) _ fun i => ?_
  split
  · exact hB
  · exact MeasurableSet.univ

/-- C99: if the transition is the density of the cumulative function, the successor has the density
of the transition divided by its mass between the limits. -/
theorem C99_density (hdens : ∀ x (y : ℝ), v.var.lo ≤ y → (y : EReal) ≤ v.var.hi →
      ∫⁻ t in {t : ℝ | v.var.lo < t ∧ t ≤ y}, ENNReal.ofReal (g x t) = ENNReal.ofReal (F x y - F x v.var.lo))
    (r0 : ℕ → ℝ) (x : ℝ) (A : Set ℝ) (hA : MeasurableSet A) :
    volume.restrict (Set.Ico (0 : ℝ) 1) {u | ∃ d y, v.step fmt (.scalar x) .none false r0 (fun _ => u) = .ok d ∧
        d.successor = some y ∧ y ∈ A} =
      ENNReal.ofReal (1 / (F x v.var.hi - F x v.var.lo)) *
        ∫⁻ t in A ∩ {t : ℝ | v.var.lo < t ∧ t ≤ v.var.hi}, ENNReal.ofReal (g x t) := by
  have hd : 0 < F x v.var.hi - F x v.var.lo := by
    linarith [(hF x).mono ⟨le_refl _, hle.le⟩ ⟨hle.le, le_refl _⟩ hle]
  let D : Set ℝ := {t : ℝ | v.var.lo < t ∧ t ≤ v.var.hi}
  have hD : MeasurableSet D := by
    have h1 : MeasurableSet {t : ℝ | v.var.lo < (t : EReal)} :=
      measurableSet_lt measurable_const measurable_coe_real_ereal
    have h2 : MeasurableSet {t : ℝ | (t : EReal) ≤ v.var.hi} :=
      measurableSet_le measurable_coe_real_ereal measurable_const
    exact h1.inter h2
  let ν : Measure ℝ := ENNReal.ofReal (1 / (F x v.var.hi - F x v.var.lo)) •
    (volume.restrict D).withDensity fun t => ENNReal.ofReal (g x t)
  have hν : ∀ B, MeasurableSet B → ν B = ENNReal.ofReal (1 / (F x v.var.hi - F x v.var.lo)) *
      ∫⁻ t in B ∩ D, ENNReal.ofReal (g x t) := by
    intro B hB
    simp only [ν, Measure.smul_apply, smul_eq_mul, withDensity_apply _ hB, Measure.restrict_restrict hB]
  have hm : Measurable (quantile F G v.var.lo v.var.hi x) :=
    (quantile_measurable v F G hG hlo hhi).comp measurable_prodMk_left
  have hlaw : unitLaw.map (quantile F G v.var.lo v.var.hi x) = ν := by
    refine quantile_law hle (hF x) hm ν ?_ ?_
    · intro y h0 h1
      have hset : Set.Iic y ∩ D = {t : ℝ | v.var.lo < t ∧ t ≤ y} := by
        ext t
        constructor
        · rintro ⟨a, b, -⟩
          exact ⟨b, a⟩
        · rintro ⟨a, b⟩
          exact ⟨b, a, le_trans (by exact_mod_cast b) h1⟩
      rw [hν _ measurableSet_Iic, hset, hdens x y h0 h1, ← ENNReal.ofReal_mul (by positivity)]
      congr 1
      ring
    · intro y hy
      have hset : Set.Ioi y ∩ D = ∅ := by
        ext t
        simp only [Set.mem_inter_iff, Set.mem_Ioi, Set.mem_empty_iff_false, iff_false, not_and]
        rintro a ⟨-, c⟩
        rw [← hy, EReal.coe_le_coe_iff] at c
        exact absurd a (not_lt.mpr c)
      rw [hν _ measurableSet_Ioi, hset]
      simp
  rw [← hν A hA, ← hlaw, Measure.map_apply hm hA]
  congr 1
  ext u
  obtain ⟨d, h1, h2⟩ := one_step fmt v s hs b hb g hg hfn huf hdl F G htf hle hF (.scalar x) x u r0 rfl
  have h3 := (stepped_number fmt v b g h2).2
  constructor
  · rintro ⟨d', y, e1, e2, e3⟩
    rw [h1] at e1
    cases e1
    rw [h3] at e2
    cases e2
    exact e3
  · intro h
    exact ⟨d, _, h1, h3, h⟩

end

/-- C99 as asked: the number of a step is the density of its successor given its predecessor. -/
def C99_claim : Prop :=
  ∀ (fmt : ℝ → Str) (v : CRV) (s : FSet) (_ : v.var = FloatVar.make s) (b : PScale)
    (_ : evalPscale v.pscale = .ok b) (g : ℝ → ℝ → ℝ) (_ : Spec.Conditional s v.tran false g)
    (_ : Spec.Functional v.tran) (_ : v.ufun = none) (_ : v.delta = none) (F : ℝ → EReal → ℝ)
    (G : ℝ → ℝ → ℝ) (_ : v.tfun = some (F, G)) (_ : v.var.lo < v.var.hi)
    (_ : ∀ x, Spec.CondCDF F G v.var.lo v.var.hi x) (_ : Measurable fun p : ℝ × ℝ => G p.1 p.2)
    (_ : Measurable fun x => F x v.var.lo) (_ : Measurable fun x => F x v.var.hi)
    (_ : ∀ x (y : ℝ), v.var.lo ≤ y → (y : EReal) ≤ v.var.hi →
      ∫⁻ t in {t : ℝ | v.var.lo < t ∧ t ≤ y}, ENNReal.ofReal (g x t) = ENNReal.ofReal (F x y - F x v.var.lo))
    (r0 : ℕ → ℝ) (x : ℝ) (A : Set ℝ) (_ : MeasurableSet A),
    volume.restrict (Set.Ico (0 : ℝ) 1) {u | ∃ d y, v.step fmt (.scalar x) .none false r0 (fun _ => u) = .ok d ∧
        d.successor = some y ∧ y ∈ A} =
      ∫⁻ t in A ∩ {t : ℝ | v.var.lo < t ∧ t ≤ v.var.hi}, ENNReal.ofReal (g x t)

/-- C99: the number of a step is the density of its successor if the conditional distribution has
all its probability between the limits.  Missing: limits that cut the distribution. -/
theorem C99_number_partial (fmt : ℝ → Str) (v : CRV) (s : FSet) (hs : v.var = FloatVar.make s)
    (b : PScale) (hb : evalPscale v.pscale = .ok b) (g : ℝ → ℝ → ℝ)
    (hg : Spec.Conditional s v.tran false g) (hfn : Spec.Functional v.tran) (huf : v.ufun = none)
    (hdl : v.delta = none) (F : ℝ → EReal → ℝ) (G : ℝ → ℝ → ℝ) (htf : v.tfun = some (F, G))
    (hle : v.var.lo < v.var.hi) (hF : ∀ x, Spec.CondCDF F G v.var.lo v.var.hi x)
    (hG : Measurable fun p : ℝ × ℝ => G p.1 p.2) (hlo : Measurable fun x => F x v.var.lo)
    (hhi : Measurable fun x => F x v.var.hi)
    (hdens : ∀ x (y : ℝ), v.var.lo ≤ y → (y : EReal) ≤ v.var.hi →
      ∫⁻ t in {t : ℝ | v.var.lo < t ∧ t ≤ y}, ENNReal.ofReal (g x t) = ENNReal.ofReal (F x y - F x v.var.lo))
    (r0 : ℕ → ℝ) (x : ℝ) (hone : F x v.var.hi - F x v.var.lo = 1) (A : Set ℝ) (hA : MeasurableSet A) :
    volume.restrict (Set.Ico (0 : ℝ) 1) {u | ∃ d y, v.step fmt (.scalar x) .none false r0 (fun _ => u) = .ok d ∧
        d.successor = some y ∧ y ∈ A} =
      ∫⁻ t in A ∩ {t : ℝ | v.var.lo < t ∧ t ≤ v.var.hi}, ENNReal.ofReal (g x t) := by
  rw [C99_density fmt v s hs b hb g hg hfn huf hdl F G htf hle hF hG hlo hhi hdens r0 x A hA, hone]
  simp

/-! ### A distribution cut by the limits: uniform between 0 and 1 / h, declared between 0 and 1 -/

noncomputable def cutwalk (h : ℝ) : CRV :=
  { name := ['x'], var := FloatVar.make (.list ⟨(0 : ℝ), false⟩ ⟨(1 : ℝ), false⟩), ufun := none,
    pscale := .none, prob := .scalar 1, pfun := none,
    tran := .fn fun p s => .ok (outerC s p fun _ _ => h),
    tfun := some (fun _ y => y.toReal * h, fun _ p => p / h), delta := none }

theorem cutwalk_lo (h : ℝ) : (cutwalk h).var.lo = (0 : ℝ) := triangular_lo
theorem cutwalk_hi (h : ℝ) : (cutwalk h).var.hi = (1 : ℝ) := triangular_hi

theorem cutwalk_le (h : ℝ) : (cutwalk h).var.lo < (cutwalk h).var.hi := by
  rw [cutwalk_lo, cutwalk_hi]; exact EReal.coe_lt_coe_iff.mpr zero_lt_one

theorem cutwalk_scale (h : ℝ) : evalPscale (cutwalk h).pscale = .ok (.lin 1) := by
  simp [cutwalk, evalPscale]

theorem cutwalk_inverse (h : ℝ) : Measurable fun p : ℝ × ℝ => p.2 / h := measurable_snd.div measurable_const

theorem cutwalk_cdf (h : ℝ) (hh : 0 < h) (x : ℝ) : Spec.CondCDF (fun _ y => y.toReal * h) (fun _ p => p / h)
    (cutwalk h).var.lo (cutwalk h).var.hi x := by
  rw [cutwalk_lo, cutwalk_hi]
  refine ⟨?_, ?_, ?_, ?_⟩
  · rintro a ⟨a0, a1⟩ c ⟨c0, c1⟩ h
    lift a to ℝ using ⟨ne_top_of_le_ne_top (EReal.coe_ne_top _) a1, ne_bot_of_le_ne_bot (EReal.coe_ne_bot _) a0⟩
    lift c to ℝ using ⟨ne_top_of_le_ne_top (EReal.coe_ne_top _) c1, ne_bot_of_le_ne_bot (EReal.coe_ne_bot _) c0⟩
    have : a < c := by exact_mod_cast h
    simp only [EReal.toReal_coe]
    exact mul_lt_mul_of_pos_right this hh
  · intro p h0 h1
    simp only [EReal.toReal_coe, zero_mul, one_mul] at h0 h1 ⊢
    refine ⟨?_, ?_, div_mul_cancel₀ p hh.ne'⟩
    · exact EReal.coe_lt_coe_iff.mpr (div_pos h0 hh)
    · exact EReal.coe_lt_coe_iff.mpr ((div_lt_one hh).mpr h1)
  · intro _
    simp
  · intro _
    simp [hh.ne']

theorem cutwalk_conditional (h : ℝ) :
    Spec.Conditional (.list ⟨(0 : ℝ), false⟩ ⟨(1 : ℝ), false⟩) (cutwalk h).tran false (fun _ _ => h) := by
  intro p s
  refine ⟨_, rfl, ?_, fun i j y x hy hx => outerC_get _ _ _ _ _ _ _ hy hx⟩
  rw [sizesOf_eq, sizesOf_eq]; rfl

theorem cutwalk_density (h : ℝ) (hh : 0 < h) (y : ℝ) (h0 : (cutwalk h).var.lo ≤ y) :
    ∫⁻ _ in {t : ℝ | (cutwalk h).var.lo < t ∧ t ≤ y}, ENNReal.ofReal h =
      ENNReal.ofReal ((y : EReal).toReal * h - ((cutwalk h).var.lo).toReal * h) := by
  rw [cutwalk_lo] at h0 ⊢
  have hset : {t : ℝ | ((0 : ℝ) : EReal) < t ∧ t ≤ y} = Set.Ioc 0 y := by
    ext t
    simp only [Set.mem_setOf_eq, EReal.coe_lt_coe_iff, Set.mem_Ioc]
  rw [hset, lintegral_const, Measure.restrict_apply MeasurableSet.univ, Set.univ_inter, Real.volume_Ioc,
    ← ENNReal.ofReal_mul hh.le]
  congr 1
  simp only [EReal.toReal_coe]
  ring

theorem cutwalk_truncated (h : ℝ) (hh : 0 < h) : Spec.Truncated (fun _ => volume.restrict (Set.Ioc (0 : ℝ) 1))
    (fun _ y => y.toReal * h) (cutwalk h).var.lo (cutwalk h).var.hi := by
  rw [cutwalk_lo, cutwalk_hi]
  refine fun x => ⟨⟨by simp⟩, fun y h0 h1 => ?_⟩
  have h1' : y ≤ 1 := EReal.coe_le_coe_iff.mp h1
  rw [Measure.restrict_apply measurableSet_Iic]
  have hset : Set.Iic y ∩ Set.Ioc 0 1 = Set.Ioc 0 y := by
    ext t
    simp only [Set.mem_inter_iff, Set.mem_Iic, Set.mem_Ioc]
    exact ⟨fun k => ⟨k.2.1, k.1⟩, fun k => ⟨k.2, k.1, k.2.trans h1'⟩⟩
  rw [hset, Real.volume_Ioc]
  congr 1
  simp only [EReal.toReal_coe]
  field_simp
  ring

/-- The numbers of the steps are not the density of the successors, but half of it. -/
theorem C99_claim_fails : ¬ C99_claim := by
  intro h
  have hh : (0 : ℝ) < 1 / 2 := by norm_num
  have h1 := h (fun _ => []) (cutwalk (1 / 2)) _ rfl _ (cutwalk_scale _) _ (cutwalk_conditional _) trivial rfl rfl
    _ _ rfl (cutwalk_le _) (cutwalk_cdf _ hh) (cutwalk_inverse _) measurable_const measurable_const
    (fun _ y h0 _ => cutwalk_density _ hh y h0) (fun _ => 0) 0 Set.univ MeasurableSet.univ
  have h2 := C99_density (fun _ => []) (cutwalk (1 / 2)) _ rfl _ (cutwalk_scale _) _ (cutwalk_conditional _)
    trivial rfl rfl _ _ rfl (cutwalk_le _) (cutwalk_cdf _ hh) (cutwalk_inverse _) measurable_const measurable_const
    (fun _ y h0 _ => cutwalk_density _ hh y h0) (fun _ => 0) 0 Set.univ MeasurableSet.univ
  rw [h1] at h2
  have h3 : ∫⁻ _ in Set.univ ∩ {t : ℝ | (cutwalk (1 / 2)).var.lo < t ∧ t ≤ (cutwalk (1 / 2)).var.hi},
      ENNReal.ofReal (1 / 2) = ENNReal.ofReal (1 / 2) := by
    have e : Set.univ ∩ {t : ℝ | (cutwalk (1 / 2)).var.lo < t ∧ t ≤ (cutwalk (1 / 2)).var.hi} =
        {t : ℝ | (cutwalk (1 / 2)).var.lo < t ∧ t ≤ (1 : ℝ)} := by
      rw [Set.univ_inter, cutwalk_hi]
      ext t
      simp only [Set.mem_setOf_eq, EReal.coe_le_coe_iff]
    rw [e, cutwalk_density _ hh 1 (by rw [cutwalk_lo]; exact EReal.coe_le_coe_iff.mpr zero_le_one), cutwalk_lo]
    norm_num
  rw [h3, cutwalk_lo, cutwalk_hi, ← ENNReal.ofReal_mul (by norm_num), ENNReal.ofReal_eq_ofReal_iff (by norm_num)
    (by norm_num)] at h2
  norm_num at h2

/-! ### Non-vacuity -/

/-- Uniform between 0 and 1 and declared so, the number is the density. -/
example (A : Set ℝ) (hA : MeasurableSet A) :
    volume.restrict (Set.Ico (0 : ℝ) 1) {u | ∃ d y, (cutwalk 1).step (fun _ => []) (.scalar 0) .none false
        (fun _ => 0) (fun _ => u) = .ok d ∧ d.successor = some y ∧ y ∈ A} =
      ∫⁻ _ in A ∩ {t : ℝ | (cutwalk 1).var.lo < t ∧ t ≤ (cutwalk 1).var.hi}, ENNReal.ofReal 1 :=
  C99_number_partial (fun _ => []) (cutwalk 1) _ rfl _ (cutwalk_scale _) _ (cutwalk_conditional _) trivial rfl rfl
    _ _ rfl (cutwalk_le _) (cutwalk_cdf _ one_pos) (cutwalk_inverse _) measurable_const measurable_const
    (fun _ y h0 _ => cutwalk_density _ one_pos y h0) (fun _ => 0) 0
    (by rw [cutwalk_lo, cutwalk_hi]; simp) A hA

/-- The cut distribution, begun at a random value between its limits. -/
example : ((volume.restrict (Set.Ico (0 : ℝ) 1)).prod
      (Measure.pi fun _ : Fin 3 => volume.restrict (Set.Ico (0 : ℝ) 1)))
      {p | Spec.Visits ((cutwalk (1 / 2)).simulate (fun _ => []) (fun _ => p.1) (.count 0) (List.ofFn p.2))
        fun _ : Fin 3 => Set.Iic (1 / 2 : ℝ)} =
      ∫⁻ u in Set.Ico 0 1, Spec.pathLaw (fun _ => volume.restrict (Set.Ioc (0 : ℝ) 1)) 3
        (fun _ => Set.Iic (1 / 2)) (0 + (1 - 0) * u) :=
  C99_start (fun _ => []) (cutwalk (1 / 2)) _ rfl _ (cutwalk_scale _) _ (cutwalk_conditional _) trivial rfl rfl
    _ _ rfl (cutwalk_le _) (cutwalk_cdf _ (by norm_num)) (cutwalk_inverse _) measurable_const measurable_const _
    (cutwalk_truncated _ (by norm_num)) 0 1 (cutwalk_lo _) (cutwalk_hi _) rfl 3 _ fun _ => measurableSet_Iic

/-- The uniform distribution is kept by it. -/
example (n : ℕ) (B : Set ℝ) (hB : MeasurableSet B) :
    ∫⁻ x, (Measure.pi fun _ : Fin (n + 1) => volume.restrict (Set.Ico (0 : ℝ) 1))
      {u | Spec.Visits ((cutwalk (1 / 2)).simulate (fun _ => []) (fun _ => 0) (.scalar x) (List.ofFn u))
        fun i => if i = Fin.last n then B else Set.univ} ∂(volume.restrict (Set.Ioc (0 : ℝ) 1)) =
      volume.restrict (Set.Ioc (0 : ℝ) 1) B :=
  C99_keeps (fun _ => []) (cutwalk (1 / 2)) _ rfl _ (cutwalk_scale _) _ (cutwalk_conditional _) trivial rfl rfl
    _ _ rfl (cutwalk_le _) (cutwalk_cdf _ (by norm_num)) (cutwalk_inverse _) measurable_const measurable_const _
    (cutwalk_truncated _ (by norm_num)) _ (fun B _ => by simp) _ n B hB

/-- There is a law of successors for every conditional cumulative function. -/
theorem within_exists {F : ℝ → EReal → ℝ} {G : ℝ → ℝ → ℝ} {lo hi : EReal} (hle : lo < hi)
    (hF : ∀ x, Spec.CondCDF F G lo hi x) (hm : ∀ x, Measurable (quantile F G lo hi x)) :
    ∃ K, Spec.Truncated K F lo hi := by
  refine ⟨fun x => unitLaw.map (quantile F G lo hi x), fun x => ⟨?_, fun y h0 h1 => ?_⟩⟩
  · haveI : IsProbabilityMeasure unitLaw := unitLaw_prob
    exact Measure.isProbabilityMeasure_map (hm x).aemeasurable
  · rw [Measure.map_apply (hm x) measurableSet_Iic]
    exact quantile_Iic hle (hF x) y h0 h1

/-- The logistic walk on the whole line: it is at most 0 after one step from 0, and again after the
next, with the probability of the chain. -/
example : ∃ K, Spec.Truncated K walkF ⊥ ⊤ ∧
    (Measure.pi fun _ : Fin 2 => volume.restrict (Set.Ico (0 : ℝ) 1))
      {u | Spec.Visits (logwalk.simulate (fun _ => []) (fun _ => 0) (.scalar 0) (List.ofFn u))
        fun _ : Fin 2 => Set.Iic (0 : ℝ)} = Spec.pathLaw K 2 (fun _ => Set.Iic 0) 0 := by
  have hle : logwalk.var.lo < logwalk.var.hi := by rw [walk_lo, walk_hi]; exact bot_lt_top
  have hG : Measurable fun p : ℝ × ℝ => walkG p.1 p.2 :=
    measurable_fst.add (Real.measurable_log.comp (measurable_snd.div (measurable_const.sub measurable_snd)))
  have h0 : Measurable fun x => walkF x logwalk.var.lo := by
    rw [walk_lo]; simp only [walkF, if_true]; exact measurable_const
  have h1 : Measurable fun x => walkF x logwalk.var.hi := by
    rw [walk_hi]; simp only [walkF, if_true, top_ne_bot, if_false]; exact measurable_const
  obtain ⟨K, hK⟩ := within_exists hle walk_cdf fun x =>
    (quantile_measurable logwalk walkF walkG hG h0 h1).comp measurable_prodMk_left
  refine ⟨K, by rwa [walk_lo, walk_hi] at hK, ?_⟩
  exact C99_path (fun _ => []) logwalk _ rfl _ walk_scale _ (walk_conditional false) trivial rfl rfl _ _ rfl hle
    walk_cdf hG h0 h1 K hK _ 0 2 _ fun _ => measurableSet_Iic

end Probayes
