/-
Property C80: calling a continuous random variable.
-/
import Mathlib.MeasureTheory.Integral.Bochner.Set
import Verif.Model.RVCont
import Verif.Props.RV
import Verif.Props.Variable

namespace Probayes

/-- Cumulative function and inverse over `[lo, hi]`. -/
def Spec.CDF (F G : ℝ → ℝ) (lo hi : ℝ) : Prop :=
  StrictMonoOn F (Set.Icc lo hi) ∧
    ∀ p ∈ Set.Icc (F lo) (F hi), G p ∈ Set.Icc lo hi ∧ F (G p) = p

/-- A density function gives one number for a number, and as many as there are
entries for an array, entry by entry those of `g`. -/
def Spec.AtEach (f : VArg ℝ → Py Arr) (g : ℝ → ℝ) : Prop :=
  ∀ x, ∃ a, f x = .ok a ∧ a.shape = x.sizes ∧ ∀ i y, x.entry i = some y → a.get i = g y

/-- The numbers of a continuous variable at values: for a constant, that constant
for members of the declared set and the zero of the scale elsewhere; for a function,
its values. -/
def Spec.Density (s : FSet) (b : PScale) : CProb → ℝ → ℝ → Prop
  | .scalar p, x, q =>
      (Spec.MemF s x → q = p) ∧ (¬ Spec.MemF s x → q = if b.iscomplex then -npi else 0)
  | .fn f, x, q => ∃ g, Spec.AtEach f g ∧ q = g x

/-- Arrays run along an axis, single values along none. -/
def Spec.axisAlong (k : ℕ) : VArg ℝ → Option ℕ
  | .scalar _ => none
  | .array _ => some k

/-- The numbers of values along the axes. -/
def Spec.sizesOf : VArg ℝ → List ℕ
  | .scalar _ => []
  | .array xs => [xs.length]

/-- The text of a variable: its value if single, brackets for arrays. -/
def Spec.valueText (fmt : ℝ → Str) (name : Str) : VArg ℝ → Str
  | .scalar x => name ++ ['='] ++ fmt x
  | .array _ => name ++ ['=', '[', ']']

theorem text_eq (fmt : ℝ → Str) (name : Str) (x : VArg ℝ) :
    CRV.text fmt name x = Spec.valueText fmt name x := by
  cases x <;> simp [CRV.text, Spec.valueText]

/-- The distribution `d` has the values `x` of the variable, along the first axis if
there are several, with the density at every value, on the scale `b`. -/
structure Spec.ValuesAt (fmt : ℝ → Str) (v : CRV) (s : FSet) (b : PScale) (x : VArg ℝ) (d : CDist) :
    Prop where
  marg : d.marg = Spec.valueText fmt v.name x
  cond : d.cond = []
  vals : d.vals = [(v.name, x, Spec.axisAlong 0 x)]
  shape : d.prob.shape = Spec.sizesOf x
  prob : ∀ i y, x.entry i = some y → Spec.Density s b v.prob y (d.prob.get i)
  pscale : d.pscale = b

theorem evalProb_spec (v : CRV) (s : FSet) (hs : v.var = FloatVar.make s) (b : PScale)
    (hb : evalPscale v.pscale = .ok b)
    (hf : ∀ f, v.prob = .fn f → ∃ g, Spec.AtEach f g) (x : VArg ℝ) :
    ∃ a, v.evalProb x = .ok a ∧ a.shape = x.sizes ∧
      ∀ i y, x.entry i = some y → Spec.Density s b v.prob y (a.get i) := by
  have key : ∀ p y, Spec.Density s b (.scalar p) y
      (if v.var.inside y then p else pZero b.iscomplex) := by
    intro p y
    by_cases hm : Spec.MemF s y
    · rw [if_pos (by rw [hs]; exact (C08_inside_float s y).mpr hm)]
      exact ⟨fun _ => rfl, fun h => absurd hm h⟩
    · rw [if_neg (by rw [hs]; exact fun h => hm ((C08_inside_float s y).mp h))]
      exact ⟨fun h => absurd h hm, fun _ => rfl⟩
  unfold CRV.evalProb
  cases hp : v.prob with
  | scalar p =>
    cases x with
    | scalar y =>
      refine ⟨⟨[], fun _ => uniformProb v.var.inside p b.iscomplex y⟩, by
        simp only [rvEvalProb, hb, bind, Except.bind, pure, Except.pure], rfl, ?_⟩
      intro i z hz
      cases i with
      | nil => simp only [VArg.entry, Option.some.injEq] at hz; subst hz; exact key p y
      | cons _ _ => simp [VArg.entry] at hz
    | array ys =>
      refine ⟨listArr (uniformProbArr v.var.inside p b.iscomplex ys), by
        simp only [rvEvalProbArr, hb, bind, Except.bind, pure, Except.pure], ?_, ?_⟩
      · simp [listArr, uniformProbArr, VArg.sizes]
      intro i z hz
      match i, hz with
      | [k], hz =>
        have : (listArr (uniformProbArr v.var.inside p b.iscomplex ys)).get [k] =
            (if v.var.inside z then p else pZero b.iscomplex) := by
          simp only [VArg.entry] at hz
          simp [listArr, uniformProbArr, List.getD_eq_getElem?_getD, List.getElem?_map, hz]
        rw [this]
        exact key p z
      | [], hz => simp [VArg.entry] at hz
      | _ :: _ :: _, hz => simp [VArg.entry] at hz
  | fn f =>
    obtain ⟨g, hg⟩ := hf f hp
    obtain ⟨a, h1, h2, h3⟩ := hg x
    exact ⟨a, h1, h2, fun i y hy => ⟨g, hg, h3 i y hy⟩⟩

theorem call_spec (fmt : ℝ → Str) (v : CRV) (s : FSet) (hs : v.var = FloatVar.make s) (b : PScale)
    (hb : evalPscale v.pscale = .ok b)
    (hf : ∀ f, v.prob = .fn f → ∃ g, Spec.AtEach f g) (req : CReq) (rand : ℕ → ℝ) (x : VArg ℝ)
    (hx : v.evaluate true req rand = .ok x) :
    ∃ d, v.call fmt req rand = .ok d ∧ Spec.ValuesAt fmt v s b x d := by
  obtain ⟨a, h1, h2, h3⟩ := evalProb_spec v s hs b hb hf x
  refine ⟨⟨CRV.text fmt v.name x, [], [(v.name, x, if x.isscalar then none else some 0)], a, b⟩, ?_,
    ⟨text_eq fmt v.name x, rfl, ?_, ?_, h3, rfl⟩⟩
  · simp [CRV.call, hx, h1, CDist.build, hb, bind, Except.bind, pure, Except.pure, h2]
  · cases x <;> rfl
  · show a.shape = _
    rw [h2]; cases x <;> rfl

/-! ### Values given -/

/-- C80: calling with values — a number or an array, members of the set or not —
returns exactly these values with the density at each. -/
theorem C80_given (fmt : ℝ → Str) (v : CRV) (s : FSet) (hs : v.var = FloatVar.make s) (b : PScale)
    (hb : evalPscale v.pscale = .ok b)
    (hf : ∀ f, v.prob = .fn f → ∃ g, Spec.AtEach f g) (rand : ℕ → ℝ) :
    (∀ x, ∃ d, v.call fmt (.scalar x) rand = .ok d ∧ Spec.ValuesAt fmt v s b (.scalar x) d) ∧
    (∀ xs, ∃ d, v.call fmt (.array xs) rand = .ok d ∧ Spec.ValuesAt fmt v s b (.array xs) d) :=
  ⟨fun _ => call_spec fmt v s hs b hb hf _ rand _ rfl,
   fun _ => call_spec fmt v s hs b hb hf _ rand _ rfl⟩

/-- C80: a density function that does not return one number for every value is
refused. -/
theorem C80_shape_refused (fmt : ℝ → Str) (v : CRV) (b : PScale) (hb : evalPscale v.pscale = .ok b)
    (f : VArg ℝ → Py Arr) (hp : v.prob = .fn f) (xs : List ℝ) (a : Arr)
    (ha : f (.array xs) = .ok a) (hne : a.shape ≠ [xs.length]) (rand : ℕ → ℝ) :
    v.call fmt (.array xs) rand = .error .assertion := by
  simp [CRV.call, CRV.evaluate, CRV.evalProb, hp, ha, CDist.build, hb, bind, Except.bind, pure,
    Except.pure, VArg.sizes, hne]

/-! ### Values sampled without cumulative functions -/

theorem toVArg_ok {r : Py SA} {x : SA} (h : r = .ok x) :
    (do return (← r).toVArg : Py (VArg ℝ)) = .ok x.toVArg := by
  subst h; rfl

/-- C80: without cumulative functions `rv({n})` has `n` values, all in the declared
set, and `rv({-n})`, `rv({0})` and `rv()` have values within the limits. -/
theorem C80_sampled (fmt : ℝ → Str) (v : CRV) (s : FSet) (hs : v.var = FloatVar.make s) (b : PScale)
    (hb : evalPscale v.pscale = .ok b)
    (hf : ∀ f, v.prob = .fn f → ∃ g, Spec.AtEach f g) (hpf : v.pfun = none)
    (lo hi : ℝ) (hlo : v.var.lo = lo) (hhi : v.var.hi = hi) (hlt : lo < hi)
    (huf : Spec.Inverts v.ufun lo hi) (n : ℕ) (hn : 1 ≤ n) (rand : ℕ → ℝ)
    (hr : ∀ i, 0 ≤ rand i ∧ rand i < 1) :
    (∃ xs d, v.call fmt (.count n) rand = .ok d ∧ Spec.ValuesAt fmt v s b (.array xs) d ∧
      xs.length = n ∧ ∀ x ∈ xs, Spec.MemF s x) ∧
    (∃ xs d, v.call fmt (.count (-n)) rand = .ok d ∧ Spec.ValuesAt fmt v s b (.array xs) d ∧
      xs.length = n ∧ ∀ x ∈ xs, lo ≤ x ∧ x < hi) ∧
    (∃ x d, v.call fmt (.count 0) rand = .ok d ∧ v.call fmt .none rand = .ok d ∧
      Spec.ValuesAt fmt v s b (.scalar x) d ∧ lo ≤ x ∧ x < hi) := by
  rw [hs] at hlo hhi
  obtain ⟨xs, h1, h2, h3⟩ := C09_evaluate_grid s lo hi hlo hhi hlt v.ufun huf n hn rand
  obtain ⟨g1, x, g2, g3⟩ := C09_evaluate_random s lo hi hlo hhi hlt v.ufun huf n rand hr
  obtain ⟨ys, k1, k2, k3⟩ := g1 (by omega)
  rw [← hs] at h1 k1 g2
  have e : ∀ (m : ℤ) (y : SA), v.var.evaluate v.ufun m rand = .ok y →
      v.evaluate true (.count m) rand = .ok y.toVArg := by
    intro m y hy
    simp only [CRV.evaluate, hpf]
    exact toVArg_ok hy
  refine ⟨?_, ?_, ?_⟩
  · obtain ⟨d, hd, hc⟩ := call_spec fmt v s hs b hb hf _ rand _ (e _ _ h1)
    exact ⟨xs, d, hd, hc, h2, h3⟩
  · obtain ⟨d, hd, hc⟩ := call_spec fmt v s hs b hb hf _ rand _ (e _ _ k1)
    exact ⟨ys, d, hd, hc, k2, k3⟩
  · obtain ⟨d, hd, hc⟩ := call_spec fmt v s hs b hb hf _ rand _ (e _ _ g2)
    refine ⟨x, d, hd, ?_, hc, g3⟩
    have : v.evaluate true .none rand = v.evaluate true (.count 0) rand := by
      simp only [CRV.evaluate, hpf]
    rw [← hd]
    simp only [CRV.call, this]

/-- The interval of outcomes of a uniform draw. -/
theorem volume_Ico_le (t : ℝ) (h0 : 0 ≤ t) (h1 : t ≤ 1) :
    MeasureTheory.volume {u : ℝ | (0 ≤ u ∧ u < 1) ∧ u ≤ t} = ENNReal.ofReal t := by
  rcases h1.lt_or_eq with h | h
  · have : {u : ℝ | (0 ≤ u ∧ u < 1) ∧ u ≤ t} = Set.Icc 0 t := by
      ext u; simp only [Set.mem_setOf_eq, Set.mem_Icc]; constructor
      · rintro ⟨⟨a, _⟩, c⟩; exact ⟨a, c⟩
      · rintro ⟨a, c⟩; exact ⟨⟨a, by linarith⟩, c⟩
    rw [this, Real.volume_Icc, sub_zero]
  · have : {u : ℝ | (0 ≤ u ∧ u < 1) ∧ u ≤ t} = Set.Ico 0 1 := by
      ext u; simp only [Set.mem_setOf_eq, Set.mem_Ico]; constructor
      · rintro ⟨a, _⟩; exact a
      · rintro ⟨a, c⟩; exact ⟨⟨a, c⟩, by linarith⟩
    rw [this, Real.volume_Ico, h, sub_zero]

/-- The value of a call with a single one. -/
def CDist.single (d : CDist) : Option ℝ :=
  match d.vals with
  | [(_, .scalar x, _)] => some x
  | _ => none

/-- C80: without cumulative functions and transform, `rv()` is uniform over the
limits: the probability of a value of at most `x` is the fraction of the interval
below `x`. -/
theorem C80_uniform_law (fmt : ℝ → Str) (v : CRV) (s : FSet) (hs : v.var = FloatVar.make s)
    (b : PScale) (hb : evalPscale v.pscale = .ok b)
    (hf : ∀ f, v.prob = .fn f → ∃ g, Spec.AtEach f g) (huf : v.ufun = none)
    (lo hi : ℝ) (hlo : v.var.lo = lo) (hhi : v.var.hi = hi) (hlt : lo < hi) (x : ℝ)
    (hx : lo ≤ x ∧ x ≤ hi) :
    MeasureTheory.volume {u : ℝ | (0 ≤ u ∧ u < 1) ∧
        ∃ d y, v.call fmt .none (fun _ => u) = .ok d ∧ d.single = some y ∧ y ≤ x} =
      ENNReal.ofReal ((x - lo) / (hi - lo)) := by
  have hd : 0 < hi - lo := by linarith
  have ev : ∀ u : ℝ, v.evaluate true .none (fun _ => u) = .ok (.scalar (lo + (hi - lo) * u)) := by
    intro u
    have : v.var.evaluate v.ufun 0 (fun _ => u) = .ok (.scalar (lo + (hi - lo) * u)) := by
      have hv : v.var = ⟨v.var.s0, v.var.s1, lo, hi⟩ := by rw [← hlo, ← hhi]
      rw [hv, evaluate_eq, huf]
      simp [UFun.fwd, UFun.inv, uniform]
    simp only [CRV.evaluate]
    exact toVArg_ok this
  rw [← volume_Ico_le ((x - lo) / (hi - lo)) (div_nonneg (by linarith) hd.le)
    ((div_le_one hd).mpr (by linarith))]
  congr 1
  ext u
  simp only [Set.mem_setOf_eq]
  refine and_congr_right fun _ => ?_
  obtain ⟨d, hd1, hd2⟩ := call_spec fmt v s hs b hb hf .none (fun _ => u) _ (ev u)
  have hsing : d.single = some (lo + (hi - lo) * u) := by simp [CDist.single, hd2.vals, SA.toVArg]
  rw [le_div_iff₀ hd]
  constructor
  · rintro ⟨d', y, h1, h2, h3⟩
    rw [hd1] at h1
    cases h1
    rw [hsing] at h2
    cases h2
    linarith
  · intro h
    exact ⟨d, _, hd1, hsing, by linarith⟩

/-! ### Values sampled with cumulative functions -/

theorem evaluate_pfun (v : CRV) (F G : ℝ → ℝ) (hpf : v.pfun = some (F, G)) (huf : v.ufun = none)
    (lo hi : ℝ) (hlo : v.var.lo = lo) (hhi : v.var.hi = hi) (n : ℤ) (rand : ℕ → ℝ) :
    v.evaluate true (.count n) rand =
      .ok ((uniform (F lo) (F hi) n v.var.s0.excl v.var.s1.excl rand).toVArg.map G) := by
  have hfin : v.var.isfinite := by simp [FloatVar.isfinite, hlo, hhi]
  simp [CRV.evaluate, hpf, evaluatePfun, hfin, huf, hlo, hhi, UFun.fwd]

theorem cdf_point {F G : ℝ → ℝ} {lo hi : ℝ} (hlt : lo < hi) (h : Spec.CDF F G lo hi) (t : ℝ)
    (h0 : 0 ≤ t) (h1 : t ≤ 1) :
    let y := G (F lo + (F hi - F lo) * t)
    F y = F lo + (F hi - F lo) * t ∧ lo ≤ y ∧ y ≤ hi ∧ (0 < t → lo < y) ∧ (t < 1 → y < hi) := by
  obtain ⟨hm, hG⟩ := h
  have l0 : lo ∈ Set.Icc lo hi := ⟨le_refl _, hlt.le⟩
  have l1 : hi ∈ Set.Icc lo hi := ⟨hlt.le, le_refl _⟩
  have hF := hm l0 l1 hlt
  have hd : 0 < F hi - F lo := by linarith
  obtain ⟨g1, g2⟩ := hG (F lo + (F hi - F lo) * t) ⟨by nlinarith, by nlinarith⟩
  refine ⟨g2, g1.1, g1.2, ?_, ?_⟩
  · intro ht
    exact (hm.lt_iff_lt l0 g1).mp (by rw [g2]; nlinarith)
  · intro ht
    exact (hm.lt_iff_lt g1 l1).mp (by rw [g2]; nlinarith)

theorem mem_of_limits (s : FSet) (lo hi y : ℝ) (hlo : (FloatVar.make s).lo = lo)
    (hhi : (FloatVar.make s).hi = hi) (h0 : lo ≤ y) (h1 : y ≤ hi)
    (h2 : (FloatVar.make s).s0.excl = true → lo < y)
    (h3 : (FloatVar.make s).s1.excl = true → y < hi) : Spec.MemF s y := by
  rw [← C08_inside_float]
  obtain ⟨a, b, hm⟩ := make_spec s lo hi hlo hhi
  rw [hm] at h2 h3 ⊢
  rcases a with ⟨av, ae⟩; rcases b with ⟨bv, be⟩
  cases ae <;> cases be <;> simp_all [FloatVar.inside]

/-- C80: with cumulative function `F` and its inverse, `rv({n})` has `n` values of the
declared set at equal steps of cumulative probability between those of the limits,
the excluded limits left out. -/
theorem C80_quantiles (fmt : ℝ → Str) (v : CRV) (s : FSet) (hs : v.var = FloatVar.make s)
    (b : PScale) (hb : evalPscale v.pscale = .ok b)
    (hf : ∀ f, v.prob = .fn f → ∃ g, Spec.AtEach f g) (huf : v.ufun = none)
    (F G : ℝ → ℝ) (hpf : v.pfun = some (F, G))
    (lo hi : ℝ) (hlo : v.var.lo = lo) (hhi : v.var.hi = hi) (hlt : lo < hi)
    (hF : Spec.CDF F G lo hi) (n : ℕ) (hn : 1 ≤ n) (rand : ℕ → ℝ) :
    ∃ xs d, v.call fmt (.count n) rand = .ok d ∧ Spec.ValuesAt fmt v s b (.array xs) d ∧
      xs.length = n ∧ (∀ x ∈ xs, Spec.MemF s x) ∧
      ∀ i (h : i < xs.length), F xs[i] =
        F lo + (F hi - F lo) * Spec.fraction n i v.var.s0.excl v.var.s1.excl := by
  obtain ⟨ps, h1, h2, h3⟩ := C07_grid (F lo) (F hi) n hn v.var.s0.excl v.var.s1.excl rand
  have he := evaluate_pfun v F G hpf huf lo hi hlo hhi n rand
  rw [h1] at he
  obtain ⟨d, hd, hc⟩ := call_spec fmt v s hs b hb hf _ rand _ he
  have pt : ∀ i (h : i < (ps.map G).length), _ := fun i h =>
    cdf_point hlt hF (Spec.fraction n i v.var.s0.excl v.var.s1.excl)
      (Spec.fraction_bounds n i (by simp at h; omega) v.var.s0.excl v.var.s1.excl).1
      (Spec.fraction_bounds n i (by simp at h; omega) v.var.s0.excl v.var.s1.excl).2.1
  refine ⟨ps.map G, d, hd, hc, by simpa using h2, ?_, ?_⟩
  · intro x hx
    obtain ⟨i, hi', rfl⟩ := List.getElem_of_mem hx
    have hi2 := hi'
    rw [List.length_map] at hi2
    obtain ⟨-, k1, k2, k3, k4⟩ := pt i hi'
    obtain ⟨-, -, k5, k6⟩ := Spec.fraction_bounds n i (by omega) v.var.s0.excl v.var.s1.excl
    rw [List.getElem_map, h3 i hi2]
    rw [hs] at hlo hhi
    refine mem_of_limits s lo hi _ hlo hhi k1 k2 (fun h => k3 (k5 ?_)) (fun h => k4 (k6 ?_))
    · rw [hs]; exact h
    · rw [hs]; exact h
  · intro i hi'
    have hi2 := hi'
    rw [List.length_map] at hi2
    rw [List.getElem_map, h3 i hi2]
    exact (pt i hi').1

/-- C80: with cumulative functions `rv({-n})` has `n` values within the limits, the
cumulative probability of the i-th determined by the i-th draw alone. -/
theorem C80_draws (fmt : ℝ → Str) (v : CRV) (s : FSet) (hs : v.var = FloatVar.make s)
    (b : PScale) (hb : evalPscale v.pscale = .ok b)
    (hf : ∀ f, v.prob = .fn f → ∃ g, Spec.AtEach f g) (huf : v.ufun = none)
    (F G : ℝ → ℝ) (hpf : v.pfun = some (F, G))
    (lo hi : ℝ) (hlo : v.var.lo = lo) (hhi : v.var.hi = hi) (hlt : lo < hi)
    (hF : Spec.CDF F G lo hi) (n : ℕ) (hn : 1 ≤ n) (rand : ℕ → ℝ)
    (hr : ∀ i, 0 ≤ rand i ∧ rand i < 1) :
    ∃ xs d, v.call fmt (.count (-n)) rand = .ok d ∧ Spec.ValuesAt fmt v s b (.array xs) d ∧
      xs.length = n ∧
      ∀ i (h : i < xs.length), lo ≤ xs[i] ∧ xs[i] < hi ∧ F xs[i] = F lo + (F hi - F lo) * rand i := by
  have he := evaluate_pfun v F G hpf huf lo hi hlo hhi (-(n : ℤ)) rand
  have h0 : ¬ (-(n : ℤ) = 0) := by omega
  have h1 : -(n : ℤ) < 0 := by omega
  simp only [uniform, if_neg h0, if_pos h1] at he
  obtain ⟨d, hd, hc⟩ := call_spec fmt v s hs b hb hf _ rand _ he
  refine ⟨_, d, hd, hc, by simp, ?_⟩
  intro i hi'
  simp only [List.getElem_map, List.getElem_range]
  obtain ⟨k0, k1, k2, k3, k4⟩ := cdf_point hlt hF (rand i) (hr i).1 (hr i).2.le
  exact ⟨k1, k4 (hr i).2, k0⟩

/-- C80: with cumulative functions `rv({0})` follows the distribution they describe,
restricted to the limits: the probability of a value of at most `x` is the share of
cumulative probability below `x`. -/
theorem C80_law (fmt : ℝ → Str) (v : CRV) (s : FSet) (hs : v.var = FloatVar.make s)
    (b : PScale) (hb : evalPscale v.pscale = .ok b)
    (hf : ∀ f, v.prob = .fn f → ∃ g, Spec.AtEach f g) (huf : v.ufun = none)
    (F G : ℝ → ℝ) (hpf : v.pfun = some (F, G))
    (lo hi : ℝ) (hlo : v.var.lo = lo) (hhi : v.var.hi = hi) (hlt : lo < hi)
    (hF : Spec.CDF F G lo hi) (x : ℝ) (hx : lo ≤ x ∧ x ≤ hi) :
    MeasureTheory.volume {u : ℝ | (0 ≤ u ∧ u < 1) ∧
        ∃ d y, v.call fmt (.count 0) (fun _ => u) = .ok d ∧ d.single = some y ∧ y ≤ x} =
      ENNReal.ofReal ((F x - F lo) / (F hi - F lo)) := by
  have l0 : lo ∈ Set.Icc lo hi := ⟨le_refl _, hlt.le⟩
  have l1 : hi ∈ Set.Icc lo hi := ⟨hlt.le, le_refl _⟩
  have hFl := hF.1 l0 l1 hlt
  have hd : 0 < F hi - F lo := by linarith
  have hxl := hF.1.monotoneOn l0 hx hx.1
  have hxh := hF.1.monotoneOn hx l1 hx.2
  rw [← volume_Ico_le ((F x - F lo) / (F hi - F lo)) (div_nonneg (by linarith) hd.le)
    ((div_le_one hd).mpr (by linarith))]
  congr 1
  ext u
  simp only [Set.mem_setOf_eq]
  refine and_congr_right fun hu => ?_
  have he := evaluate_pfun v F G hpf huf lo hi hlo hhi 0 (fun _ => u)
  simp only [uniform, if_true] at he
  obtain ⟨d, hd1, hd2⟩ := call_spec fmt v s hs b hb hf _ (fun _ => u) _ he
  obtain ⟨k0, k1, k2, -, -⟩ := cdf_point hlt hF u hu.1 hu.2.le
  have hsing : d.single = some (G (F lo + (F hi - F lo) * u)) := by
    simp [CDist.single, hd2.vals, SA.toVArg, VArg.map]
  rw [le_div_iff₀ hd]
  have hle := hF.1.le_iff_le ⟨k1, k2⟩ hx
  rw [k0] at hle
  constructor
  · rintro ⟨d', y, h1, h2, h3⟩
    rw [hd1] at h1
    cases h1
    rw [hsing] at h2
    cases h2
    have := hle.mpr h3
    linarith
  · intro h
    exact ⟨d, _, hd1, hsing, hle.mp (by linarith)⟩

/-! ### Where sampling is not as documented -/

/-- Claim: without an argument, a single value is sampled as with `{0}`
(variable.py:515-517). -/
def C80_none_claim : Prop :=
  ∀ (fmt : ℝ → Str) (v : CRV) (rand : ℕ → ℝ),
    v.call fmt .none rand = v.call fmt (.count 0) rand

/-- The variable on [0, 1] with density 2x. -/
noncomputable def triangular : CRV :=
  { name := ['x'], var := FloatVar.make (.list ⟨(0 : ℝ), false⟩ ⟨(1 : ℝ), false⟩), ufun := none,
    pscale := .none, prob := .fn fun x => .ok ⟨x.sizes, fun i => 2 * ((x.entry i).getD 0)⟩,
    pfun := some (fun x => x ^ 2, fun p => Real.sqrt p), tran := .none, tfun := none, delta := none }

theorem triangular_lo : triangular.var.lo = (0 : ℝ) := by
  have : ¬ ((1 : EReal) < 0) := not_lt.mpr zero_le_one
  simp [triangular, FloatVar.make, FSet.toList, this]
theorem triangular_hi : triangular.var.hi = (1 : ℝ) := by
  have : ¬ ((1 : EReal) < 0) := not_lt.mpr zero_le_one
  simp [triangular, FloatVar.make, FSet.toList, this]

theorem triangular_pointwise : ∀ f, triangular.prob = .fn f → ∃ g, Spec.AtEach f g := by
  intro f hf
  refine ⟨fun y => 2 * y, ?_⟩
  simp only [triangular, CProb.fn.injEq] at hf
  subst hf
  intro x
  exact ⟨_, rfl, rfl, fun i y hy => by simp [hy]⟩

theorem triangular_cdf : Spec.CDF (fun x => x ^ 2) (fun p => Real.sqrt p) 0 1 := by
  refine ⟨?_, ?_⟩
  · intro a ha b hb hab
    obtain ⟨ha0, -⟩ := ha
    show a ^ 2 < b ^ 2
    nlinarith
  · intro p hp
    simp only [Set.mem_Icc] at hp ⊢
    norm_num at hp
    exact ⟨⟨Real.sqrt_nonneg _, Real.sqrt_le_one.mpr hp.2⟩, Real.sq_sqrt hp.1⟩

theorem triangular_scale : evalPscale triangular.pscale = .ok (.lin 1) := by
  simp [triangular, evalPscale]

/-- With cumulative functions, the value sampled without an argument ignores them. -/
theorem C80_none_claim_fails : ¬ C80_none_claim := by
  intro h
  have h := h (fun _ => []) triangular (fun _ => 1 / 4)
  have e1 : triangular.evaluate true .none (fun _ => 1 / 4) = .ok (.scalar (1 / 4)) := by
    have hv : triangular.var = ⟨triangular.var.s0, triangular.var.s1, (0 : ℝ), (1 : ℝ)⟩ := by
      rw [← triangular_lo, ← triangular_hi]
    have : triangular.var.evaluate triangular.ufun 0 (fun _ => 1 / 4) = .ok (.scalar (1 / 4)) := by
      rw [hv, evaluate_eq]
      simp [triangular, UFun.fwd, UFun.inv, uniform]
    simp only [CRV.evaluate]
    exact toVArg_ok this
  have e2 := evaluate_pfun triangular (fun x => x ^ 2) (fun p => Real.sqrt p) rfl rfl 0 1
    triangular_lo triangular_hi 0 (fun _ => 1 / 4)
  obtain ⟨d1, a1, b1⟩ := call_spec (fun _ => []) triangular
    (.list ⟨(0 : ℝ), false⟩ ⟨(1 : ℝ), false⟩) rfl _ triangular_scale
    triangular_pointwise _ _ _ e1
  obtain ⟨d2, a2, b2⟩ := call_spec (fun _ => []) triangular
    (.list ⟨(0 : ℝ), false⟩ ⟨(1 : ℝ), false⟩) rfl _ triangular_scale
    triangular_pointwise _ _ _ e2
  rw [a1, a2] at h
  have hd : d1 = d2 := Except.ok.inj h
  have h1 := b1.vals
  rw [hd, b2.vals] at h1
  simp only [uniform, if_true, SA.toVArg, VArg.map, List.cons.injEq, Prod.mk.injEq,
    VArg.scalar.injEq, and_true, true_and] at h1
  have h2 : Real.sqrt (1 / 4) = 1 / 2 := by
    rw [show (1 / 4 : ℝ) = (1 / 2) ^ 2 by norm_num]; exact Real.sqrt_sq (by norm_num)
  norm_num at h1 h2
  rw [h2] at h1
  norm_num at h1

/-- C80: without cumulative functions the two agree.  Missing: with cumulative
functions they do not. -/
theorem C80_none_partial (fmt : ℝ → Str) (v : CRV) (hpf : v.pfun = none) (rand : ℕ → ℝ) :
    v.call fmt .none rand = v.call fmt (.count 0) rand := by
  have : v.evaluate true .none rand = v.evaluate true (.count 0) rand := by
    simp only [CRV.evaluate, hpf]
  simp only [CRV.call, this]

/-- Claim: with cumulative functions, variables without finite limits can be sampled. -/
def C80_infinite_claim : Prop :=
  ∀ (fmt : ℝ → Str) (v : CRV) (rand : ℕ → ℝ), v.pfun ≠ none →
    ∃ d, v.call fmt (.count 0) rand = .ok d

/-- C80: a variable with an infinite limit is not sampled, whatever was set. -/
theorem C80_infinite_refused (fmt : ℝ → Str) (v : CRV)
    (h : v.var.lo = ⊥ ∨ v.var.hi = ⊤) (n : ℤ) (rand : ℕ → ℝ) :
    v.call fmt (.count n) rand = .error .assertion ∧
      v.call fmt .none rand = .error .assertion ∧
      ∀ u, v.call fmt (.unit u) rand = .error .assertion := by
  have hfin : ¬ v.var.isfinite := by
    rcases h with h | h <;> simp [FloatVar.isfinite, h]
  have e := fun m => C09_unbounded_raises v.var h v.ufun m rand
  refine ⟨?_, ?_, fun u => ?_⟩
  · have : v.evaluate true (.count n) rand = .error .assertion := by
      cases hp : v.pfun with
      | none => simp [CRV.evaluate, hp, e, bind, Except.bind]
      | some FG => simp [CRV.evaluate, hp, evaluatePfun, hfin]
    simp [CRV.call, this, bind, Except.bind]
  · simp [CRV.call, CRV.evaluate, e, bind, Except.bind]
  · simp [CRV.call, CRV.evaluate, FloatVar.evaluateUnit, e, bind, Except.bind]

/-- A logistic variable on the whole line. -/
noncomputable def logistic : CRV :=
  { triangular with
    var := FloatVar.make (.tuple ⊥ ⊤)
    pfun := some (fun x => 1 / (1 + Real.exp (-x)), fun p => Real.log (p / (1 - p))) }

theorem C80_infinite_claim_fails : ¬ C80_infinite_claim := by
  intro h
  obtain ⟨d, hd⟩ := h (fun _ => []) logistic (fun _ => 0) (by simp [logistic])
  have := (C80_infinite_refused (fun _ => []) logistic (Or.inl (by
    simp [logistic, FloatVar.make, FSet.toList])) 0 (fun _ => 0)).1
  rw [this] at hd
  cases hd

/-- Claim: `rv({p})` is the value of cumulative probability `p` (vtypes.py:87-90: "a
sampling of value from a ICDF for then given P"). -/
def C80_unit_claim : Prop :=
  ∀ (fmt : ℝ → Str) (v : CRV) (F G : ℝ → ℝ) (p : ℝ) (rand : ℕ → ℝ), v.pfun = some (F, G) →
    0 ≤ p → p < 1 → (∃ lo hi : ℝ, v.var.lo = lo ∧ v.var.hi = hi ∧ F lo = 0 ∧ F hi = 1) →
    ∃ d x, v.call fmt (.unit p) rand = .ok d ∧ d.single = some x ∧ F x = p

/-- C80: a set of a non-zero float is refused by continuous variables, always. -/
theorem C80_unit_refused (fmt : ℝ → Str) (v : CRV) (u : ℝ) (hu : u ≠ 0) (rand : ℕ → ℝ) :
    Raises (v.call fmt (.unit u) rand) := by
  cases h : v.var.evaluate v.ufun 0 rand with
  | error e =>
    exact ⟨e, by simp [CRV.call, CRV.evaluate, FloatVar.evaluateUnit, h, bind, Except.bind]⟩
  | ok x =>
    exact ⟨.type, by simp [CRV.call, CRV.evaluate, FloatVar.evaluateUnit, h, hu, bind, Except.bind]⟩

/-- C80: a set of the float zero is the same as no argument: one random value. -/
theorem C80_unit_zero (fmt : ℝ → Str) (v : CRV) (rand : ℕ → ℝ) :
    v.call fmt (.unit 0) rand = v.call fmt .none rand := by
  have : v.evaluate true (.unit 0) rand = v.evaluate true .none rand := by
    simp only [CRV.evaluate, FloatVar.evaluateUnit]
    cases v.var.evaluate v.ufun 0 rand <;> simp
  simp only [CRV.call, this]

theorem C80_unit_claim_fails : ¬ C80_unit_claim := by
  intro h
  obtain ⟨d, x, hd, -⟩ := h (fun _ => []) triangular _ _ (1 / 2) (fun _ => 0) rfl (by norm_num)
    (by norm_num) ⟨0, 1, triangular_lo, triangular_hi, by norm_num, by norm_num⟩
  obtain ⟨e, he⟩ := C80_unit_refused (fun _ => []) triangular (1 / 2) (by norm_num) (fun _ => 0)
  rw [he] at hd
  cases hd

/-- C80: a discrete variable given cumulative functions (as those of SciPy's discrete
distributions are) cannot be sampled with `{n}`, although its set is finite. -/
theorem C80_discrete_refused (F G : ℝ → ℝ) (lo hi : ℝ) (n : ℤ) (rand : ℕ → ℝ) :
    discretePfun F G lo hi n rand = .error .assertion := by
  simp [discretePfun, evaluatePfun, discreteIsfinite]

/-! ### The default density -/

/-- The number a call denotes for a single value. -/
noncomputable def CRV.denoted (fmt : ℝ → Str) (v : CRV) (x : ℝ) : ℝ :=
  match v.call fmt (.scalar x) (fun _ => 0) with
  | .ok d => Spec.value d.pscale (d.prob.get [])
  | .error _ => 0

/-- Claim: the default density integrates to one over the declared set, with a
transform of the values or without. -/
def C80_default_claim : Prop :=
  ∀ (fmt : ℝ → Str) (v : CRV) (s : FSet) (p lo hi : ℝ), v.var = FloatVar.make s →
    v.var.lo = lo → v.var.hi = hi → lo < hi → v.pscale = .none → Spec.Inverts v.ufun lo hi →
    npz ≤ v.length → v.defaultProb = .ok p → v.prob = .scalar p →
    ∫ x in {x : ℝ | Spec.MemF s x}, v.denoted fmt x = 1

theorem denoted_inside (fmt : ℝ → Str) (v : CRV) (s : FSet) (hs : v.var = FloatVar.make s)
    (b : PScale) (hb : evalPscale v.pscale = .ok b) (p : ℝ) (hp : v.prob = .scalar p) (x : ℝ)
    (hx : Spec.MemF s x) : v.denoted fmt x = Spec.value b p := by
  obtain ⟨d, hd, hc⟩ := call_spec fmt v s hs b hb (by simp [hp]) (.scalar x) (fun _ => 0) (.scalar x)
    rfl
  have := hc.prob [] x rfl
  rw [hp] at this
  unfold CRV.denoted
  rw [hd]
  simp only [hc.pscale]
  rw [this.1 hx]

theorem mem_volume (s : FSet) (lo hi : ℝ) (hlo : (FloatVar.make s).lo = lo)
    (hhi : (FloatVar.make s).hi = hi) (hlt : lo < hi) :
    MeasurableSet {x : ℝ | Spec.MemF s x} ∧
      MeasureTheory.volume.real {x : ℝ | Spec.MemF s x} = hi - lo := by
  have hset : {x : ℝ | Spec.MemF s x} = {x : ℝ | (FloatVar.make s).inside x = true} := by
    ext x; exact (C08_inside_float s x).symm
  rw [hset]
  obtain ⟨a, b, hm⟩ := make_spec s lo hi hlo hhi
  rw [hm]
  rcases a with ⟨av, ae⟩; rcases b with ⟨bv, be⟩
  have hle : 0 ≤ hi - lo := by linarith
  cases ae <;> cases be <;> simp only [FloatVar.inside, EReal.coe_le_coe_iff,
    EReal.coe_lt_coe_iff, Bool.and_eq_true, decide_eq_true_eq]
  · exact ⟨measurableSet_Icc, by
      show MeasureTheory.volume.real (Set.Icc lo hi) = _
      simp [MeasureTheory.measureReal_def, hle]⟩
  · exact ⟨measurableSet_Ico, by
      show MeasureTheory.volume.real (Set.Ico lo hi) = _
      simp [MeasureTheory.measureReal_def, hle]⟩
  · exact ⟨measurableSet_Ioc, by
      show MeasureTheory.volume.real (Set.Ioc lo hi) = _
      simp [MeasureTheory.measureReal_def, hle]⟩
  · exact ⟨measurableSet_Ioo, by
      show MeasureTheory.volume.real (Set.Ioo lo hi) = _
      simp [MeasureTheory.measureReal_def, hle]⟩

theorem integral_denoted (fmt : ℝ → Str) (v : CRV) (s : FSet) (hs : v.var = FloatVar.make s)
    (b : PScale) (hb : evalPscale v.pscale = .ok b) (p : ℝ) (hp : v.prob = .scalar p) (lo hi : ℝ)
    (hlo : v.var.lo = lo) (hhi : v.var.hi = hi) (hlt : lo < hi) :
    ∫ x in {x : ℝ | Spec.MemF s x}, v.denoted fmt x = (hi - lo) * Spec.value b p := by
  rw [hs] at hlo hhi
  obtain ⟨h1, h2⟩ := mem_volume s lo hi hlo hhi hlt
  rw [MeasureTheory.setIntegral_congr_fun h1
    (fun x hx => denoted_inside fmt v s hs b hb p hp x hx), MeasureTheory.setIntegral_const, h2]
  rfl

theorem default_value (v : CRV) (b : PScale) (hb : evalPscale v.pscale = .ok b) (hv : Spec.Valid b)
    (hl : npz ≤ v.length) (hc : Spec.Unclamped (-Real.log v.length) (.log 0 0) b) :
    ∃ p, v.defaultProb = .ok p ∧ Spec.value b p = 1 / v.length := by
  have hpos : 0 < v.length := lt_of_lt_of_le npz_pos hl
  obtain ⟨p, hp, hval⟩ := C01_rescale_value (-Real.log v.length) (.str "log") v.pscale (.log 0 0) b
    (by simp [evalPscale, complexZero]) hb trivial hv hc
  refine ⟨p, ?_, ?_⟩
  · rw [CRV.defaultProb, logProb, if_pos hl]; exact hp
  · rw [hval]
    have : Spec.offset 0 0 = 0 := by simp [Spec.offset]
    simp [Spec.value, this, Real.exp_neg, Real.exp_log hpos]

/-- C80: without a transform the default density is one over the length of the
interval and integrates to one, on every scale that can represent it.  Missing: with
a transform it does not (see `C80_default_claim_fails`). -/
theorem C80_default_partial (fmt : ℝ → Str) (v : CRV) (s : FSet) (hs : v.var = FloatVar.make s)
    (lo hi : ℝ) (hlo : v.var.lo = lo) (hhi : v.var.hi = hi) (hlt : lo < hi) (huf : v.ufun = none)
    (b : PScale) (hb : evalPscale v.pscale = .ok b) (hv : Spec.Valid b) (hl : npz ≤ hi - lo)
    (hc : Spec.Unclamped (-Real.log (hi - lo)) (.log 0 0) b) :
    ∃ p, v.defaultProb = .ok p ∧ (v.prob = .scalar p →
      (∀ x, Spec.MemF s x → v.denoted fmt x = 1 / (hi - lo)) ∧
      ∫ x in {x : ℝ | Spec.MemF s x}, v.denoted fmt x = 1) := by
  have hlen : v.length = hi - lo := by
    simp [CRV.length, huf, UFun.fwd, hlo, hhi, hlt.le]
  rw [← hlen] at hl hc
  obtain ⟨p, hp, hval⟩ := default_value v b hb hv hl hc
  refine ⟨p, hp, fun hpr => ⟨fun x hx => ?_, ?_⟩⟩
  · rw [denoted_inside fmt v s hs b hb p hpr x hx, hval, hlen]
  · rw [integral_denoted fmt v s hs b hb p hpr lo hi hlo hhi hlt, hval, hlen]
    exact mul_one_div_cancel (by linarith)

/-- The default density with a transform is one over the length between the
transformed limits. -/
theorem C80_default_transformed (fmt : ℝ → Str) (v : CRV) (s : FSet) (hs : v.var = FloatVar.make s)
    (lo hi : ℝ) (hlo : v.var.lo = lo) (hhi : v.var.hi = hi) (hlt : lo < hi) (f g : ℝ → ℝ)
    (huf : v.ufun = some (f, g))
    (b : PScale) (hb : evalPscale v.pscale = .ok b) (hv : Spec.Valid b) (hl : npz ≤ |f hi - f lo|)
    (hc : Spec.Unclamped (-Real.log |f hi - f lo|) (.log 0 0) b) :
    ∃ p, v.defaultProb = .ok p ∧ (v.prob = .scalar p →
      (∀ x, Spec.MemF s x → v.denoted fmt x = 1 / |f hi - f lo|) ∧
      ∫ x in {x : ℝ | Spec.MemF s x}, v.denoted fmt x = (hi - lo) / |f hi - f lo|) := by
  have hlen : v.length = |f hi - f lo| := by
    simp only [CRV.length, huf, UFun.fwd, hlo, hhi, EReal.toReal_coe]
    exact max_sub_min_eq_abs _ _
  rw [← hlen] at hl hc
  obtain ⟨p, hp, hval⟩ := default_value v b hb hv hl hc
  refine ⟨p, hp, fun hpr => ⟨fun x hx => ?_, ?_⟩⟩
  · rw [denoted_inside fmt v s hs b hb p hpr x hx, hval, hlen]
  · rw [integral_denoted fmt v s hs b hb p hpr lo hi hlo hhi hlt, hval, hlen]
    exact mul_one_div _ _

/-- The variable on [0, 1] with values doubled for sampling. -/
noncomputable def doubled (p : ℝ) : CRV :=
  { name := ['x'], var := FloatVar.make (.list ⟨(0 : ℝ), false⟩ ⟨(1 : ℝ), false⟩),
    ufun := some (fun x => 2 * x, fun y => y / 2), pscale := .none, prob := .scalar p,
    pfun := none, tran := .none, tfun := none, delta := none }

theorem doubled_lo (p : ℝ) : (doubled p).var.lo = (0 : ℝ) := by
  have : ¬ ((1 : EReal) < 0) := not_lt.mpr zero_le_one
  simp [doubled, FloatVar.make, FSet.toList, this]
theorem doubled_hi (p : ℝ) : (doubled p).var.hi = (1 : ℝ) := by
  have : ¬ ((1 : EReal) < 0) := not_lt.mpr zero_le_one
  simp [doubled, FloatVar.make, FSet.toList, this]

theorem doubled_inverts (p : ℝ) : Spec.Inverts (doubled p).ufun 0 1 := by
  refine ⟨by norm_num, by norm_num, Or.inl ⟨by norm_num, ?_⟩⟩
  intro a _ b _ hab
  show a / 2 < b / 2
  linarith

theorem doubled_unclamped : Spec.Unclamped (-Real.log |(2 : ℝ) * 1 - 2 * 0|) (.log 0 0) (.lin 1) := by
  have h0 : Spec.offset 0 0 = 0 := by simp [Spec.offset]
  have h1 : (0 : ℝ) ≤ Real.log npi := Real.log_nonneg (by unfold npi; norm_num)
  have h2 : (0 : ℝ) ≤ Real.log 2 := Real.log_nonneg (by norm_num)
  refine ⟨?_, Or.inl (by rw [h0, Real.log_one])⟩
  rw [h0, Real.log_one]
  norm_num
  linarith

/-- With a transform of the values the default density need not integrate to one. -/
theorem C80_default_claim_fails : ¬ C80_default_claim := by
  intro h
  have hl : npz ≤ |(2 : ℝ) * 1 - 2 * 0| := by
    rw [show (2 : ℝ) * 1 - 2 * 0 = 2 by norm_num, abs_of_pos (by norm_num)]
    linarith [npz_lt_one]
  have hdef := fun p => C80_default_transformed (fun _ => []) (doubled p)
    (.list ⟨(0 : ℝ), false⟩ ⟨(1 : ℝ), false⟩) rfl 0 1 (doubled_lo p) (doubled_hi p) zero_lt_one _ _ rfl
    (.lin 1) (by simp [doubled, evalPscale]) one_pos hl doubled_unclamped
  obtain ⟨p, hp, -⟩ := hdef 0
  have hp' : (doubled p).defaultProb = .ok p := hp
  obtain ⟨q, hq, h2⟩ := hdef p
  rw [hp'] at hq
  cases hq
  have h3 := (h2 rfl).2
  have hlen : (doubled p).length = 2 := by
    simp only [CRV.length, doubled_lo, doubled_hi, EReal.toReal_coe]
    simp [doubled, UFun.fwd]
  rw [h (fun _ => []) (doubled p) (.list ⟨(0 : ℝ), false⟩ ⟨(1 : ℝ), false⟩) p 0 1 rfl (doubled_lo p)
    (doubled_hi p) zero_lt_one rfl (doubled_inverts p)
    (by rw [hlen]; linarith [npz_lt_one]) hp' rfl] at h3
  norm_num at h3

/-! ### The hypotheses are met -/

/-- Non-vacuity of `C80_quantiles`: three values of the triangular distribution. -/
example : ∃ xs d, triangular.call (fun _ => []) (.count 3) (fun _ => 0) = .ok d ∧
    Spec.ValuesAt (fun _ => []) triangular (.list ⟨(0 : ℝ), false⟩ ⟨(1 : ℝ), false⟩) (.lin 1)
      (.array xs) d ∧ xs.length = 3 := by
  obtain ⟨xs, d, h1, h2, h3, -⟩ := C80_quantiles (fun _ => []) triangular
    (.list ⟨(0 : ℝ), false⟩ ⟨(1 : ℝ), false⟩) rfl (.lin 1) triangular_scale triangular_pointwise rfl
    _ _ rfl 0 1 triangular_lo triangular_hi zero_lt_one triangular_cdf 3 (by norm_num) (fun _ => 0)
  exact ⟨xs, d, h1, h2, h3⟩

/-- Non-vacuity of `C80_law`: a triangular value is at most 1/2 with probability 1/4. -/
example : MeasureTheory.volume {u : ℝ | (0 ≤ u ∧ u < 1) ∧
      ∃ d y, triangular.call (fun _ => []) (.count 0) (fun _ => u) = .ok d ∧ d.single = some y ∧
        y ≤ 1 / 2} = ENNReal.ofReal (1 / 4) := by
  rw [C80_law (fun _ => []) triangular (.list ⟨(0 : ℝ), false⟩ ⟨(1 : ℝ), false⟩) rfl (.lin 1)
    triangular_scale triangular_pointwise rfl _ _ rfl 0 1 triangular_lo triangular_hi zero_lt_one
    triangular_cdf (1 / 2) (by norm_num)]
  norm_num

/-- Non-vacuity of `C80_draws`: two draws. -/
example : ∃ xs d, triangular.call (fun _ => []) (.count (-(2 : ℕ))) (fun _ => 1 / 3) = .ok d ∧
    Spec.ValuesAt (fun _ => []) triangular (.list ⟨(0 : ℝ), false⟩ ⟨(1 : ℝ), false⟩) (.lin 1)
      (.array xs) d ∧ xs.length = 2 := by
  obtain ⟨xs, d, h1, h2, h3, -⟩ := C80_draws (fun _ => []) triangular
    (.list ⟨(0 : ℝ), false⟩ ⟨(1 : ℝ), false⟩) rfl (.lin 1) triangular_scale triangular_pointwise rfl
    _ _ rfl 0 1 triangular_lo triangular_hi zero_lt_one triangular_cdf 2 (by norm_num)
    (fun _ => 1 / 3) (by norm_num)
  exact ⟨xs, d, h1, h2, h3⟩

/-- Non-vacuity of `C80_sampled`, with a transform. -/
example : ∃ xs d, (doubled 1).call (fun _ => []) (.count (2 : ℕ)) (fun _ => 1 / 3) = .ok d ∧
    Spec.ValuesAt (fun _ => []) (doubled 1) (.list ⟨(0 : ℝ), false⟩ ⟨(1 : ℝ), false⟩) (.lin 1)
      (.array xs) d ∧ xs.length = 2 := by
  obtain ⟨⟨xs, d, h1, h2, h3, -⟩, -⟩ := C80_sampled (fun _ => []) (doubled 1)
    (.list ⟨(0 : ℝ), false⟩ ⟨(1 : ℝ), false⟩) rfl (.lin 1) (by simp [doubled, evalPscale])
    (by simp [doubled]) rfl 0 1 (doubled_lo 1) (doubled_hi 1) zero_lt_one (doubled_inverts 1) 2
    (by norm_num) (fun _ => 1 / 3) (by norm_num)
  exact ⟨xs, d, h1, h2, h3⟩

end Probayes
