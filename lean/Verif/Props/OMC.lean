/-
C93: ordinary Monte Carlo by joint random samples (Model/OMC.lean).
-/
import Verif.Lemmas.OMC
import Mathlib.Probability.StrongLaw
import Mathlib.Probability.Distributions.Uniform
import Mathlib.Probability.Independence.InfinitePi
import Mathlib.Probability.Moments.Variance

namespace Probayes

/-- The fraction of the first `n` samples in the region. -/
noncomputable def Spec.hitFraction (region : ℝ → ℝ → Bool) (dx dy : ℕ → ℚ) (n : ℕ) : ℝ :=
  (((List.range n).countP fun k => region (dx k : ℚ) (dy k : ℚ) : ℕ) : ℝ) / n

/-- What is asked of `x` and `y`: the random values lie in their supports, densities are
numbers on the linear scale, and their product is not so small as to count as zero. -/
structure Spec.OnSquare (x y : FCont) : Prop where
  nameX : x.name = ['x']
  nameY : y.name = ['y']
  scaleX : x.pscale = .flt 1
  scaleY : y.pscale = .flt 1
  insideX : ∀ k, x.inside (x.draw k) = true
  insideY : ∀ k, y.inside (y.draw k) = true
  mass : npz ≤ x.prob * y.prob

/-- The estimate of the call is a number `e`. -/
def Spec.Estimates (fmt : Val → Str) (D : JDep) (raw : List (List Str × JRaw)) (e : ℝ) : Prop :=
  ∃ q, omcEstimate fmt D raw = .ok (some (.mean q)) ∧ q.shape = [] ∧ q.get [] = e

/-- `{'x,y': {-n}}`. -/
def Spec.omcRequest (n : ℕ) : List (List Str × JRaw) := [([['x'], ['y']], .one (.count (-n)))]

/-- `{'x,y': {-n}, 'o': None}`. -/
def Spec.omcRequestBoth (n : ℕ) : List (List Str × JRaw) :=
  [([['x'], ['y']], .one (.count (-n))), ([['o']], .one .all)]

/-- C93 as the example intends: the estimate is the fraction of samples in the region. -/
def C93_claim : Prop :=
  ∀ (fmt : Val → Str) (x y : FCont) (region : ℝ → ℝ → Bool) (r : ℕ) (perm : List ℕ) (n : ℕ),
    Spec.OnSquare x y → r < 2 → 0 < n →
    (∀ o : ℚ, Spec.Entry ['o'] (eqText fmt ['o'] (.scalar o))) →
    Spec.Estimates fmt (omcDep (omcBool r perm) (.cont x) (.cont y) region) (Spec.omcRequest n)
      (Spec.hitFraction region x.draw y.draw n)

/-- C93: the joint distribution when both values of `o` are asked for: every sample has the
product of the densities, all of it on the value of `o` that tells whether it is in the
region. -/
theorem C93_joint (fmt : Val → Str) (x y : FCont) (region : ℝ → ℝ → Bool) (r : ℕ) (perm : List ℕ)
    (n : ℕ) (h : Spec.OnSquare x y) (hn : 0 < n) :
    ∃ d, (omcDep (omcBool r perm) (.cont x) (.cont y) region).callJoint fmt (Spec.omcRequestBoth n) = .ok d ∧
      d.WF fmt ∧ d.Placed ∧ d.marg.keys = [['x'], ['y'], ['o']] ∧ d.cond = [] ∧
      d.axis ['x'] = some 0 ∧ d.axis ['y'] = some 0 ∧ d.axis ['o'] = some 1 ∧
      d.values ['x'] = some (.arr [n] ((List.range n).map x.draw)) ∧
      d.values ['y'] = some (.arr [n] ((List.range n).map y.draw)) ∧
      d.values ['o'] = some (.arr [2] [0, 1]) ∧ d.shape = [n, 2] ∧ d.pscale = .lin 1 ∧
      ∀ k j, k < n → j < 2 → d.prob.get [k, j] = x.prob * y.prob *
        if (j = 1 ↔ region (x.draw k : ℚ) (y.draw k : ℚ) = true) then 1 else 0 := by
  obtain ⟨nx, dx, gx, ix, px, sx⟩ := x
  obtain ⟨ny, dy, gy, iy, py, sy⟩ := y
  obtain ⟨h1, h2, h3, h4, h5, h6, h7⟩ := h
  simp only at h1 h2 h3 h4 h5 h6 h7
  subst h1 h2 h3 h4
  obtain ⟨b, b1, b2, b3⟩ := omc_call_both fmt r perm dx dy gx gy ix iy px py region n hn
  set xs := (List.range n).map dx with hxs
  set ys := (List.range n).map dy with hys
  have hx : xs.length = n := by simp [hxs]
  have hy : ys.length = n := by simp [hys]
  obtain ⟨a, a1, a2, a3⟩ := omc_jCall fmt dx dy gx gy ix iy px py n xs ys hx hy
  obtain ⟨d, d1, d2, d3, d4, d5, d6, d7, d8, d9, d10, d11, d12, d13, d14⟩ :=
    omc_product fmt n hn xs ys hx hy a b a2 b2
  rw [hx] at d9
  rw [hy] at d10
  refine ⟨d, ?_, d2, d3, d4, d5, d6, d7, d8, d9, d10, d11, d12, d13, ?_⟩
  · unfold JDep.callJoint
    rw [show (omcDep (omcBool r perm) (.cont ⟨['x'], dx, gx, ix, px, .flt 1⟩)
      (.cont ⟨['y'], dy, gy, iy, py, .flt 1⟩) region).call fmt (Spec.omcRequestBoth n) = .ok (omcCond n xs ys b) from b1]
    simp only [bind, Except.bind]
    rw [omc_cond_both]
    simp only []
    rw [if_neg (by simp [omcDep]), show jCall fmt (omcDep (omcBool r perm) (.cont ⟨['x'], dx, gx, ix, px, .flt 1⟩)
      (.cont ⟨['y'], dy, gy, iy, py, .flt 1⟩) region).roots [([['x'], ['y']], .list [.array xs, .array ys])] =
        .ok (omcMarg n xs ys a) from a1]
    simp only [d1]
    rfl
  · intro k j hk hj
    have e1 : xs.getD k 0 = dx k := by simp [hxs, List.getD, hk]
    have e2 : ys.getD k 0 = dy k := by simp [hys, List.getD, hk]
    rw [d14 k j hk hj, a3 k hk, b3 j k hj hk, e1, e2, h5, h6]
    simp only [if_true]
    congr 1
    rw [omcHit, e1, e2]
    have : j = 0 ∨ j = 1 := by omega
    rcases this with rfl | rfl <;> rcases region (dx k : ℚ) (dy k : ℚ) with _ | _ <;> simp

/-- C93: as the example calls it, `o` has a single value in the joint distribution, and the
samples for which it is wrong have probability zero. -/
theorem C93_joint_omitted (fmt : Val → Str) (x y : FCont) (region : ℝ → ℝ → Bool) (r : ℕ) (perm : List ℕ)
    (o : ℚ) (ho : ([0, 1] : List ℚ)[r]? = some o)
    (n : ℕ) (h : Spec.OnSquare x y) (hn : 0 < n) (hfmt : Spec.Entry ['o'] (eqText fmt ['o'] (.scalar o))) :
    ∃ d, (omcDep (omcBool r perm) (.cont x) (.cont y) region).callJoint fmt (Spec.omcRequest n) = .ok d ∧
      d.WF fmt ∧ d.Placed ∧ d.marg.keys = [['x'], ['y'], ['o']] ∧ d.cond = [] ∧
      d.axis ['x'] = some 0 ∧ d.axis ['y'] = some 0 ∧ d.axis ['o'] = none ∧
      d.values ['x'] = some (.arr [n] ((List.range n).map x.draw)) ∧
      d.values ['y'] = some (.arr [n] ((List.range n).map y.draw)) ∧
      Dict.get? d.vals ['o'] = some (.scalar o) ∧ d.shape = [n] ∧ d.pscale = .lin 1 ∧
      ∀ k, k < n → d.prob.get [k] = x.prob * y.prob *
        if (o = 1 ↔ region (x.draw k : ℚ) (y.draw k : ℚ) = true) then 1 else 0 := by
  obtain ⟨nx, dx, gx, ix, px, sx⟩ := x
  obtain ⟨ny, dy, gy, iy, py, sy⟩ := y
  obtain ⟨h1, h2, h3, h4, h5, h6, h7⟩ := h
  simp only at h1 h2 h3 h4 h5 h6 h7
  subst h1 h2 h3 h4
  obtain ⟨b, b1, b2, b3⟩ := omc_call_one fmt r o ho perm dx dy gx gy ix iy px py region n hn
  set xs := (List.range n).map dx with hxs
  set ys := (List.range n).map dy with hys
  have hx : xs.length = n := by simp [hxs]
  have hy : ys.length = n := by simp [hys]
  obtain ⟨a, a1, a2, a3⟩ := omc_jCall fmt dx dy gx gy ix iy px py n xs ys hx hy
  obtain ⟨d, d1, d2, d3, d4, d5, d6, d7, d8, d9, d10, d11, d12, d13, d14⟩ :=
    omc_product_one fmt n o xs ys hx hy a b a2 b2 hfmt
  rw [hx] at d9
  rw [hy] at d10
  refine ⟨d, ?_, d2, d3, d4, d5, d6, d7, d8, d9, d10, d11, d12, d13, ?_⟩
  · unfold JDep.callJoint
    rw [show (omcDep (omcBool r perm) (.cont ⟨['x'], dx, gx, ix, px, .flt 1⟩)
      (.cont ⟨['y'], dy, gy, iy, py, .flt 1⟩) region).call fmt (Spec.omcRequest n) = .ok (omcCond1 fmt n o xs ys b) from b1]
    simp only [bind, Except.bind]
    rw [omc_cond_one]
    simp only []
    rw [if_neg (by simp [omcDep]), show jCall fmt (omcDep (omcBool r perm) (.cont ⟨['x'], dx, gx, ix, px, .flt 1⟩)
      (.cont ⟨['y'], dy, gy, iy, py, .flt 1⟩) region).roots [([['x'], ['y']], .list [.array xs, .array ys])] =
        .ok (omcMarg n xs ys a) from a1]
    simp only [d1]
    rfl
  · intro k hk
    have e1 : xs.getD k 0 = dx k := by simp [hxs, List.getD, hk]
    have e2 : ys.getD k 0 = dy k := by simp [hys, List.getD, hk]
    rw [d14 k hk, a3 k hk, b3 k hk, e1, e2, h5, h6]
    simp only [if_true]
    congr 1
    rw [omcHit, e1, e2]
    have : o = 0 ∨ o = 1 := by
      rcases r with _ | _ | r
      · simp at ho; exact Or.inl ho.symm
      · simp at ho; exact Or.inr ho.symm
      · simp at ho
    rcases this with rfl | rfl <;> rcases region (dx k : ℚ) (dy k : ℚ) with _ | _ <;> simp

theorem sum_idx_pairs (n : ℕ) (f : List ℕ → ℝ) :
    ∑ i ∈ idx [n, 2], f i = ∑ k ∈ Finset.range n, (f [k, 0] + f [k, 1]) := by
  rw [idx, List.sum_toFinset _ (nodup_indices _)]
  have h1 : indices [n, 2] = (List.range n).flatMap fun k => [[k, 0], [k, 1]] := rfl
  have h2 : ∀ l : List ℕ, ((l.flatMap fun k => [[k, 0], [k, 1]]).map f).sum =
      (l.map fun k => f [k, 0] + f [k, 1]).sum := by
    intro l
    induction l with
    | nil => rfl
    | cons a l ih => simp [ih, add_assoc]
  rw [h1, h2]
  rfl

theorem sum_hits (p : ℕ → Bool) (n : ℕ) :
    ∑ k ∈ Finset.range n, (if p k = true then (1 : ℝ) else 0) = ((List.range n).countP p : ℕ) := by
  induction n with
  | zero => simp
  | succ n ih =>
    rw [Finset.sum_range_succ, ih, List.range_succ, List.countP_append]
    rcases hp : p n with _ | _ <;> simp [hp]

/-- C93, proved part: if both values of `o` are asked for, the estimate is the fraction of
samples in the region, whatever the region, the samples and their number. -/
theorem C93_asked_partial (fmt : Val → Str) (x y : FCont) (region : ℝ → ℝ → Bool) (r : ℕ) (perm : List ℕ)
    (n : ℕ) (h : Spec.OnSquare x y) (hn : 0 < n) :
    Spec.Estimates fmt (omcDep (omcBool r perm) (.cont x) (.cont y) region) (Spec.omcRequestBoth n)
      (Spec.hitFraction region x.draw y.draw n) := by
  obtain ⟨d, d1, d2, d3, d4, d5, d6, d7, d8, d9, d10, d11, d12, d13, d14⟩ :=
    C93_joint fmt x y region r perm n h hn
  have hm := h.mass
  have hpos : 0 < x.prob * y.prob := lt_of_lt_of_le npz_pos hm
  have hn1 : (1 : ℝ) ≤ n := by exact_mod_cast hn
  obtain ⟨out, o1, _, o2, _⟩ := C22_expectation_partial fmt d d.marg.keys none 1 d2
    (readable_lin d13 one_pos) (fun k hk => hk) (by rw [d4]; simp) (Or.inl ⟨rfl, rfl⟩)
    (fun k hk v hv => ⟨v, rfl⟩) d3
  obtain ⟨data, q, q1, q2, q3, q4, q5⟩ := o2 ['o'] (by rw [d4]; simp) 1 d8
  have hdata : data = [0, 1] := by
    rw [d11] at q1
    simp only [Option.some.injEq, Val.arr.injEq] at q1
    exact q1.2.symm
  subst hdata
  have hrest : ∀ k j : ℕ, Spec.rest d d.marg.keys [k, j] = [] := by
    intro k j
    simp [Spec.rest, d4, dropAxes, d6, d8]
  have hat : ∀ k j, k < n → j < 2 → d.at [k, j] = x.prob * y.prob *
        if (j = 1 ↔ region (x.draw k : ℚ) (y.draw k : ℚ) = true) then 1 else 0 := by
    intro k j hk hj
    rw [PD.at, d13, d14 k j hk hj]
    simp [Spec.value, Spec.factor]
  have hfib : Spec.fibre d d.marg.keys [] = idx [n, 2] := by
    rw [Spec.fibre, d12, Finset.filter_true_of_mem]
    intro i hi
    have := length_of_mem_idx hi
    match i, this with
    | [k, j], _ => exact hrest k j
  have hsum : ∑ i ∈ idx [n, 2], d.at i = n * (x.prob * y.prob) := by
    rw [sum_idx_pairs, Finset.sum_congr rfl (g := fun _ => x.prob * y.prob)]
    · simp
    · intro k hk
      rw [Finset.mem_range] at hk
      rw [hat k 0 hk (by omega), hat k 1 hk (by omega)]
      rcases region (x.draw k : ℚ) (y.draw k : ℚ) with _ | _ <;> simp
  have hnum : ∑ i ∈ idx [n, 2], d.at i * Spec.pick [0, 1] 1 i ^ 1 = x.prob * y.prob *
      ((List.range n).countP fun k => region (x.draw k : ℚ) (y.draw k : ℚ) : ℕ) := by
    rw [sum_idx_pairs, ← sum_hits, Finset.mul_sum]
    apply Finset.sum_congr rfl
    intro k hk
    rw [Finset.mem_range] at hk
    rw [hat k 0 hk (by omega), hat k 1 hk (by omega)]
    rcases region (x.draw k : ℚ) (y.draw k : ℚ) with _ | _ <;> simp [Spec.pick]
  have hshape : q.shape = [] := by rw [q4, d12]; exact hrest n 2
  refine ⟨q, ?_, hshape, ?_⟩
  · unfold omcEstimate
    rw [d1]
    simp only [bind, Except.bind]
    rw [C22_default_keys d none (by rw [d4]; simp), o1]
    simp only [q3]
    rfl
  · rw [q5 [] (by rw [hshape]; simp [idx, indices]) (by
      rw [hfib, hsum]
      calc npz ≤ 1 * (x.prob * y.prob) := by rw [one_mul]; exact hm
        _ ≤ n * (x.prob * y.prob) := by gcongr)]
    rw [Spec.weighted, hfib, hsum, hnum, Spec.hitFraction, mul_comm (n : ℝ), mul_div_mul_left _ _ hpos.ne']

/-- C93: as the example calls it, `o` is drawn once: the estimate is that draw, whatever
the region and the samples. -/
theorem C93_omitted (fmt : Val → Str) (x y : FCont) (region : ℝ → ℝ → Bool) (r : ℕ) (perm : List ℕ)
    (o : ℚ) (ho : ([0, 1] : List ℚ)[r]? = some o) (n : ℕ) (h : Spec.OnSquare x y) (hn : 0 < n)
    (hfmt : Spec.Entry ['o'] (eqText fmt ['o'] (.scalar o))) :
    omcEstimate fmt (omcDep (omcBool r perm) (.cont x) (.cont y) region) (Spec.omcRequest n) =
      .ok (some (.given (.scalar o))) := by
  obtain ⟨d, d1, d2, d3, d4, d5, d6, d7, d8, d9, d10, d11, d12, d13, d14⟩ :=
    C93_joint_omitted fmt x y region r perm o ho n h hn hfmt
  obtain ⟨out, o1, _, _, o2, _⟩ := C22_expectation_partial fmt d d.marg.keys none 1 d2
    (readable_lin d13 one_pos) (fun k hk => hk) (by rw [d4]; simp) (Or.inl ⟨rfl, rfl⟩)
    (fun k hk v hv => ⟨v, rfl⟩) d3
  obtain ⟨v, w, v1, v2, v3⟩ := o2 ['o'] (by rw [d4]; simp) d8
  rw [d11] at v1
  simp only [Option.some.injEq] at v1
  subst v1
  simp only [Val.pow, Except.ok.injEq] at v2
  subst v2
  unfold omcEstimate
  rw [d1]
  simp only [bind, Except.bind]
  rw [C22_default_keys d none (by rw [d4]; simp), o1]
  simp only [v3]
  rfl

/-- A variable on [-1, 1]. -/
noncomputable def halfUnit (nm : Str) (draw : ℕ → ℚ) : FCont :=
  ⟨nm, draw, fun _ => [], fun z => decide (-1 ≤ z ∧ z ≤ 1), 1 / 2, .flt 1⟩

theorem halfUnit_square (dx dy : ℕ → ℚ) (hx : ∀ k, -1 ≤ dx k ∧ dx k ≤ 1) (hy : ∀ k, -1 ≤ dy k ∧ dy k ≤ 1) :
    Spec.OnSquare (halfUnit ['x'] dx) (halfUnit ['y'] dy) :=
  ⟨rfl, rfl, rfl, rfl, fun k => by simp [halfUnit, hx k], fun k => by simp [halfUnit, hy k], by
    simp only [halfUnit]; unfold npz; norm_num⟩

/-- A text without separators. -/
theorem entry_v : Spec.Entry ['o'] (eqText (fun _ => ['v']) ['o'] (.scalar 0)) := by decide

theorem C93_claim_fails : ¬ C93_claim := by
  intro h
  obtain ⟨q, h1, _⟩ := h (fun _ => ['v']) (halfUnit ['x'] fun _ => 0) (halfUnit ['y'] fun _ => 0)
    (fun _ _ => true) 0 [] 1 (halfUnit_square _ _ (by norm_num) (by norm_num)) (by omega) (by omega)
    (fun o => by exact entry_v)
  rw [C93_omitted (fun _ => ['v']) _ _ _ 0 [] 0 rfl 1 (halfUnit_square _ _ (by norm_num) (by norm_num))
    (by omega) entry_v] at h1
  simp at h1

/-! ### Random samples -/

open MeasureTheory ProbabilityTheory in
/-- C93: for independent pairs of samples of one law, asked for with both values of `o`, the
expected estimate is the probability of the region, whatever the number of samples, the
mean square error falls with their number, and the estimates converge almost surely.
Only the events of lying in the region need be independent in pairs and equally likely. -/
theorem C93_limit {Ω : Type} [MeasurableSpace Ω] (μ : Measure Ω) [IsProbabilityMeasure μ]
    (X Y : ℕ → Ω → ℚ) (region : ℝ → ℝ → Bool)
    (hm : ∀ k, MeasurableSet {ω | region (X k ω : ℚ) (Y k ω : ℚ) = true})
    (hind : Pairwise fun i j => IndepFun (fun ω => region (X i ω : ℚ) (Y i ω : ℚ))
      (fun ω => region (X j ω : ℚ) (Y j ω : ℚ)) μ)
    (hid : ∀ k, μ {ω | region (X k ω : ℚ) (Y k ω : ℚ) = true} =
      μ {ω | region (X 0 ω : ℚ) (Y 0 ω : ℚ) = true})
    (fmt : Val → Str) (x y : Ω → FCont) (hx : ∀ ω k, (x ω).draw k = X k ω)
    (hy : ∀ ω k, (y ω).draw k = Y k ω) (hxy : ∀ ω, Spec.OnSquare (x ω) (y ω))
    (r : Ω → ℕ) (perm : Ω → List ℕ) :
    ∃ est : ℕ → Ω → ℝ,
      (∀ n ω, 0 < n → Spec.Estimates fmt
        (omcDep (omcBool (r ω) (perm ω)) (.cont (x ω)) (.cont (y ω)) region) (Spec.omcRequestBoth n) (est n ω)) ∧
      (∀ n, 0 < n → ∫ ω, est n ω ∂μ = μ.real {ω | region (X 0 ω : ℚ) (Y 0 ω : ℚ) = true}) ∧
      (∀ n, 0 < n → ∫ ω, (est n ω - μ.real {ω | region (X 0 ω : ℚ) (Y 0 ω : ℚ) = true}) ^ 2 ∂μ =
        μ.real {ω | region (X 0 ω : ℚ) (Y 0 ω : ℚ) = true} *
          (1 - μ.real {ω | region (X 0 ω : ℚ) (Y 0 ω : ℚ) = true}) / n) ∧
      ∀ᵐ ω ∂μ, Filter.Tendsto (fun n => est n ω) Filter.atTop
        (nhds (μ.real {ω | region (X 0 ω : ℚ) (Y 0 ω : ℚ) = true})) := by
  set E : ℕ → Set Ω := fun k => {ω | region (X k ω : ℚ) (Y k ω : ℚ) = true} with hE
  set Z : ℕ → Ω → ℝ := fun k => (E k).indicator fun _ => 1 with hZ
  have hZm : ∀ k, Measurable (Z k) := fun k => measurable_const.indicator (hm k)
  have hZi : ∀ k, Integrable (Z k) μ := fun k => (integrable_const 1).indicator (hm k)
  have hZe : ∀ k, ∫ ω, Z k ω ∂μ = μ.real (E 0) := by
    intro k
    rw [hZ]
    simp only
    rw [integral_indicator (hm k)]
    simp [Measure.real, hE, hid k]
  have hest : ∀ n ω, Spec.hitFraction region (fun k => X k ω) (fun k => Y k ω) n =
      (∑ k ∈ Finset.range n, Z k ω) / n := by
    intro n ω
    rw [Spec.hitFraction, ← sum_hits]
    congr 1
    refine Finset.sum_congr rfl fun k _ => ?_
    simp only [hZ, hE, Set.indicator, Set.mem_setOf_eq]
  have hb : Measurable fun b : Bool => if b = true then (1 : ℝ) else 0 := measurable_of_countable _
  have hbm : ∀ k, Measurable fun ω => region (X k ω : ℚ) (Y k ω : ℚ) := fun k =>
    measurable_to_bool (hm k)
  have hZb : ∀ k, Z k = (fun b : Bool => if b = true then (1 : ℝ) else 0) ∘
      fun ω => region (X k ω : ℚ) (Y k ω : ℚ) := by
    intro k
    funext ω
    simp only [hZ, hE, Set.indicator, Set.mem_setOf_eq, Function.comp]
  have hpair : ∀ i j, i ≠ j → IndepFun (Z i) (Z j) μ := by
    intro i j hij
    rw [hZb i, hZb j]
    exact (hind hij).comp hb hb
  refine ⟨fun n ω => Spec.hitFraction region (fun k => X k ω) (fun k => Y k ω) n, ?_, ?_, ?_, ?_⟩
  · intro n ω hn
    have := C93_asked_partial fmt (x ω) (y ω) region (r ω) (perm ω) n (hxy ω) hn
    rw [show (x ω).draw = fun k => X k ω from funext (hx ω),
      show (y ω).draw = fun k => Y k ω from funext (hy ω)] at this
    exact this
  · intro n hn
    have hn0 : (n : ℝ) ≠ 0 := by exact_mod_cast hn.ne'
    simp only [hest]
    rw [integral_div, integral_finset_sum _ (fun k _ => hZi k)]
    simp only [hZe, Finset.sum_const, Finset.card_range, nsmul_eq_mul]
    rw [mul_div_cancel_left₀ _ hn0]
  · intro n hn
    have hn0 : (n : ℝ) ≠ 0 := by exact_mod_cast hn.ne'
    have hL : ∀ k, MemLp (Z k) 2 μ := fun k => memLp_indicator_const 2 (hm k) 1 (Or.inr (measure_ne_top _ _))
    have hmean : ∫ ω, (∑ k ∈ Finset.range n, Z k) ω ∂μ = n * μ.real (E 0) := by
      simp only [Finset.sum_apply]
      rw [integral_finset_sum _ (fun k _ => hZi k)]
      simp [hZe]
    have hvar1 : ∀ k, variance (Z k) μ = μ.real (E 0) * (1 - μ.real (E 0)) := by
      intro k
      rw [variance_eq_sub (hL k), hZe k]
      have : Z k ^ 2 = Z k := by
        funext ω
        simp only [hZ, Pi.pow_apply, Set.indicator]
        split <;> simp
      rw [this, hZe k]
      ring
    have hvar : variance (∑ k ∈ Finset.range n, Z k) μ = n * (μ.real (E 0) * (1 - μ.real (E 0))) := by
      rw [IndepFun.variance_sum (fun k _ => hL k) (fun i _ j _ hij => hpair i j hij)]
      simp [hvar1]
    rw [variance_eq_integral (by fun_prop), hmean] at hvar
    have hpt : ∀ ω, (Spec.hitFraction region (fun k => X k ω) (fun k => Y k ω) n - μ.real (E 0)) ^ 2 =
        ((∑ k ∈ Finset.range n, Z k) ω - n * μ.real (E 0)) ^ 2 / n ^ 2 := by
      intro ω
      rw [hest, Finset.sum_apply]
      field_simp
    show ∫ ω, (Spec.hitFraction region (fun k => X k ω) (fun k => Y k ω) n - μ.real (E 0)) ^ 2 ∂μ =
      μ.real (E 0) * (1 - μ.real (E 0)) / n
    simp only [hpt]
    rw [integral_div, hvar]
    field_simp
  · have hlaw := strong_law_ae_real (μ := μ) Z (hZi 0)
      (by
        intro i j hij
        exact hpair i j hij)
      (by
        intro k
        refine ⟨(hZm k).aemeasurable, (hZm 0).aemeasurable, ?_⟩
        have h1 : ∀ k, μ.map (fun ω => region (X k ω : ℚ) (Y k ω : ℚ)) =
            μ.map (fun ω => region (X 0 ω : ℚ) (Y 0 ω : ℚ)) := by
          intro k
          refine Measure.ext_of_singleton fun b => ?_
          rw [Measure.map_apply (hbm k) (measurableSet_singleton b),
            Measure.map_apply (hbm 0) (measurableSet_singleton b)]
          rcases b with _ | _
          · have h2 : ∀ k, (fun ω => region (X k ω : ℚ) (Y k ω : ℚ)) ⁻¹' {false} = (E k)ᶜ := by
              intro k; ext ω; simp [hE]
            rw [h2, h2, prob_compl_eq_one_sub (hm k), prob_compl_eq_one_sub (hm 0)]
            exact congrArg (1 - ·) (hid k)
          · exact hid k
        rw [hZb k, hZb 0, ← Measure.map_map hb (hbm k), ← Measure.map_map hb (hbm 0), h1 k])
    rw [hZe 0] at hlaw
    filter_upwards [hlaw] with ω hω
    simpa only [hest] using hω

/-! ### Instances -/

/-- Three samples, two of them in the circle. -/
example : ∃ q, omcEstimate (fun _ => ['v']) (omcDep (omcBool 0 []) (.cont (halfUnit ['x'] fun k => if k = 1 then 1 else 0))
    (.cont (halfUnit ['y'] fun k => if k = 1 then 1 else 1 / 2)) (fun a b => decide (a ^ 2 + b ^ 2 ≤ 1)))
    (Spec.omcRequestBoth 3) = .ok (some (.mean q)) ∧ q.get [] = 2 / 3 := by
  obtain ⟨q, h1, _, h2⟩ := C93_asked_partial (fun _ => ['v']) (halfUnit ['x'] fun k => if k = 1 then 1 else 0)
    (halfUnit ['y'] fun k => if k = 1 then 1 else 1 / 2) (fun a b => decide (a ^ 2 + b ^ 2 ≤ 1)) 0 [] 3
    (halfUnit_square _ _ (fun k => by split <;> norm_num) (fun k => by split <;> norm_num)) (by omega)
  refine ⟨q, h1, ?_⟩
  rw [h2, Spec.hitFraction, show List.range 3 = [0, 1, 2] from rfl]
  norm_num [halfUnit, List.countP_cons]

/-- The same samples with `o` not asked for: the estimate is zero if `o` is drawn False. -/
example : omcEstimate (fun _ => ['v']) (omcDep (omcBool 0 []) (.cont (halfUnit ['x'] fun k => if k = 1 then 1 else 0))
    (.cont (halfUnit ['y'] fun k => if k = 1 then 1 else 1 / 2)) (fun a b => decide (a ^ 2 + b ^ 2 ≤ 1)))
    (Spec.omcRequest 3) = .ok (some (.given (.scalar 0))) :=
  C93_omitted _ _ _ _ 0 [] 0 rfl 3
    (halfUnit_square _ _ (fun k => by split <;> norm_num) (fun k => by split <;> norm_num)) (by omega) entry_v

open MeasureTheory ProbabilityTheory in
/-- Samples by fair coins: the point 0 or the point (1, 1). -/
example : ∃ (μ : Measure (ℕ → Bool)) (_ : IsProbabilityMeasure μ) (X : ℕ → (ℕ → Bool) → ℚ)
    (region : ℝ → ℝ → Bool), (∀ k, MeasurableSet {ω | region (X k ω : ℚ) (X k ω : ℚ) = true}) ∧
    (Pairwise fun i j => IndepFun (fun ω => region (X i ω : ℚ) (X i ω : ℚ))
      (fun ω => region (X j ω : ℚ) (X j ω : ℚ)) μ) ∧
    (∀ k, μ {ω | region (X k ω : ℚ) (X k ω : ℚ) = true} = μ {ω | region (X 0 ω : ℚ) (X 0 ω : ℚ) = true}) ∧
    (∀ ω, Spec.OnSquare (halfUnit ['x'] fun k => X k ω) (halfUnit ['y'] fun k => X k ω)) ∧
    μ.real {ω | region (X 0 ω : ℚ) (X 0 ω : ℚ) = true} = 1 / 2 := by
  let ν : Measure Bool := (PMF.uniformOfFintype Bool).toMeasure
  let X : ℕ → (ℕ → Bool) → ℚ := fun k ω => if ω k = true then 0 else 1
  let region : ℝ → ℝ → Bool := fun a b => decide (a ^ 2 + b ^ 2 ≤ 1)
  have hr : ∀ k ω, region (X k ω : ℚ) (X k ω : ℚ) = ω k := by
    intro k ω
    rcases h : ω k with _ | _ <;> simp [region, X, h]
  have hpre : ∀ k, {ω : ℕ → Bool | ω k = true} = Function.eval k ⁻¹' ({true} : Set Bool) := fun k => rfl
  have hmeas : ∀ k, (Measure.infinitePi fun _ : ℕ => ν) {ω | ω k = true} = ν {true} := by
    intro k
    rw [hpre, ← Measure.map_apply (measurable_pi_apply k) (measurableSet_singleton true),
      (measurePreserving_eval_infinitePi (fun _ : ℕ => ν) k).map_eq]
  have hν : ν {true} = 1 / 2 := by
    rw [PMF.toMeasure_apply_singleton _ _ (measurableSet_singleton true)]
    simp [PMF.uniformOfFintype_apply]
  refine ⟨Measure.infinitePi fun _ : ℕ => ν, inferInstance, X, region, ?_, ?_, ?_, ?_, ?_⟩
  · intro k
    simp only [hr, hpre]
    exact (measurable_pi_apply k) (measurableSet_singleton (α := Bool) true)
  · intro i j hij
    simp only [hr]
    exact (iIndepFun_infinitePi (P := fun _ : ℕ => ν) (X := fun _ b => b) (fun _ => measurable_id)).indepFun hij
  · intro k
    simp only [hr, hmeas]
  · intro ω
    exact halfUnit_square _ _ (fun k => by simp only [X]; split <;> norm_num)
      (fun k => by simp only [X]; split <;> norm_num)
  · simp only [hr, Measure.real, hmeas, hν]
    simp

/-! ### Points -/

/-- The one value a continuous variable answers with: the number given, or a random value. -/
inductive Spec.PointOf (v : FCont) : Req → ℚ → Prop
  | given (a : ℚ) : Spec.PointOf v (.scalar a) a
  | drawn : Spec.PointOf v (.count 0) (v.draw 0)
  | omitted : Spec.PointOf v .all (v.draw 0)

/-- C93: called with one value for each of `x` and `y`, each given as a number or left to be
drawn, the field of both answers with these values and the product of their densities, zero
outside the supports. -/
theorem C93_point (fmt : Val → Str) (x y : FCont) (h : Spec.OnSquare x y) {qx qy : Req} {a b : ℚ}
    (hx : Spec.PointOf x qx a) (hy : Spec.PointOf y qy b)
    (hfx : ∀ c : ℚ, Spec.Entry ['x'] (eqText fmt ['x'] (.scalar c)))
    (hfy : ∀ c : ℚ, Spec.Entry ['y'] (eqText fmt ['y'] (.scalar c))) :
    ∃ d, jCall fmt [.cont x, .cont y] [([['x']], .one qx), ([['y']], .one qy)] = .ok d ∧ d.WF fmt ∧
      d.marg = [(['x'], eqText fmt ['x'] (.scalar a)), (['y'], eqText fmt ['y'] (.scalar b))] ∧
      d.cond = [] ∧ d.values ['x'] = some (.scalar a) ∧ d.values ['y'] = some (.scalar b) ∧
      d.axis ['x'] = none ∧ d.axis ['y'] = none ∧ d.shape = [] ∧ d.pscale = .lin 1 ∧
      d.prob.get [] = (if x.inside a then x.prob else 0) * (if y.inside b then y.prob else 0) := by
  obtain ⟨nx, dx, gx, ix, px, sx⟩ := x
  obtain ⟨ny, dy, gy, iy, py, sy⟩ := y
  obtain ⟨h1, h2, h3, h4, _, _, _⟩ := h
  simp only at h1 h2 h3 h4
  subst h1 h2 h3 h4
  set vs : List JVar := [omcVar ['x'] dx gx ix px, omcVar ['y'] dy gy iy py] with hvs
  let es : JReqs := [([['x']], [qx]), ([['y']], [qy])]
  let vals : Dict Str Laid := [(['x'], ⟨.scalar a, []⟩), (['y'], ⟨.scalar b, []⟩)]
  have hsc : vs.mapM JVar.scale = .ok [.lin 1, .lin 1] := by
    simp [hvs, omcVar, JVar.scale, evalPscale_one, bind, Except.bind, pure, Except.pure]
  have e0 : jScale vs = .ok (.lin 1) := by
    unfold jScale
    rw [hsc]
    simp [prodPscale, PScale.spec, PSpec.iscomplex, prodPscaleLin, evalPscale, probCoef, bind, Except.bind,
      pure, Except.pure]
  have e1 : jParse vs [([['x']], .one qx), ([['y']], .one qy)] = .ok es := rfl
  have e2 : ∃ dims : Dict Str (Option ℕ), jEvaluate vs es = .ok (vals, dims) ∧
      (dims = [] ∨ dims = [(['x'], none), (['y'], none)]) := by
    cases hx <;> cases hy <;> first
      | exact ⟨[], rfl, .inl rfl⟩
      | exact ⟨[(['x'], none), (['y'], none)], rfl, .inr rfl⟩
  obtain ⟨dims, e2, hdims⟩ := e2
  obtain ⟨q, q1, q2, q3⟩ : ∃ q, jProb vs vals = .ok q ∧ q.shape = [] ∧ q.get [] =
      (if ix a then px else 0) * (if iy b then py else 0) := by
    have hv : ∀ (nm : Str) (d : ℕ → ℚ) (g : ℕ → List ℚ) (i : ℚ → Bool) (p : ℝ) (z : ℚ),
        Dict.get? vals nm = some ⟨.scalar z, []⟩ →
        jVarProb vals (omcVar nm d g i p) = .ok ⟨[], fun _ => if i z then p else 0⟩ := by
      intro nm d g i p z hg
      unfold jVarProb
      rw [show (omcVar nm d g i p).name = nm from rfl, hg]
      simp only [omcVar, FCont.evalProb, rvEvalProb, evalPscale_one, uniformProb, PScale.iscomplex,
        pZero, bind, Except.bind, pure, Except.pure, Bool.false_eq_true, if_false]
    have h2 : vs.mapM (jVarProb vals) = .ok [⟨[], fun _ => if ix a then px else 0⟩,
        ⟨[], fun _ => if iy b then py else 0⟩] := by
      simp [hvs, hv ['x'] dx gx ix px a rfl, hv ['y'] dy gy iy py b rfl, bind, Except.bind, pure, Except.pure]
    have h3 : jProb vs vals = (do
      prodRuleArr (← vs.mapM (jVarProb vals)) (← vs.mapM JVar.scale)) := rfl
    refine ⟨⟨[], fun j => (Arr.bget ⟨[], fun _ => if ix a then px else 0⟩ j) *
      (Arr.bget ⟨[], fun _ => if iy b then py else 0⟩ j)⟩, ?_, rfl, rfl⟩
    rw [h3, hsc, h2]
    simp only [bind, Except.bind, prodRuleArr, applyProdArr, List.foldlM_cons, List.foldlM_nil, Arr.zip]
    simp [PScale.iscomplex, bshape_self, pure, Except.pure]
  have hBA : BuildArgs fmt [(['x'], eqText fmt ['x'] (.scalar a)), (['y'], eqText fmt ['y'] (.scalar b))] []
      [(['x'], .scalar a), (['y'], .scalar b)] dims [] := by
    have hx' := hfx a
    have hy' := hfy b
    refine ⟨by simp, by simp, ?_, ⟨by simp, ?_⟩, ⟨by simp, by simp⟩, by simp, ?_, ?_, ?_, ?_, ?_, ?_⟩
    · simp [disallowed]
    · simp [hx', hy']
    · simp
    · rcases hdims with rfl | rfl <;> simp
    · rcases hdims with rfl | rfl <;> simp
    · intro k v hk hs
      have hd : (Dict.get? dims k).join = none := by
        rcases hdims with rfl | rfl
        · rfl
        · simp only [Dict.get?]
          split
          · rfl
          · split <;> rfl
      refine ⟨hd, .inl ?_⟩
      simp only [Dict.get?] at hk ⊢
      split at hk
      · rename_i e; subst e
        simp only [Option.some.injEq] at hk
        rw [if_pos rfl, hk]
      · rename_i e
        rw [if_neg e]
        split at hk
        · rename_i e; subst e
          simp only [Option.some.injEq] at hk
          rw [if_pos rfl, hk]
        · simp at hk
    · intro k v hk hs
      simp only [Dict.get?] at hk
      split at hk
      · simp only [Option.some.injEq] at hk
        subst hk; simp [Val.issingleton] at hs
      · split at hk
        · simp only [Option.some.injEq] at hk
          subst hk; simp [Val.issingleton] at hs
        · simp at hk
    · simp
  obtain ⟨d, d1, d2, d3, d4, d5, d6, d7, d8, d9⟩ := pdInit_ok hBA q q2 (PScale.lin 1).spec (.lin 1) lin1_stable
  have hax : ∀ k, d.axis k = none := by
    intro k
    rw [d6]
    rcases hdims with rfl | rfl
    · rfl
    · simp only [Dict.get?]
      split
      · rfl
      · split <;> rfl
  refine ⟨d, ?_, d2, d3, d4, ?_, ?_, hax _, hax _, d7, d9, by rw [d8, q3]⟩
  · change jCall fmt vs _ = _
    unfold jCall
    rw [e0]
    simp only [bind, Except.bind, lin1_stable]
    rw [e1]
    simp only []
    rw [e2]
    simp only [q1]
    rw [← d1]
    have tx : Spec.Entry ['x'] (distName fmt ['x'] qx) := by
      cases hx with
      | given => exact hfx a
      | drawn => exact ⟨by simp [distName], by simp [distName], by simp [distName], by simp [distName],
          by simp [distName], .inl ⟨⟨['[', ']'], rfl⟩, by simp, by simp⟩⟩
      | omitted => exact ⟨by simp [distName], by simp [distName], by simp [distName], by simp [distName],
          by simp [distName], .inr ⟨rfl, by simp⟩⟩
    have ty : Spec.Entry ['y'] (distName fmt ['y'] qy) := by
      cases hy with
      | given => exact hfy b
      | drawn => exact ⟨by simp [distName], by simp [distName], by simp [distName], by simp [distName],
          by simp [distName], .inl ⟨⟨['[', ']'], rfl⟩, by simp, by simp⟩⟩
      | omitted => exact ⟨by simp [distName], by simp [distName], by simp [distName], by simp [distName],
          by simp [distName], .inr ⟨rfl, by simp⟩⟩
    rw [← pdInit_named hBA (m := [(['x'], distName fmt ['x'] qx), (['y'], distName fmt ['y'] qy)]) (c := [])
      ⟨by simp, by simp [tx, ty]⟩ ⟨by simp, by simp⟩ rfl rfl ?_ q (PScale.lin 1).spec]
    · congr 1
    · intro k v hk hs
      exfalso
      simp only [Dict.get?] at hk
      split at hk
      · simp only [Option.some.injEq] at hk
        subst hk; simp [Val.issingleton] at hs
      · split at hk
        · simp only [Option.some.injEq] at hk
          subst hk; simp [Val.issingleton] at hs
        · simp at hk
  · rw [hBA.values d5]; rfl
  · rw [hBA.values d5]; rfl

/-- `C93_point` is not vacuous. -/
example : ∃ d, jCall (fun _ => ['v']) [.cont (halfUnit ['x'] fun _ => 0), .cont (halfUnit ['y'] fun _ => 1 / 2)]
    [([['x']], .one (.scalar 1)), ([['y']], .one (.count 0))] = .ok d ∧
    d.values ['x'] = some (.scalar 1) ∧ d.values ['y'] = some (.scalar (1 / 2)) := by
  obtain ⟨d, h1, _, _, _, h2, h3, _⟩ := C93_point (fun _ => ['v']) (halfUnit ['x'] fun _ => 0)
    (halfUnit ['y'] fun _ => 1 / 2)
    (halfUnit_square _ _ (fun k => by norm_num) (fun k => by norm_num)) (.given 1) .drawn
    (fun _ => ⟨by simp [eqText], by simp [eqText], by simp [eqText], by simp [eqText], by simp [eqText],
      .inl ⟨⟨['v'], rfl⟩, by simp, by simp⟩⟩)
    (fun _ => ⟨by simp [eqText], by simp [eqText], by simp [eqText], by simp [eqText], by simp [eqText],
      .inl ⟨⟨['v'], rfl⟩, by simp, by simp⟩⟩)
  exact ⟨d, h1, h2, h3⟩

end Probayes
