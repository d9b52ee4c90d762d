/-
C101: fitting parameters by random samples weighted with their likelihood
(Model/Importance.lean).
-/
import Verif.Lemmas.Importance
import Verif.Props.OMC
import Mathlib.Probability.ProbabilityMassFunction.Integrals

namespace Probayes

/-- The likelihood of all data at parameters `a` and `b`, for independent data of density
`g`. -/
noncomputable def Spec.likelihood (g : ℝ → ℝ → ℝ → ℝ) (data : List ℚ) (a b : ℝ) : ℝ :=
  (data.map fun z => g (z : ℚ) a b).prod

/-- `f` gives the density `g` on the scale `s`: the density on the plain scale, its
logarithm on the plain logarithmic scale (`pscale='log'`). -/
def Spec.Gives (s : PScale) (f g : ℝ → ℝ → ℝ → ℝ) : Prop :=
  s = .lin 1 ∧ (∀ z a b, f z a b = g z a b) ∨ s = .log 0 0 ∧ ∀ z a b, f z a b = Real.log (g z a b)

/-- The likelihood of the `k`th of the samples. -/
noncomputable def Spec.sampleWeight (g : ℝ → ℝ → ℝ → ℝ) (data : List ℚ) (x y : FCont) (k : ℕ) : ℝ :=
  Spec.likelihood g data (x.draw k : ℚ) (y.draw k : ℚ)

/-- The mean of `v` over the first `n` samples weighted with `w`. -/
noncomputable def Spec.weightedMean (v w : ℕ → ℝ) (n : ℕ) : ℝ :=
  (∑ k ∈ Finset.range n, v k * w k) / ∑ k ∈ Finset.range n, w k

/-- No number is so small as to be replaced: the sum of joint probabilities on the linear
scale, and any of the posterior ones on the logarithmic scale. -/
def Spec.Representable (s : PScale) (c : ℝ) (w : ℕ → ℝ) (n : ℕ) : Prop :=
  (s = .lin 1 → npz ≤ c * ∑ k ∈ Finset.range n, w k) ∧
  (s = .log 0 0 → ∀ k, k < n → npz * ∑ l ∈ Finset.range n, w l ≤ w k)

/-- `{'o': data, 'x,y': {-n}}`. -/
def Spec.fitRequest (data : List ℚ) (n : ℕ) : List (List Str × JRaw) :=
  [([['o']], .one (.array data)), ([['x'], ['y']], .one (.count (-n)))]

/-- `d` is the posterior: to each sample its share of the likelihood. -/
structure Spec.IsPosterior (d : PD) (x y : FCont) (w : ℕ → ℝ) (n : ℕ) : Prop where
  marg : d.marg.keys = [['x'], ['y']]
  cond : d.cond.keys = [['o']]
  axisX : d.axis ['x'] = some 0
  axisY : d.axis ['y'] = some 0
  valuesX : d.values ['x'] = some (.arr [n] ((List.range n).map x.draw))
  valuesY : d.values ['y'] = some (.arr [n] ((List.range n).map y.draw))
  shape : d.shape = [n]
  prob : ∀ k, k < n → d.at [k] = w k / ∑ l ∈ Finset.range n, w l

/-- C101 as intended. -/
def C101_claim : Prop :=
  ∀ (fmt : Val → Str) (o x y : FCont) (f g : ℝ → ℝ → ℝ → ℝ) (s : PScale) (data : List ℚ) (n : ℕ),
    o.name = ['o'] → Spec.OnSquare x y → Spec.Gives s f g → (∀ z a b, 0 < g z a b) → data ≠ [] → 0 < n →
    Spec.Entry ['o'] (eqText fmt ['o'] (.setint data.length)) →
    ∃ d, fitPosterior fmt (fitDep o x y f s) (Spec.fitRequest data n) = .ok d ∧
      Spec.IsPosterior d x y (Spec.sampleWeight g data x y) n

theorem gives_scale {s : PScale} {f g : ℝ → ℝ → ℝ → ℝ} (h : Spec.Gives s f g) : FitScale s := by
  rcases h with ⟨h, -⟩ | ⟨h, -⟩
  · exact Or.inl h
  · exact Or.inr h

theorem gives_value {s : PScale} {f g : ℝ → ℝ → ℝ → ℝ} (h : Spec.Gives s f g) (hg : ∀ z a b, 0 < g z a b)
    (z a b : ℝ) : Spec.value s (f z a b) = g z a b := by
  rcases h with ⟨rfl, h⟩ | ⟨rfl, h⟩
  · rw [value_lin1, h]
  · rw [value_log0, h, Real.exp_log (hg z a b)]

theorem likelihood_range (g : ℝ → ℝ → ℝ → ℝ) (data : List ℚ) (a b : ℝ) :
    ∏ i ∈ Finset.range data.length, g (data.getD i 0 : ℚ) a b = Spec.likelihood g data a b := by
  unfold Spec.likelihood
  induction data using List.reverseRecOn with
  | nil => simp
  | append_singleton l z ih =>
    rw [List.length_append, List.length_singleton, Finset.prod_range_succ, List.map_append, List.prod_append, ← ih]
    congr 1
    · apply Finset.prod_congr rfl
      intro i hi
      rw [Finset.mem_range] at hi
      simp [List.getD, List.getElem?_append_left hi]
    · simp [List.getD]

theorem likelihood_pos {g : ℝ → ℝ → ℝ → ℝ} (hg : ∀ z a b, 0 < g z a b) (data : List ℚ) (a b : ℝ) :
    0 < Spec.likelihood g data a b := by
  unfold Spec.likelihood
  apply List.prod_pos
  intro x hx
  obtain ⟨z, _, rfl⟩ := List.mem_map.mp hx
  exact hg _ _ _

/-- The joint distribution before conditioning. -/
theorem fit_joint (fmt : Val → Str) (o x y : FCont) (f g : ℝ → ℝ → ℝ → ℝ) (s : PScale)
    (data : List ℚ) (n : ℕ) (ho : o.name = ['o']) (h : Spec.OnSquare x y) (hf : Spec.Gives s f g)
    (hg : ∀ z a b, 0 < g z a b) (hd : data ≠ []) (hn : 0 < n)
    (hfmt : Spec.Entry ['o'] (eqText fmt ['o'] (.setint data.length))) :
    ∃ q, (fitDep o x y f s).callIidJoint fmt (Spec.fitRequest data n) =
        .ok (fitJoint fmt data.length n ((List.range n).map x.draw) ((List.range n).map y.draw) q s) ∧
      q.shape = [n] ∧ ∀ k, k < n → Spec.value s (q.get [k]) =
        x.prob * y.prob * Spec.sampleWeight g data x y k := by
  have hs := gives_scale hf
  obtain ⟨b, b1, b2, b3⟩ := fit_call fmt o x y ho h.nameX h.nameY f hs data hd n hn
  obtain ⟨nx, dx, gx, ix, px, sx⟩ := x
  obtain ⟨ny, dy, gy, iy, py, sy⟩ := y
  obtain ⟨h1, h2, h3, h4, h5, h6, h7⟩ := h
  simp only at h1 h2 h3 h4 h5 h6 h7 b1 b3
  subst h1 h2 h3 h4
  set xs := (List.range n).map dx with hxs
  set ys := (List.range n).map dy with hys
  have hx : xs.length = n := by simp [hxs]
  have hy : ys.length = n := by simp [hys]
  obtain ⟨a, a1, a2, a3⟩ := omc_jCall fmt dx dy gx gy ix iy px py n xs ys hx hy
  have a4 : ∀ k, k < n → a.get [k] = px * py := by
    intro k hk
    have e1 : xs.getD k 0 = dx k := by simp [hxs, List.getD, hk]
    have e2 : ys.getD k 0 = dy k := by simp [hys, List.getD, hk]
    rw [a3 k hk, e1, e2, h5, h6]
    simp
  obtain ⟨q, q1, q2, q3⟩ := fit_product fmt data.length n xs ys hx hy a b a2 b2 hs hfmt
    (fun k hk => by rw [a4 k hk]; exact h7)
  refine ⟨q, ?_, q2, ?_⟩
  · unfold JDep.callIidJoint
    rw [show (fitDep o ⟨['x'], dx, gx, ix, px, .flt 1⟩ ⟨['y'], dy, gy, iy, py, .flt 1⟩ f s).callIid fmt
      (Spec.fitRequest data n) = .ok (fitCond fmt data.length n xs ys b s) from b1]
    simp only [bind, Except.bind]
    rw [show (fitCond fmt data.length n xs ys b s).jCondReq = .ok [([['x'], ['y']], .list [.array xs, .array ys])] from rfl]
    simp only []
    rw [if_neg (by simp [fitDep]), show jCall fmt (fitDep o ⟨['x'], dx, gx, ix, px, .flt 1⟩
      ⟨['y'], dy, gy, iy, py, .flt 1⟩ f s).roots [([['x'], ['y']], .list [.array xs, .array ys])] =
        .ok (omcMarg n xs ys a) from a1]
    simp only [q1]
    rfl
  · intro k hk
    rw [q3 k hk, a4 k hk, b3 k hk]
    simp only [gives_value hf hg]
    rw [likelihood_range]
    rfl

/-- C101: the posterior gives each sample the share of its likelihood in that of all samples,
whatever their number and that of the data, as long as no number is too small. -/
theorem C101_posterior_partial (fmt : Val → Str) (o x y : FCont) (f g : ℝ → ℝ → ℝ → ℝ) (s : PScale)
    (data : List ℚ) (n : ℕ) (ho : o.name = ['o']) (h : Spec.OnSquare x y) (hf : Spec.Gives s f g)
    (hg : ∀ z a b, 0 < g z a b) (hd : data ≠ []) (hn : 0 < n)
    (hfmt : Spec.Entry ['o'] (eqText fmt ['o'] (.setint data.length)))
    (hr : Spec.Representable s (x.prob * y.prob) (Spec.sampleWeight g data x y) n) :
    ∃ d, fitPosterior fmt (fitDep o x y f s) (Spec.fitRequest data n) = .ok d ∧ d.WF fmt ∧ d.Placed ∧
      d.pscale = s ∧ Spec.IsPosterior d x y (Spec.sampleWeight g data x y) n := by
  have hs := gives_scale hf
  obtain ⟨q, q1, q2, q3⟩ := fit_joint fmt o x y f g s data n ho h hf hg hd hn hfmt
  set w := Spec.sampleWeight g data x y with hw
  set c := x.prob * y.prob with hc
  have hcpos : 0 < c := lt_of_lt_of_le npz_pos h.mass
  have hwpos : ∀ k, 0 < w k := fun k => likelihood_pos hg data _ _
  set q' : Arr := ⟨[n], fun j => q.get [j.getD 0 0]⟩ with hq'
  have hq3 : ∀ k, k < n → Spec.value s (q'.get [k]) = c * w k := q3
  have hsum : ∑ k ∈ Finset.range n, Spec.value s (q'.get [k]) = c * ∑ k ∈ Finset.range n, w k := by
    rw [Finset.mul_sum]
    exact Finset.sum_congr rfl fun k hk => hq3 k (Finset.mem_range.mp hk)
  obtain ⟨R, r1, r2, r3⟩ := fit_condProb hs hn (q := q') rfl
    (fun k hk => by rw [hq3 k hk]; exact (mul_pos hcpos (hwpos k)).le)
    (fun e => by rw [hsum]; exact hr.1 e)
    (fun e k hk => by
      rw [hsum, hq3 k hk]
      calc npz * (c * ∑ k ∈ Finset.range n, w k) = c * (npz * ∑ k ∈ Finset.range n, w k) := by ring
        _ ≤ c * w k := mul_le_mul_of_nonneg_left (hr.2 e k hk) hcpos.le)
  set xs := (List.range n).map x.draw with hxs
  set ys := (List.range n).map y.draw with hys
  have hx : xs.length = n := by simp [hxs]
  have hy : ys.length = n := by simp [hys]
  obtain ⟨p1, p2, p3, p4⟩ := fit_post_wf fmt data.length n xs ys hx hy R r2 hs hfmt
  refine ⟨fitPost fmt data.length n xs ys R s, ?_, p1, p2, rfl, ⟨rfl, rfl, rfl, rfl, p3, p4, rfl, ?_⟩⟩
  · unfold fitPosterior
    rw [q1]
    simp only [bind, Except.bind]
    rw [show (fitDep o x y f s).leafs.map JVar.name = [['o']] by simp [fitDep, JVar.name, ho]]
    exact fit_conditionalise fmt data.length n xs ys hx hy q R q2 r2 hs hfmt r1
  · intro k hk
    show Spec.value s (R.get [k]) = _
    rw [r3 k hk, hsum, hq3 k hk]
    exact mul_div_mul_left _ _ hcpos.ne'

/-- The estimate of parameter `k` by the call is the number `e`. -/
def Spec.FitEstimates (fmt : Val → Str) (D : JDep) (raw : List (List Str × JRaw)) (k : Str) (e : ℝ) : Prop :=
  ∃ q, fitEstimate fmt D raw k = .ok (some (.mean q)) ∧ q.shape = [] ∧ q.get [] = e

theorem sum_idx_line (n : ℕ) (f : List ℕ → ℝ) : ∑ i ∈ idx [n], f i = ∑ k ∈ Finset.range n, f [k] := by
  have hidx : idx [n] = (Finset.range n).image fun k => [k] := by
    ext i
    simp only [mem_idx, Finset.mem_image, Finset.mem_range]
    constructor
    · intro h
      rcases h with _ | ⟨h1, h2⟩
      cases h2
      exact ⟨_, h1, rfl⟩
    · rintro ⟨a, ha, rfl⟩
      simp [ha]
  rw [hidx, Finset.sum_image]
  intro a _ b _ hab
  simpa using hab

/-- C101: the expectations over the posterior are the means of the samples weighted with their
likelihood. -/
theorem C101_estimate_partial (fmt : Val → Str) (o x y : FCont) (f g : ℝ → ℝ → ℝ → ℝ) (s : PScale)
    (data : List ℚ) (n : ℕ) (ho : o.name = ['o']) (h : Spec.OnSquare x y) (hf : Spec.Gives s f g)
    (hg : ∀ z a b, 0 < g z a b) (hd : data ≠ []) (hn : 0 < n)
    (hfmt : Spec.Entry ['o'] (eqText fmt ['o'] (.setint data.length)))
    (hr : Spec.Representable s (x.prob * y.prob) (Spec.sampleWeight g data x y) n) :
    Spec.FitEstimates fmt (fitDep o x y f s) (Spec.fitRequest data n) ['x']
      (Spec.weightedMean (fun k => (x.draw k : ℚ)) (Spec.sampleWeight g data x y) n) ∧
    Spec.FitEstimates fmt (fitDep o x y f s) (Spec.fitRequest data n) ['y']
      (Spec.weightedMean (fun k => (y.draw k : ℚ)) (Spec.sampleWeight g data x y) n) := by
  have hs := gives_scale hf
  obtain ⟨d, d1, d2, d3, d4, ⟨d5, d6, d7, d8, d9, d10, d11, d12⟩⟩ :=
    C101_posterior_partial fmt o x y f g s data n ho h hf hg hd hn hfmt hr
  set w := Spec.sampleWeight g data x y with hw
  have hwpos : ∀ k, 0 < w k := fun k => likelihood_pos hg data _ _
  set T := ∑ l ∈ Finset.range n, w l with hT
  have hTpos : 0 < T := Finset.sum_pos (fun k _ => hwpos k) ⟨0, Finset.mem_range.mpr hn⟩
  have hone : ∑ k ∈ Finset.range n, d.at [k] = 1 := by
    rw [Finset.sum_congr rfl fun k hk => d12 k (Finset.mem_range.mp hk), ← Finset.sum_div, div_self hTpos.ne']
  have hread : Spec.Readable d := by
    rcases hs with rfl | rfl
    · exact readable_lin d4 one_pos
    · refine ⟨by rw [d4]; trivial, ?_⟩
      intro i hi
      rw [d11] at hi
      have hl := length_of_mem_idx hi
      match i, hl with
      | [k], _ =>
        have hk : k < n := by simpa [mem_idx] using hi
        rw [d4]
        refine ⟨?_, Or.inl (by rw [offset_plain, Real.log_one])⟩
        have h1 := d12 k hk
        rw [PD.at, d4, value_log0] at h1
        have h2 : Real.exp (d.prob.get [k]) ≤ 1 := by
          rw [h1, div_le_one hTpos]
          exact Finset.single_le_sum (f := w) (fun k _ => (hwpos k).le) (Finset.mem_range.mpr hk)
        have h3 : d.prob.get [k] ≤ 0 := by rwa [Real.exp_le_one_iff] at h2
        have h4 : 0 ≤ Real.log npi := Real.log_nonneg one_lt_npi.le
        rw [offset_plain, Real.log_one]
        linarith
  obtain ⟨out, o1, _, o2, _⟩ := C22_expectation_partial fmt d d.marg.keys none 1 d2
    hread (fun k hk => hk) (by rw [d5]; simp) (Or.inl ⟨rfl, rfl⟩)
    (fun k hk v hv => ⟨v, rfl⟩) d3
  have hrest : ∀ k : ℕ, Spec.rest d d.marg.keys [k] = [] := by
    intro k
    simp [Spec.rest, d5, dropAxes, d7]
  have hfib : Spec.fibre d d.marg.keys [] = idx [n] := by
    rw [Spec.fibre, d11, Finset.filter_true_of_mem]
    intro i hi
    have := length_of_mem_idx hi
    match i, this with
    | [k], _ => exact hrest k
  have key : ∀ (nm : Str) (dr : ℕ → ℚ), nm ∈ d.marg.keys → d.axis nm = some 0 →
      d.values nm = some (.arr [n] ((List.range n).map dr)) →
      Spec.FitEstimates fmt (fitDep o x y f s) (Spec.fitRequest data n) nm
        (Spec.weightedMean (fun k => (dr k : ℚ)) w n) := by
    intro nm dr hm hax hval
    obtain ⟨vals, q, q1, q2, q3, q4, q5⟩ := o2 nm hm 0 hax
    have hvals : vals = (List.range n).map dr := by
      rw [hval] at q1
      simp only [Option.some.injEq, Val.arr.injEq] at q1
      exact q1.2.symm
    subst hvals
    have hshape : q.shape = [] := by rw [q4, d11]; exact hrest n
    refine ⟨q, ?_, hshape, ?_⟩
    · unfold fitEstimate
      rw [d1]
      simp only [bind, Except.bind]
      rw [C22_default_keys d none (by rw [d5]; simp), o1]
      simp only [q3]
      rfl
    · rw [q5 [] (by rw [hshape]; simp [idx, indices]) (by
        rw [hfib, sum_idx_line, hone]
        exact npz_lt_one.le)]
      rw [Spec.weighted, hfib, sum_idx_line, sum_idx_line, hone, div_one, Spec.weightedMean, Finset.sum_div]
      apply Finset.sum_congr rfl
      intro k hk
      rw [Finset.mem_range] at hk
      rw [d12 k hk]
      simp only [Spec.pick, pow_one, List.getD_cons_zero]
      rw [show ((List.range n).map dr).getD k 0 = dr k by simp [List.getD, hk]]
      ring
  exact ⟨key ['x'] x.draw (by rw [d5]; simp) d7 d9, key ['y'] y.draw (by rw [d5]; simp) d8 d10⟩

theorem fit_condProb_small {q : Arr} (hq : q.shape = [1]) {v : ℝ} (hv : q.get [0] = v) (h0 : 0 < v)
    (h1 : v ≤ npz ^ 2) :
    ∃ R, condProb (.lin 1) true [0] q = .ok R ∧ R.shape = [1] ∧ R.get [0] = v / npz ^ 2 := by
  classical
  have hz := npz_pos
  have hz1 := npz_lt_one
  have hresc : ∀ a : Arr, rescaleArr a (PScale.lin 1).spec (.flt 1) = .ok a := by
    intro a
    have : a.map (fun x => rescaleE x (.lin 1) (.lin 1)) = a := by
      have : ∀ x, rescaleE x (.lin 1) (.lin 1) = x := by
        intro x
        rw [rescaleE_to_one x (.lin 1) (show (0 : ℝ) < 1 by norm_num) lin1_stable trivial, value_lin1]
      simp [Arr.map, this]
    simp only [rescaleArr, lin1_stable, evalPscale_one, bind, Except.bind, pure, Except.pure, this]
  have hresc' : ∀ a : Arr, rescaleArr a (.flt 1) (PScale.lin 1).spec = .ok a := hresc
  obtain ⟨a, a1, a2, a3⟩ := divTotal_ok q
  have hmem : [0] ∈ idx [1] := by simp [mem_idx]
  have a4 : a.get [0] = v / npz := by
    rw [a3 [0] (by rw [hq]; exact hmem), hv, sumAll, hq, sum_idx_line]
    simp only [Finset.sum_range_one, hv]
    rw [max_eq_left]
    nlinarith
  obtain ⟨total, b, b1, b2, b3, b4⟩ := divKeep_ok (q := a) (axes := [0]) (by simp [a2, hq])
  refine ⟨b, ?_, b3.trans (a2.trans hq), ?_⟩
  · unfold condProb
    simp only [PScale.iscomplex, Bool.and_false, Bool.false_eq_true, if_false, bind, Except.bind, hresc, if_true, a1,
      List.isEmpty_cons, b1, b2, hresc']
  · have ha : a.shape = [1] := a2.trans hq
    rw [b4 [0] (by rw [ha]; exact hmem), ha, Finset.filter_true_of_mem, sum_idx_line]
    · simp only [Finset.sum_range_one, a4]
      rw [max_eq_left]
      · field_simp
      · rw [div_le_iff₀ hz]
        nlinarith
    · intro i hi b hb
      have hl := length_of_mem_idx hi
      match i, hl, b, hb with
      | [k], _, 0, hb => simp at hb
      | [k], _, b + 1, _ => simp

/-- Numbers too small are replaced: a single sample of likelihood `npz ^ 3` does not get all of
the posterior. -/
theorem C101_claim_fails : ¬ C101_claim := by
  intro hcl
  have hz := npz_pos
  have hz1 := npz_lt_one
  have hsq := halfUnit_square (fun _ => 0) (fun _ => 0) (by norm_num) (by norm_num)
  have hg : ∀ z a b : ℝ, 0 < (fun _ _ _ => npz ^ 3 : ℝ → ℝ → ℝ → ℝ) z a b := fun _ _ _ => pow_pos hz 3
  have hf : Spec.Gives (.lin 1) (fun _ _ _ => npz ^ 3) (fun _ _ _ => npz ^ 3) := Or.inl ⟨rfl, fun _ _ _ => rfl⟩
  have hfmt : Spec.Entry ['o'] (eqText (fun _ => ['v']) ['o'] (.setint ([0] : List ℚ).length)) := by decide
  obtain ⟨d, d1, d2⟩ := hcl (fun _ => ['v']) (halfUnit ['o'] fun _ => 0) (halfUnit ['x'] fun _ => 0)
    (halfUnit ['y'] fun _ => 0) _ _ _ [0] 1 rfl hsq hf hg (by simp) one_pos hfmt
  obtain ⟨q, q1, q2, q3⟩ := fit_joint (fun _ => ['v']) (halfUnit ['o'] fun _ => 0) (halfUnit ['x'] fun _ => 0)
    (halfUnit ['y'] fun _ => 0) _ _ _ [0] 1 rfl hsq hf hg (by simp) one_pos hfmt
  have hv : q.get [0] = 1 / 4 * npz ^ 3 := by
    have := q3 0 one_pos
    rw [value_lin1] at this
    rw [this]
    simp only [halfUnit, Spec.sampleWeight, Spec.likelihood, List.map_cons, List.map_nil, List.prod_cons, List.prod_nil]
    ring
  have hle : 1 / 4 * npz ^ 3 ≤ npz ^ 2 := by
    have : npz ^ 3 = npz ^ 2 * npz := by ring
    nlinarith [pow_pos hz 2]
  obtain ⟨R, r1, r2, r3⟩ := fit_condProb_small (q := ⟨[1], fun j => q.get [j.getD 0 0]⟩) rfl
    (v := 1 / 4 * npz ^ 3) hv (by positivity) hle
  have hpost : fitPosterior (fun _ => ['v']) (fitDep (halfUnit ['o'] fun _ => 0) (halfUnit ['x'] fun _ => 0)
      (halfUnit ['y'] fun _ => 0) (fun _ _ _ => npz ^ 3) (.lin 1)) (Spec.fitRequest [0] 1) =
      .ok (fitPost (fun _ => ['v']) 1 1 [0] [0] R (.lin 1)) := by
    unfold fitPosterior
    rw [q1]
    simp only [bind, Except.bind]
    exact fit_conditionalise (fun _ => ['v']) 1 1 [0] [0] rfl rfl q R q2 r2 (Or.inl rfl) hfmt r1
  rw [hpost] at d1
  have hd := Except.ok.inj d1
  have := d2.prob 0 one_pos
  rw [← hd] at this
  have hat : (fitPost (fun _ => ['v']) 1 1 [0] [0] R (.lin 1)).at [0] = npz / 4 := by
    show Spec.value (.lin 1) (R.get [0]) = _
    rw [value_lin1, r3]
    field_simp
  rw [hat, Finset.sum_range_one, div_self (show Spec.sampleWeight _ _ _ _ 0 ≠ 0 from (likelihood_pos hg _ _ _).ne')] at this
  linarith

/-! ### Random samples -/

open MeasureTheory ProbabilityTheory in
/-- C101: for samples drawn independently in pairs from one law of the parameters, the estimates
exist for all large numbers of samples and converge almost surely to the posterior means, the
means under that law weighted with the likelihood.  (On the linear scale; on the logarithmic
scale the posterior numbers of very many samples are too small.) -/
theorem C101_limit {Ω : Type} [MeasurableSpace Ω] (μ : Measure Ω) [IsProbabilityMeasure μ]
    (X Y : ℕ → Ω → ℚ) (hm : ∀ k, Measurable fun ω => (X k ω, Y k ω))
    (hind : Pairwise fun i j => IndepFun (fun ω => (X i ω, Y i ω)) (fun ω => (X j ω, Y j ω)) μ)
    (hid : ∀ k, μ.map (fun ω => (X k ω, Y k ω)) = μ.map (fun ω => (X 0 ω, Y 0 ω)))
    (g : ℝ → ℝ → ℝ → ℝ) (hg : ∀ z a b, 0 < g z a b) (data : List ℚ) (hd : data ≠ [])
    (hW : Integrable (fun ω => Spec.likelihood g data (X 0 ω : ℚ) (Y 0 ω : ℚ)) μ)
    (hXW : Integrable (fun ω => ((X 0 ω : ℚ) : ℝ) * Spec.likelihood g data (X 0 ω : ℚ) (Y 0 ω : ℚ)) μ)
    (hYW : Integrable (fun ω => ((Y 0 ω : ℚ) : ℝ) * Spec.likelihood g data (X 0 ω : ℚ) (Y 0 ω : ℚ)) μ)
    (fmt : Val → Str) (hfmt : Spec.Entry ['o'] (eqText fmt ['o'] (.setint data.length)))
    (o : FCont) (ho : o.name = ['o']) (x y : Ω → FCont) (hx : ∀ ω k, (x ω).draw k = X k ω)
    (hy : ∀ ω k, (y ω).draw k = Y k ω) (hxy : ∀ ω, Spec.OnSquare (x ω) (y ω)) :
    ∃ ex ey : ℕ → Ω → ℝ, ∀ᵐ ω ∂μ,
      (∀ᶠ n in Filter.atTop,
        Spec.FitEstimates fmt (fitDep o (x ω) (y ω) g (.lin 1)) (Spec.fitRequest data n) ['x'] (ex n ω) ∧
        Spec.FitEstimates fmt (fitDep o (x ω) (y ω) g (.lin 1)) (Spec.fitRequest data n) ['y'] (ey n ω)) ∧
      Filter.Tendsto (fun n => ex n ω) Filter.atTop (nhds
        ((∫ ω, ((X 0 ω : ℚ) : ℝ) * Spec.likelihood g data (X 0 ω : ℚ) (Y 0 ω : ℚ) ∂μ) /
          ∫ ω, Spec.likelihood g data (X 0 ω : ℚ) (Y 0 ω : ℚ) ∂μ)) ∧
      Filter.Tendsto (fun n => ey n ω) Filter.atTop (nhds
        ((∫ ω, ((Y 0 ω : ℚ) : ℝ) * Spec.likelihood g data (X 0 ω : ℚ) (Y 0 ω : ℚ) ∂μ) /
          ∫ ω, Spec.likelihood g data (X 0 ω : ℚ) (Y 0 ω : ℚ) ∂μ)) := by
  set W : ℕ → Ω → ℝ := fun k ω => Spec.likelihood g data (X k ω : ℚ) (Y k ω : ℚ) with hWdef
  have slln : ∀ φ : ℚ × ℚ → ℝ, Integrable (fun ω => φ (X 0 ω, Y 0 ω)) μ →
      ∀ᵐ ω ∂μ, Filter.Tendsto (fun n : ℕ => (∑ k ∈ Finset.range n, φ (X k ω, Y k ω)) / n) Filter.atTop
        (nhds (∫ ω, φ (X 0 ω, Y 0 ω) ∂μ)) := by
    intro φ hi
    have hφ : Measurable φ := measurable_of_countable φ
    refine strong_law_ae_real (μ := μ) (fun k ω => φ (X k ω, Y k ω)) hi ?_ ?_
    · intro i j hij
      exact (hind hij).comp hφ hφ
    · intro k
      refine ⟨(hφ.comp (hm k)).aemeasurable, (hφ.comp (hm 0)).aemeasurable, ?_⟩
      have h1 : ∀ k, μ.map (fun ω => φ (X k ω, Y k ω)) = (μ.map fun ω => (X k ω, Y k ω)).map φ :=
        fun k => (Measure.map_map hφ (hm k)).symm
      rw [h1 k, h1 0, hid k]
  have hE : 0 < ∫ ω, W 0 ω ∂μ := by
    rw [integral_pos_iff_support_of_nonneg (fun ω => (likelihood_pos hg data _ _).le) hW]
    have : Function.support (W 0) = Set.univ := by
      ext ω
      simp [Function.mem_support, hWdef, (likelihood_pos hg data _ _).ne']
    rw [this]
    simp
  have l1 := slln (fun p => Spec.likelihood g data (p.1 : ℚ) (p.2 : ℚ)) hW
  have l2 := slln (fun p => ((p.1 : ℚ) : ℝ) * Spec.likelihood g data (p.1 : ℚ) (p.2 : ℚ)) hXW
  have l3 := slln (fun p => ((p.2 : ℚ) : ℝ) * Spec.likelihood g data (p.1 : ℚ) (p.2 : ℚ)) hYW
  refine ⟨fun n ω => Spec.weightedMean (fun k => (X k ω : ℚ)) (fun k => W k ω) n,
    fun n ω => Spec.weightedMean (fun k => (Y k ω : ℚ)) (fun k => W k ω) n, ?_⟩
  filter_upwards [l1, l2, l3] with ω h1 h2 h3
  have hratio : ∀ (v : ℕ → ℝ) (I : ℝ),
      Filter.Tendsto (fun n : ℕ => (∑ k ∈ Finset.range n, v k * W k ω) / n) Filter.atTop (nhds I) →
      Filter.Tendsto (fun n => Spec.weightedMean v (fun k => W k ω) n) Filter.atTop
        (nhds (I / ∫ ω, W 0 ω ∂μ)) := by
    intro v I hI
    refine (hI.div h1 hE.ne').congr' ?_
    filter_upwards [Filter.eventually_gt_atTop 0] with n hn
    have hn0 : (n : ℝ) ≠ 0 := by exact_mod_cast hn.ne'
    simp only [Pi.div_apply, Spec.weightedMean]
    exact div_div_div_cancel_right₀ hn0 _ _
  refine ⟨?_, hratio _ _ h2, hratio _ _ h3⟩
  have hw : Spec.sampleWeight g data (x ω) (y ω) = fun k => W k ω := by
    funext k
    simp only [Spec.sampleWeight, hx, hy, hWdef]
  have hlow := h1.eventually (lt_mem_nhds (half_lt_self hE))
  obtain ⟨N, hN⟩ := exists_nat_ge (2 / ∫ ω, W 0 ω ∂μ)
  filter_upwards [hlow, Filter.eventually_ge_atTop N, Filter.eventually_gt_atTop 0] with n h4 h5 h6
  have hn0 : (0 : ℝ) < n := by exact_mod_cast h6
  have hbig : 1 ≤ ∑ k ∈ Finset.range n, W k ω := by
    rw [lt_div_iff₀ hn0] at h4
    have h7 : (N : ℝ) ≤ n := by exact_mod_cast h5
    have h8 : 2 / (∫ ω, W 0 ω ∂μ) ≤ n := hN.trans h7
    rw [div_le_iff₀ hE] at h8
    have h9 : (∫ ω, W 0 ω ∂μ) / 2 * n < ∑ k ∈ Finset.range n, W k ω := h4
    nlinarith
  have hmass := (hxy ω).mass
  have hcpos : 0 < (x ω).prob * (y ω).prob := lt_of_lt_of_le npz_pos hmass
  have := C101_estimate_partial fmt o (x ω) (y ω) g g (.lin 1) data n ho (hxy ω) (Or.inl ⟨rfl, fun _ _ _ => rfl⟩) hg hd h6
    hfmt ⟨fun _ => by
      rw [hw]
      calc npz ≤ (x ω).prob * (y ω).prob * 1 := by rw [mul_one]; exact hmass
        _ ≤ _ := mul_le_mul_of_nonneg_left hbig hcpos.le, fun h => by simp at h⟩
  rw [hw] at this
  simpa only [hx, hy] using this

/-! ### Instances -/

/-- Two samples with likelihoods 1 and 3, of the single datum 0. -/
example : Spec.FitEstimates (fun _ => ['v']) (fitDep (halfUnit ['o'] fun _ => 0)
    (halfUnit ['x'] fun k => if k = 1 then 1 else 0) (halfUnit ['y'] fun _ => 1 / 2)
    (fun _ a _ => if a = 1 then Real.log 3 else Real.log 1) (.log 0 0)) (Spec.fitRequest [0] 2) ['x'] (3 / 4) := by
  have hz := npz_pos
  have h8 : npz ≤ 1 / 8 := by unfold npz; norm_num
  have h := (C101_estimate_partial (fun _ => ['v']) (halfUnit ['o'] fun _ => 0)
    (halfUnit ['x'] fun k => if k = 1 then 1 else 0) (halfUnit ['y'] fun _ => 1 / 2)
    (fun _ a _ => if a = 1 then Real.log 3 else Real.log 1) (fun _ a _ => if a = 1 then 3 else 1) (.log 0 0) [0] 2 rfl
    (halfUnit_square _ _ (fun k => by split <;> norm_num) (fun k => by norm_num))
    (Or.inr ⟨rfl, fun z a b => by simp only []; split <;> rfl⟩) (fun z a b => by split <;> norm_num)
    (by simp) (by omega) (by decide) ⟨fun h => by simp at h, fun _ k hk => by
      have : k = 0 ∨ k = 1 := by omega
      rcases this with rfl | rfl <;>
      · simp [Spec.sampleWeight, Spec.likelihood, halfUnit, Finset.sum_range_succ]
        linarith⟩).1
  convert h using 1
  simp [Spec.weightedMean, Spec.sampleWeight, Spec.likelihood, halfUnit, Finset.sum_range_succ]
  norm_num

open MeasureTheory ProbabilityTheory in
/-- Samples of `x` by fair coins, 1 being three times as likely as 0: the estimates converge to
3/4. -/
example : ∃ (μ : Measure (ℕ → Bool)) (_ : IsProbabilityMeasure μ) (ex : ℕ → (ℕ → Bool) → ℝ), ∀ᵐ ω ∂μ,
    (∀ᶠ n in Filter.atTop,
      Spec.FitEstimates (fun _ => ['v']) (fitDep (halfUnit ['o'] fun _ => 0)
        (halfUnit ['x'] fun k => if ω k = true then 1 else 0)
        (halfUnit ['y'] fun _ => 0) (fun _ a _ => if a = 1 then 3 else 1) (.lin 1)) (Spec.fitRequest [0] n) ['x'] (ex n ω)) ∧
    Filter.Tendsto (fun n => ex n ω) Filter.atTop (nhds (3 / 4)) := by
  let ν : Measure Bool := (PMF.uniformOfFintype Bool).toMeasure
  let μ := Measure.infinitePi fun _ : ℕ => ν
  let X : ℕ → (ℕ → Bool) → ℚ := fun k ω => if ω k = true then 1 else 0
  have hmap : ∀ k, μ.map (Function.eval k) = ν := fun k =>
    (measurePreserving_eval_infinitePi (fun _ : ℕ => ν) k).map_eq
  have hpair : Measurable fun b : Bool => ((if b = true then 1 else 0 : ℚ), (0 : ℚ)) := measurable_of_countable _
  have hint : ∀ φ : Bool → ℝ, ∫ ω : ℕ → Bool, φ (ω 0) ∂μ = (φ true + φ false) / 2 := by
    intro φ
    have h1 : ∫ ω : ℕ → Bool, φ (ω 0) ∂μ = ∫ b, φ b ∂(μ.map (Function.eval 0)) :=
      (integral_map (measurable_pi_apply 0).aemeasurable
        (measurable_of_countable φ).aestronglyMeasurable).symm
    rw [h1, hmap, PMF.integral_eq_sum]
    simp [PMF.uniformOfFintype_apply]
    ring
  have hint' : ∀ φ : Bool → ℝ, Integrable (fun ω : ℕ → Bool => φ (ω 0)) μ := by
    intro φ
    refine Integrable.of_bound ((measurable_of_countable φ).comp (measurable_pi_apply 0)).aestronglyMeasurable
      (max |φ true| |φ false|) (Filter.Eventually.of_forall fun ω => ?_)
    show |φ (ω 0)| ≤ _
    rcases ω 0 with _ | _
    · exact le_max_right _ _
    · exact le_max_left _ _
  obtain ⟨ex, ey, h⟩ := C101_limit μ X (fun _ _ => 0) (fun k => hpair.comp (measurable_pi_apply k))
    (fun i j hij => ((iIndepFun_infinitePi (P := fun _ : ℕ => ν) (X := fun _ b => b)
      (fun _ => measurable_id)).indepFun hij).comp hpair hpair)
    (fun k => by
      have h1 : ∀ k, μ.map (fun ω => (X k ω, (0 : ℚ))) =
          (μ.map (Function.eval k)).map fun b : Bool => ((if b = true then 1 else 0 : ℚ), (0 : ℚ)) :=
        fun k => (Measure.map_map hpair (measurable_pi_apply k)).symm
      rw [h1 k, h1 0, hmap, hmap])
    (fun _ a _ => if a = 1 then 3 else 1) (fun _ a _ => by split <;> norm_num) [0] (by simp)
    (hint' fun b => Spec.likelihood (fun _ a _ => if a = 1 then 3 else 1) [0] ((if b = true then 1 else 0 : ℚ) : ℝ) ((0 : ℚ) : ℝ))
    (hint' fun b => ((if b = true then 1 else 0 : ℚ) : ℝ) *
      Spec.likelihood (fun _ a _ => if a = 1 then 3 else 1) [0] ((if b = true then 1 else 0 : ℚ) : ℝ) ((0 : ℚ) : ℝ))
    (hint' fun b => ((0 : ℚ) : ℝ) *
      Spec.likelihood (fun _ a _ => if a = 1 then 3 else 1) [0] ((if b = true then 1 else 0 : ℚ) : ℝ) ((0 : ℚ) : ℝ))
    (fun _ => ['v']) (by decide)
    (halfUnit ['o'] fun _ => 0) rfl (fun ω => halfUnit ['x'] fun k => X k ω) (fun _ => halfUnit ['y'] fun _ => 0)
    (fun _ _ => rfl) (fun _ _ => rfl)
    (fun ω => halfUnit_square _ _ (fun k => by simp only [X]; split <;> norm_num) (fun _ => by norm_num))
  refine ⟨μ, inferInstance, ex, ?_⟩
  filter_upwards [h] with ω hω
  refine ⟨hω.1.mono fun n hn => hn.1, ?_⟩
  have h2 := hω.2.1
  rw [hint fun b => ((if b = true then 1 else 0 : ℚ) : ℝ) *
      Spec.likelihood (fun _ a _ => if a = 1 then 3 else 1) [0] ((if b = true then 1 else 0 : ℚ) : ℝ) ((0 : ℚ) : ℝ),
    hint fun b => Spec.likelihood (fun _ a _ => if a = 1 then 3 else 1) [0] ((if b = true then 1 else 0 : ℚ) : ℝ) ((0 : ℚ) : ℝ)] at h2
  have : ((3 : ℝ) / 2) / ((3 + 1) / 2) = 3 / 4 := by norm_num
  rw [← this]
  simpa [Spec.likelihood] using h2

end Probayes
