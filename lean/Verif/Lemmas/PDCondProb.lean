/-
The probabilities computed by `conditionalise`: every entry is divided by the
sum over the remaining marginal axes.
-/
import Verif.Lemmas.PDCondArr
import Verif.Props.PDMarg

namespace Probayes

theorem foldl_max_real (l : List ℝ) : ∀ m, m ≤ l.foldl max m ∧ (∀ x ∈ l, x ≤ l.foldl max m) ∧
    (l.foldl max m = m ∨ l.foldl max m ∈ l) := by
  induction l with
  | nil => intro m; simp
  | cons y l ih =>
    intro m
    obtain ⟨h1, h2, h3⟩ := ih (max m y)
    simp only [List.foldl_cons, List.mem_cons]
    refine ⟨le_trans (le_max_left _ _) h1, ?_, ?_⟩
    · rintro x (rfl | hx)
      · exact le_trans (le_max_right _ _) h1
      · exact h2 x hx
    · rcases h3 with h3 | h3
      · rcases le_total m y with h | h
        · right; left; rw [h3, max_eq_right h]
        · left; rw [h3, max_eq_left h]
      · exact Or.inr (Or.inr h3)

theorem subMax_ok {a : Arr} (h : (idx a.shape).Nonempty) :
    ∃ M, subMax a = .ok (a.map (· - M)) ∧ (∀ i ∈ idx a.shape, a.get i ≤ M) ∧
      ∃ i ∈ idx a.shape, a.get i = M := by
  have hmem : ∀ x, x ∈ a.ravel ↔ ∃ i ∈ idx a.shape, a.get i = x := by
    intro x
    simp [Arr.ravel, idx]
  unfold subMax
  rcases hr : a.ravel with _ | ⟨x, xs⟩
  · obtain ⟨i, hi⟩ := h
    have := (hmem (a.get i)).mpr ⟨i, hi, rfl⟩
    rw [hr] at this; simp at this
  · obtain ⟨h1, h2, h3⟩ := foldl_max_real xs x
    refine ⟨xs.foldl max x, rfl, ?_, ?_⟩
    · intro i hi
      have := (hmem (a.get i)).mpr ⟨i, hi, rfl⟩
      rw [hr] at this
      rcases List.mem_cons.mp this with h | h
      · rw [h]; exact h1
      · exact h2 _ h
    · apply (hmem _).mp
      rw [hr]
      rcases h3 with h | h
      · rw [h]; simp
      · exact List.mem_cons_of_mem _ h

open Classical in
/-- The sum over the axes `sum`, at `j`. -/
noncomputable def groupSum (s : PScale) (sum : List ℕ) (q : Arr) (j : List ℕ) : ℝ :=
  ∑ j' ∈ (idx q.shape).filter (fun j' => ∀ a, a ∉ sum → j'[a]? = j[a]?), Spec.value s (q.get j')

/-- No clamp is reached. -/
structure CondRange (s : PScale) (norm : Bool) (sum : List ℕ) (q : Arr) : Prop where
  valid : Spec.Valid s
  read : ∀ j ∈ idx q.shape, Spec.Unclamped (q.get j) s (.lin 1)
  nonneg : ∀ j ∈ idx q.shape, 0 ≤ Spec.value s (q.get j)
  mass : ∀ j ∈ idx q.shape, npz ≤ groupSum s sum q j
  share : norm = true → ∀ j ∈ idx q.shape,
    npz * ∑ j' ∈ idx q.shape, Spec.value s (q.get j') ≤ groupSum s sum q j
  scale : norm = true → ∀ re im, s = .log re im →
    npz ≤ Real.exp (Spec.offset re im) ∧ Spec.offset re im ≤ Real.log npi

/-- The plain probabilities up to a common factor. -/
theorem condLinear_ok {s : PScale} (hs : evalPscale s.spec = .ok s) (norm : Bool) {sum : List ℕ}
    {q : Arr} (hne : (idx q.shape).Nonempty) :
    ∃ q1 q2, (if norm && s.iscomplex then subMax q else .ok q) = .ok q1 ∧
      rescaleArr q1 s.spec (.flt 1) = .ok q2 ∧ q2.shape = q.shape ∧
      (CondRange s norm sum q → ∃ κ : ℝ, 0 < κ ∧ (norm = false → κ = 1) ∧
        (norm = true → npz ≤ κ * ∑ j ∈ idx q.shape, Spec.value s (q.get j)) ∧
        ∀ j ∈ idx q.shape, q2.get j = κ * Spec.value s (q.get j)) := by
  classical
  have hresc : ∀ q1 : Arr, rescaleArr q1 s.spec (.flt 1) = .ok (q1.map fun x => rescaleE x s (.lin 1)) := by
    intro q1
    simp [rescaleArr, hs, evalPscale_one, bind, Except.bind, pure, Except.pure]
  have htot : CondRange s norm sum q → npz ≤ ∑ j ∈ idx q.shape, Spec.value s (q.get j) := by
    intro hr
    obtain ⟨j, hj⟩ := hne
    refine le_trans (hr.mass j hj) ?_
    unfold groupSum
    exact Finset.sum_le_sum_of_subset_of_nonneg (Finset.filter_subset _ _)
      fun i hi _ => hr.nonneg i hi
  by_cases hc : (norm && s.iscomplex) = true
  · obtain ⟨M, h1, h2, i0, hi0, h3⟩ := subMax_ok hne
    refine ⟨q.map (· - M), _, by rw [if_pos hc]; exact h1, hresc _, rfl, ?_⟩
    intro hr
    simp only [Bool.and_eq_true] at hc
    obtain ⟨hnorm, hcomp⟩ := hc
    rcases s with c | ⟨re, im⟩
    · simp [PScale.iscomplex] at hcomp
    obtain ⟨f1, f2⟩ := hr.scale hnorm re im rfl
    have hval : ∀ j ∈ idx q.shape, rescaleE (q.get j - M) (.log re im) (.lin 1) =
        Real.exp (-M) * Spec.value (.log re im) (q.get j) := by
      intro j hj
      have hu := hr.read j hj
      rw [rescaleE_to_one _ _ hr.valid hs]
      · simp only [Spec.value]
        rw [← Real.exp_add]; congr 1; ring
      · refine ⟨?_, hu.2⟩
        have := h2 j hj
        rw [Real.log_one, sub_zero]; linarith
    refine ⟨Real.exp (-M), Real.exp_pos _, by simp [hnorm], ?_, hval⟩
    intro _
    refine le_trans f1 ?_
    have : Real.exp (Spec.offset re im) = Real.exp (-M) * Spec.value (.log re im) (q.get i0) := by
      simp only [Spec.value]
      rw [← Real.exp_add, h3]; congr 1; ring
    rw [this]
    apply mul_le_mul_of_nonneg_left _ (Real.exp_pos _).le
    exact Finset.single_le_sum (f := fun j => Spec.value (.log re im) (q.get j)) hr.nonneg hi0
  · refine ⟨q, _, by rw [if_neg hc], hresc _, rfl, ?_⟩
    intro hr
    refine ⟨1, one_pos, fun _ => rfl, ?_, ?_⟩
    · intro _; rw [one_mul]; exact htot hr
    · intro j hj
      rw [one_mul]
      exact rescaleE_to_one _ _ hr.valid hs (hr.read j hj)

/-- What the probabilities are divided by when nothing remains to sum over. -/
noncomputable def condTotal (s : PScale) (norm : Bool) (q : Arr) : ℝ :=
  if norm then ∑ j ∈ idx q.shape, Spec.value s (q.get j) else 1

theorem condProb_ok {s : PScale} (hs : evalPscale s.spec = .ok s) (norm : Bool) {sum : List ℕ}
    {q : Arr} (hne : (idx q.shape).Nonempty) (hsum : ∀ a ∈ sum, a < q.shape.length) :
    ∃ R, condProb s norm sum q = .ok R ∧ R.shape = q.shape ∧
      (CondRange s norm sum q → sum ≠ [] → ∀ j ∈ idx q.shape,
        Spec.Writable s (Spec.value s (q.get j) / groupSum s sum q j) →
        Spec.value s (R.get j) = Spec.value s (q.get j) / groupSum s sum q j) ∧
      (CondRange s norm sum q → sum = [] → ∀ j ∈ idx q.shape,
        Spec.Writable s (Spec.value s (q.get j) / condTotal s norm q) →
        Spec.value s (R.get j) = Spec.value s (q.get j) / condTotal s norm q) := by
  classical
  obtain ⟨q1, q2, e1, e2, e3, e4⟩ := condLinear_ok hs norm (sum := sum) hne
  -- division by the total
  obtain ⟨q3, f1, f2, f3⟩ : ∃ q3, (if norm then divArr q2 ⟨[], fun _ => sumAll q2⟩ else .ok q2) = .ok q3 ∧
      q3.shape = q.shape ∧ (CondRange s norm sum q → ∃ c : ℝ, 0 < c ∧ c = 1 / condTotal s norm q ∧
        (∀ j ∈ idx q.shape, npz ≤ c * groupSum s sum q j) ∧
        ∀ j ∈ idx q.shape, q3.get j = c * Spec.value s (q.get j)) := by
    cases norm with
    | false =>
      refine ⟨q2, rfl, e3, ?_⟩
      intro hr
      obtain ⟨κ, -, k2, -, k4⟩ := e4 hr
      rw [k2 rfl] at k4
      exact ⟨1, one_pos, by simp [condTotal], fun j hj => by rw [one_mul]; exact hr.mass j hj, k4⟩
    | true =>
      obtain ⟨q3, g1, g2, g3⟩ := divTotal_ok q2
      refine ⟨q3, g1, g2.trans e3, ?_⟩
      intro hr
      obtain ⟨κ, k1, -, k3, k4⟩ := e4 hr
      have k3 := k3 rfl
      set T := ∑ j ∈ idx q.shape, Spec.value s (q.get j) with hT
      have hall : sumAll q2 = κ * T := by
        unfold sumAll
        rw [e3, hT, Finset.mul_sum]
        exact Finset.sum_congr rfl k4
      have hTpos : 0 < T := by
        have := lt_of_lt_of_le npz_pos k3
        exact (mul_pos_iff_of_pos_left k1).mp this
      refine ⟨1 / T, by positivity, by simp [condTotal, hT], ?_, ?_⟩
      · intro j hj
        have := hr.share rfl j hj
        rw [one_div, inv_mul_eq_div, le_div_iff₀ hTpos]
        exact this
      · intro j hj
        rw [g3 j (by rw [e3]; exact hj), k4 j hj, hall, max_eq_right k3]
        field_simp
  -- division along the axes
  by_cases hempty : sum = []
  · subst hempty
    refine ⟨q3.map fun x => rescaleE x (.lin 1) s, ?_, f2, fun _ h => absurd rfl h, ?_⟩
    · simp only [condProb, e1, e2, f1, bind, Except.bind, List.isEmpty_nil, if_true]
      simp [rescaleArr, hs, evalPscale_one, bind, Except.bind, pure, Except.pure]
    · intro hr _ j hj hw
      obtain ⟨c, c1, c2, -, c3⟩ := f3 hr
      have hq3 : q3.get j = Spec.value s (q.get j) / condTotal s norm q := by
        rw [c3 j hj, c2, one_div_mul_eq_div]
      show Spec.value s (rescaleE (q3.get j) (.lin 1) s) = _
      rw [hq3]
      exact rescaleE_from_one _ s hr.valid hs hw
  · obtain ⟨total, q4, g1, g2, g3, g4⟩ := divKeep_ok (q := q3) (axes := sum) (by rw [f2]; exact hsum)
    refine ⟨q4.map fun x => rescaleE x (.lin 1) s, ?_, g3.trans f2, ?_, fun _ h => absurd h hempty⟩
    · have : sum.isEmpty = false := by simpa using hempty
      simp only [condProb, e1, e2, f1, bind, Except.bind, this, Bool.false_eq_true, if_false, g1, g2]
      simp [rescaleArr, hs, evalPscale_one, bind, Except.bind, pure, Except.pure]
    · intro hr _ j hj hw
      obtain ⟨c, c1, -, c2, c3⟩ := f3 hr
      have hg : ∑ j' ∈ (idx q3.shape).filter (fun j' => ∀ a, a ∉ sum → j'[a]? = j[a]?), q3.get j' =
          c * groupSum s sum q j := by
        unfold groupSum
        rw [f2, Finset.mul_sum]
        exact Finset.sum_congr rfl fun j' hj' => c3 j' (Finset.mem_filter.mp hj').1
      have hq4 : q4.get j = Spec.value s (q.get j) / groupSum s sum q j := by
        rw [g4 j (by rw [f2]; exact hj), hg, max_eq_right (c2 j hj), c3 j hj]
        exact mul_div_mul_left _ _ c1.ne'
      show Spec.value s (rescaleE (q4.get j) (.lin 1) s) = _
      rw [hq4]
      exact rescaleE_from_one _ s hr.valid hs hw

end Probayes
