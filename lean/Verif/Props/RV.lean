/-
Properties C30 (uniform default), C31 (Bernoulli), C32 (transition sampling),
C33 (transition lookup), C52 (monotonicity test), C56 (scalar transitions).
-/
import Mathlib.Algebra.BigOperators.Group.List.Basic
import Mathlib.MeasureTheory.Measure.Lebesgue.Basic
import Mathlib.Tactic.Ring
import Mathlib.Tactic.Linarith
import Verif.Model.RV
import Verif.Model.Variable
import Verif.Props.PScales

namespace Probayes

/-! ### C30 -/

theorem nlhv_eq (n : ℕ) (h : 1 ≤ n) : nlhv n = -Real.log n := by
  have h1 : (1 : ℝ) ≤ n := by exact_mod_cast h
  rw [nlhv, logProb, if_pos (by linarith [npz_lt_one])]

/-- C30: for every discrete variable (as declared, `n` entries) and every scale on
which 1/n is representable, the stored probability of a member denotes exactly
1/n, and a non-member gets the scale's zero: 0, or the log sentinel. -/
theorem C30_uniform {α : Type _} [DecidableEq α] (vset : List α) (hne : vset ≠ [])
    (ps : PSpec) (b : PScale) (hs : evalPscale ps = .ok b) (hb : Spec.Valid b)
    (hc : Spec.Unclamped (-Real.log vset.length) (.log 0 0) b) :
    ∃ p, defaultProb vset.length ps = .ok p ∧
      (∀ v ∈ vset, ∃ q, rvEvalProb (insideD vset) p ps v = .ok q ∧
        Spec.value b q = 1 / vset.length) ∧
      (∀ v, v ∉ vset → rvEvalProb (insideD vset) p ps v =
        .ok (if b.iscomplex then -npi else 0)) := by
  have hn : 1 ≤ vset.length := List.length_pos_of_ne_nil hne
  have hpos : (0 : ℝ) < vset.length := by exact_mod_cast hn
  obtain ⟨p, hp, hv⟩ := C01_rescale_value (-Real.log vset.length) (.str "log") ps (.log 0 0) b
    (by simp [evalPscale, complexZero]) hs trivial hb hc
  refine ⟨p, by rw [defaultProb, nlhv_eq _ hn]; exact hp, ?_, ?_⟩
  · intro v hmem
    refine ⟨p, by simp [rvEvalProb, hs, uniformProb, insideD, hmem, bind, Except.bind, pure,
      Except.pure], ?_⟩
    rw [hv]
    have : Spec.offset 0 0 = 0 := by simp [Spec.offset]
    simp [Spec.value, this, Real.exp_neg, Real.exp_log hpos]
  · intro v hmem
    simp only [rvEvalProb, hs, bind, Except.bind, pure, Except.pure, uniformProb, insideD,
      decide_eq_true_eq, if_neg hmem, pZero, nni]

/-- C30: the probabilities over the whole set, as evaluated on the array of all
members, denote numbers summing to one. -/
theorem C30_sums_to_one {α : Type _} [DecidableEq α] (vset : List α) (hne : vset ≠ [])
    (ps : PSpec) (b : PScale) (hs : evalPscale ps = .ok b) (hb : Spec.Valid b)
    (hc : Spec.Unclamped (-Real.log vset.length) (.log 0 0) b) :
    ∃ p qs, defaultProb vset.length ps = .ok p ∧
      rvEvalProbArr (insideD vset) p ps vset = .ok qs ∧
      (qs.map (Spec.value b)).sum = 1 := by
  have hpos : (vset.length : ℝ) ≠ 0 := by simpa using hne
  obtain ⟨p, hp, hin, _⟩ := C30_uniform vset hne ps b hs hb hc
  refine ⟨p, vset.map fun v => if insideD vset v then p else pZero b.iscomplex, hp, by
    simp [rvEvalProbArr, hs, uniformProbArr, bind, Except.bind, pure, Except.pure], ?_⟩
  have : (vset.map fun v => if insideD vset v then p else pZero b.iscomplex).map (Spec.value b)
      = List.replicate vset.length (1 / (vset.length : ℝ)) := by
    rw [List.map_map]
    apply List.eq_replicate_iff.mpr
    refine ⟨by simp, ?_⟩
    intro x hx
    obtain ⟨v, hv, rfl⟩ := List.mem_map.mp hx
    obtain ⟨q, hq, hval⟩ := hin v hv
    have hi : insideD vset v = true := by simp [insideD, hv]
    simp only [rvEvalProb, hs, uniformProb, hi, bind, Except.bind, pure, Except.pure, if_true] at hq
    obtain rfl := Except.ok.inj hq
    simp only [Function.comp, hi, if_true, hval]
  rw [this, List.sum_replicate, nsmul_eq_mul, mul_one_div, div_self hpos]

/-- C30: evaluating an array is evaluating every entry. -/
theorem C30_array_entrywise {α : Type _} (inside : α → Bool) (p : ℝ) (ps : PSpec) (vs : List α) :
    rvEvalProbArr inside p ps vs = vs.mapM (fun v => rvEvalProb inside p ps v) ∨
      Raises (rvEvalProbArr inside p ps vs) := by
  rcases hs : evalPscale ps with e | b
  · right; exact ⟨e, by simp [rvEvalProbArr, hs, bind, Except.bind]⟩
  · left
    have : ∀ v, rvEvalProb inside p ps v = .ok (uniformProb inside p b.iscomplex v) := by
      intro v; simp [rvEvalProb, hs, bind, Except.bind, pure, Except.pure]
    simp only [this]
    have hm : ∀ l : List α, l.mapM (fun v => (.ok (uniformProb inside p b.iscomplex v) : Py ℝ)) =
        .ok (l.map (uniformProb inside p b.iscomplex)) := by
      intro l
      induction l with
      | nil => rfl
      | cons a l ih => rw [List.mapM_cons, ih]; rfl
    rw [hm]
    simp [rvEvalProbArr, hs, uniformProbArr, uniformProb, bind, Except.bind, pure, Except.pure]

/-- Non-vacuity: three members, linear and log scale. -/
example : ∃ p qs, defaultProb [1, 2, 5].length .none = .ok p ∧
    rvEvalProbArr (insideD [1, 2, 5]) p .none [1, 2, 5] = .ok qs ∧
    (qs.map (Spec.value (.lin 1))).sum = 1 := by
  apply C30_sums_to_one [1, 2, 5] (by simp) .none (.lin 1) rfl (by norm_num [Spec.Valid])
  have h0 : Spec.offset 0 0 = 0 := by simp [Spec.offset]
  refine ⟨?_, Or.inl (by simp [h0])⟩
  have h1 : 0 ≤ Real.log ((([1, 2, 5] : List ℕ).length : ℕ) : ℝ) := Real.log_natCast_nonneg _
  have h2 := logNpi_pos
  unfold logNpi at h2
  simp only [h0, Real.log_one]; linarith
example : Spec.Unclamped (-Real.log ([1, 2, 5].length : ℕ)) (.log 0 0) (.log 0 0) := Or.inl rfl

/-! ### C56 scalar transitions -/

/-- C56: on linear scale the transition probability of a default transition is
the uniform probability for members and zero as soon as either value is outside. -/
theorem C56_linear {α : Type _} [DecidableEq α] (vset : List α) (p : ℝ) (pred succ : α) :
    rvEvalTranScalar (insideD vset) p pred succ =
      if pred ∈ vset ∧ succ ∈ vset then p else 0 := by
  unfold rvEvalTranScalar uniformProb insideD pZero
  by_cases h1 : pred ∈ vset <;> by_cases h2 : succ ∈ vset <;> simp [h1, h2]

/-- C56 full claim for log scale: a successor outside the set does not get a
larger probability than one inside. -/
def C56_log_claim : Prop :=
  ∀ (vset : List ℕ) (p : ℝ), vset ≠ [] → defaultProb vset.length (.str "log") = .ok p →
    ∀ pred ∈ vset, ∀ s ∈ vset, ∀ t, t ∉ vset →
      Spec.value (.log 0 0) (rvEvalTranScalar (insideD vset) p pred t) ≤
      Spec.value (.log 0 0) (rvEvalTranScalar (insideD vset) p pred s)

/-- C56 fails on log scale: an impossible successor gets log-probability 0. -/
theorem C56_log_claim_fails : ¬ C56_log_claim := by
  intro h
  have hp : defaultProb [0, 1].length (.str "log") = .ok (-Real.log 2) := by
    rw [defaultProb, nlhv_eq _ (by simp)]
    exact C01_rescale_same _ _ (.log 0 0) (by simp [evalPscale, complexZero])
  have := h [0, 1] _ (by simp) hp 0 (by simp) 1 (by simp) 2 (by simp)
  rw [C56_linear, C56_linear] at this
  have h0 : Spec.offset 0 0 = 0 := by simp [Spec.offset]
  simp [Spec.value, h0] at this
  have : (0:ℝ) < Real.log 2 := Real.log_pos (by norm_num)
  linarith

/-! ### C31 -/

/-- C31 full claim. -/
def C31_claim : Prop :=
  ∀ b : ℝ, 0 ≤ b → b ≤ 1 → boolProb b .none true = .ok b ∧ boolProb b .none false = .ok (1 - b)

/-- C31: holds for every bias that is not numerically close to a half, and for a
half itself; the two probabilities lie in [0,1] and sum to one. -/
theorem C31_partial (b : ℝ) (h0 : 0 ≤ b) (h1 : b ≤ 1)
    (h : b = 1/2 ∨ 501e-8 < |b - 1/2|) :
    boolProb b .none true = .ok b ∧ boolProb b .none false = .ok (1 - b) ∧
      0 ≤ b ∧ 0 ≤ 1 - b ∧ b + (1 - b) = 1 := by
  refine ⟨?_, ?_, h0, by linarith, by ring⟩
  · rcases h with rfl | h
    · simp [boolProb, isclose, rvEvalProb, evalPscale, uniformProb, bind, Except.bind, pure,
        Except.pure]
      norm_num
    · have : isclose b (1/2) = false := by
        simp only [isclose, decide_eq_false_iff_not, not_le]
        refine lt_of_le_of_lt ?_ h
        rw [abs_of_pos (by norm_num : (0:ℝ) < 1/2)]; norm_num
      simp only [boolProb, this, evalPscale, bernoulliProb, bind, Except.bind, pure, Except.pure,
        Bool.false_eq_true, if_false, if_true]
      congr 1; ring
  · rcases h with rfl | h
    · have : isclose (1/2) (1/2) = true := by simp [isclose]; norm_num
      simp only [boolProb, this, rvEvalProb, evalPscale, uniformProb, bind, Except.bind, pure,
        Except.pure, if_true]
      congr 1; ring
    · have : isclose b (1/2) = false := by
        simp only [isclose, decide_eq_false_iff_not, not_le]
        refine lt_of_le_of_lt ?_ h
        rw [abs_of_pos (by norm_num : (0:ℝ) < 1/2)]; norm_num
      simp only [boolProb, this, evalPscale, bernoulliProb, bind, Except.bind, pure, Except.pure,
        Bool.false_eq_true, if_false]
      congr 1; ring

/-- C31 fails for a bias close to a half: 0.500001 is assigned to both values, so
they sum to more than one. -/
theorem C31_claim_fails : ¬ C31_claim := by
  intro h
  obtain ⟨_, h2⟩ := h 0.500001 (by norm_num) (by norm_num)
  have : isclose 0.500001 (1/2) = true := by
    simp only [isclose, decide_eq_true_eq]
    rw [abs_of_pos (by norm_num), abs_of_pos (by norm_num)]; norm_num
  simp only [boolProb, this, rvEvalProb, evalPscale, uniformProb, bind, Except.bind, pure,
    Except.pure, if_true] at h2
  have := Except.ok.inj h2
  norm_num at this

/-- C31 fails on log scale: for every log-probability below zero the stored value
for False is above zero, i.e. denotes a probability above one. -/
theorem C31_log_scale_fails (b : ℝ) (h0 : 0 < b) (h1 : b < 1) :
    ∃ q, boolProb (Real.log b) (.str "log") false = .ok q ∧ 1 < Spec.value (.log 0 0) q := by
  have hl : Real.log b < 0 := Real.log_neg h0 h1
  have : isclose (Real.log b) (1/2) = false := by
    simp only [isclose, decide_eq_false_iff_not, not_le]
    rw [abs_of_neg (by linarith : Real.log b - 1 / 2 < 0), abs_of_pos (by norm_num : (0:ℝ) < 1/2)]
    have : (1e-8 + 1e-5 * (1/2) : ℝ) < 1/2 := by norm_num
    linarith
  refine ⟨1 - Real.log b, ?_, ?_⟩
  · simp only [boolProb, this, evalPscale, bernoulliProb, bind, Except.bind, pure, Except.pure,
      Bool.false_eq_true, if_false, true_or, if_true]
    congr 1; ring
  · have h0 : Spec.offset 0 0 = 0 := by simp [Spec.offset]
    simp only [Spec.value, h0, add_zero]
    rw [Real.one_lt_exp_iff]; linarith

/-- Non-vacuity. -/
example : boolProb 0.3 .none true = .ok 0.3 ∧ boolProb 0.3 .none false = .ok (1 - 0.3) := by
  have := C31_partial 0.3 (by norm_num) (by norm_num) (Or.inr (by
    rw [abs_of_neg (by norm_num)]; norm_num))
  exact ⟨this.1, this.2.1⟩

/-! ### C52 -/

theorem isGe_length {α : Type _} [LinearOrder α] : ∀ l : List α, (isGe l).length = l.length - 1
  | [] => rfl
  | [_] => rfl
  | x :: y :: l => by simp [isGe, isGe_length (y :: l)]

theorem isGe_all_true {α : Type _} [LinearOrder α] : ∀ l : List α,
    (∀ b ∈ isGe l, b = true) ↔ l.Pairwise (· ≤ ·)
  | [] => by simp [isGe]
  | [_] => by simp [isGe]
  | x :: y :: l => by
    have ih := isGe_all_true (y :: l)
    simp only [isGe, List.mem_cons, forall_eq_or_imp, decide_eq_true_eq]
    rw [ih, List.pairwise_cons (a := x)]
    constructor
    · rintro ⟨h1, h2⟩
      refine ⟨?_, h2⟩
      intro z hz
      rcases List.mem_cons.mp hz with rfl | hz
      · exact h1
      · exact le_trans h1 ((List.pairwise_cons.mp h2).1 z hz)
    · rintro ⟨h1, h2⟩
      exact ⟨h1 y (by simp), h2⟩

theorem isGe_all_false {α : Type _} [LinearOrder α] : ∀ l : List α,
    (∀ b ∈ isGe l, b = false) ↔ l.Pairwise (· > ·)
  | [] => by simp [isGe]
  | [_] => by simp [isGe]
  | x :: y :: l => by
    have ih := isGe_all_false (y :: l)
    simp only [isGe, List.mem_cons, forall_eq_or_imp, decide_eq_false_iff_not, not_le]
    rw [ih, List.pairwise_cons (a := x)]
    constructor
    · rintro ⟨h1, h2⟩
      refine ⟨?_, h2⟩
      intro z hz
      rcases List.mem_cons.mp hz with rfl | hz
      · exact h1
      · exact lt_trans ((List.pairwise_cons.mp h2).1 z hz) h1
    · rintro ⟨h1, h2⟩
      exact ⟨h1 y (by simp), h2⟩

theorem dedup_length_one (l : List Bool) :
    l.dedup.length = 1 ↔ l ≠ [] ∧ ((∀ b ∈ l, b = true) ∨ (∀ b ∈ l, b = false)) := by
  constructor
  · intro h
    obtain ⟨a, ha⟩ := List.length_eq_one_iff.mp h
    have hm : ∀ b, b ∈ l ↔ b = a := by
      intro b; rw [← List.mem_dedup, ha, List.mem_singleton]
    refine ⟨fun hl => by simp [hl] at ha, ?_⟩
    cases a
    · right; intro b hb; exact (hm b).mp hb
    · left; intro b hb; exact (hm b).mp hb
  · rintro ⟨hne, h⟩
    obtain ⟨a, ha⟩ : ∃ a, ∀ b ∈ l, b = a := by
      rcases h with h | h
      · exact ⟨_, h⟩
      · exact ⟨_, h⟩
    have : l = List.replicate l.length a := List.eq_replicate_iff.mpr ⟨rfl, ha⟩
    rw [this, List.replicate_dedup (by simpa using hne)]
    rfl

/-- C52 full claim. -/
def C52_claim : Prop :=
  ∀ l : List ℤ, ismonotonic l = true ↔ l.Pairwise (· ≤ ·) ∨ l.Pairwise (· ≥ ·)

/-- C52: the test holds exactly for arrays of at least two entries that are
non-decreasing or strictly decreasing. -/
theorem C52_characterisation {α : Type _} [LinearOrder α] (l : List α) :
    ismonotonic l = true ↔ 2 ≤ l.length ∧ (l.Pairwise (· ≤ ·) ∨ l.Pairwise (· > ·)) := by
  rw [ismonotonic, decide_eq_true_eq, dedup_length_one, isGe_all_true, isGe_all_false]
  have hl := isGe_length l
  constructor
  · rintro ⟨h1, h2⟩
    refine ⟨?_, h2⟩
    have := List.length_pos_of_ne_nil h1
    omega
  · rintro ⟨h1, h2⟩
    refine ⟨?_, h2⟩
    intro h
    rw [h] at hl; simp at hl; omega

/-- C52: it agrees with the intended meaning for sequences of at least two
distinct neighbours. -/
theorem C52_partial (l : List ℤ) (h2 : 2 ≤ l.length) (hd : l.Pairwise (· ≠ ·)) :
    ismonotonic l = true ↔ l.Pairwise (· ≤ ·) ∨ l.Pairwise (· ≥ ·) := by
  rw [C52_characterisation]
  constructor
  · rintro ⟨_, h | h⟩
    · exact Or.inl h
    · exact Or.inr (h.imp fun hab => le_of_lt hab)
  · rintro (h | h)
    · exact ⟨h2, Or.inl h⟩
    · refine ⟨h2, Or.inr ?_⟩
      exact (List.Pairwise.and h hd).imp fun ⟨a, b⟩ => lt_of_le_of_ne a (Ne.symm b)

/-- C52 fails for ties in a decreasing sequence (and for single entries). -/
theorem C52_claim_fails : ¬ C52_claim := by
  intro h
  have := (h [2, 1, 1]).mpr (Or.inr (by decide))
  exact absurd this (by decide)

theorem C52_single_fails {α : Type _} [LinearOrder α] (x : α) : ismonotonic [x] = false := by
  simp [ismonotonic, isGe]

/-! ### C32 -/

/-- Sum of the first `k` entries. -/
noncomputable def Spec.prefixSum (w : List ℝ) (k : ℕ) : ℝ := (w.take k).sum

theorem cumsumFrom_eq (acc : ℝ) (w : List ℝ) :
    cumsumFrom acc w = (List.range w.length).map fun k => acc + Spec.prefixSum w (k + 1) := by
  induction w generalizing acc with
  | nil => rfl
  | cons x w ih =>
    rw [cumsumFrom, ih, List.length_cons, List.range_succ_eq_map, List.map_cons, List.map_map]
    simp [Spec.prefixSum, Function.comp_def, add_assoc]

theorem cumsum_eq (w : List ℝ) :
    cumsum w = (List.range w.length).map fun k => Spec.prefixSum w (k + 1) := by
  simp [cumsum, cumsumFrom_eq]

theorem prefixSum_mono (w : List ℝ) (h : ∀ x ∈ w, 0 ≤ x) : Monotone (Spec.prefixSum w) := by
  apply monotone_nat_of_le_succ
  intro n
  unfold Spec.prefixSum
  by_cases hn : n < w.length
  · rw [List.take_succ_eq_append_getElem hn, List.sum_append]
    have := h w[n] (List.getElem_mem hn)
    simpa using this
  · rw [List.take_of_length_le (by omega), List.take_of_length_le (by omega)]

/-- Counting values below a threshold in a monotone sequence. -/
theorem countP_mono (f : ℕ → ℝ) (hf : Monotone f) (u : ℝ) (n k : ℕ) (hk : k ≤ n)
    (h1 : ∀ i < k, f i ≤ u) (h2 : k < n → u < f k) :
    ((List.range n).map f).countP (fun b => decide (b ≤ u)) = k := by
  induction n generalizing k with
  | zero => simp; omega
  | succ n ih =>
    rw [List.range_succ, List.map_append, List.countP_append]
    by_cases hkn : k = n + 1
    · subst hkn
      rw [ih n (le_refl _) (fun i hi => h1 i (by omega)) (fun h => absurd h (lt_irrefl _))]
      simp [h1 n (by omega)]
    · have hk' : k ≤ n := by omega
      rw [ih k hk' h1 (fun h => h2 (by omega))]
      have : u < f n := lt_of_lt_of_le (h2 (by omega)) (hf hk')
      simp [this]

theorem cumsum_sorted (w : List ℝ) (h : ∀ x ∈ w, 0 ≤ x) : (cumsum w).Pairwise (· ≤ ·) := by
  rw [cumsum_eq, List.pairwise_map]
  exact List.pairwise_lt_range.imp fun hab => prefixSum_mono w h (by omega)

theorem digitize_eq (w : List ℝ) (h : ∀ x ∈ w, 0 ≤ x) (u : ℝ) (k : ℕ) (hk : k < w.length)
    (hu : Spec.prefixSum w k ≤ u) (hu' : u < Spec.prefixSum w (k + 1)) :
    npDigitize u (cumsum w) = .ok k := by
  rw [npDigitize, if_pos (cumsum_sorted w h), cumsum_eq]
  have hm := prefixSum_mono w h
  congr 1
  exact countP_mono (fun i => Spec.prefixSum w (i + 1)) (fun a b hab => hm (by omega)) u _ k
    (by omega) (fun i hi => le_trans (hm (by omega)) hu) (fun _ => hu')

theorem exists_interval (w : List ℝ) (u : ℝ) (h0 : 0 ≤ u) (h1 : u < w.sum) :
    ∃ k, k < w.length ∧ Spec.prefixSum w k ≤ u ∧ u < Spec.prefixSum w (k + 1) := by
  by_contra hc
  push Not at hc
  have : ∀ k, k ≤ w.length → Spec.prefixSum w k ≤ u := by
    intro k
    induction k with
    | zero => intro _; simpa [Spec.prefixSum] using h0
    | succ k ih => intro hk; exact hc k (by omega) (ih (by omega))
  have := this w.length (le_refl _)
  rw [Spec.prefixSum, List.take_length] at this
  linarith

/-- The column of a matrix: one entry per row. -/
def Spec.IsColumn (m : List (List ℝ)) (j : ℕ) (w : List ℝ) : Prop :=
  w.length = m.length ∧ ∀ i (h : i < m.length), m[i][j]? = w[i]?

theorem mapM_column (m : List (List ℝ)) (j : ℕ) (w : List ℝ) (h : Spec.IsColumn m j w) :
    m.mapM (rowEntry j) = .ok w := by
  obtain ⟨hl, h⟩ := h
  induction m generalizing w with
  | nil => simp at hl; subst hl; rfl
  | cons r m ih =>
    rcases w with _ | ⟨x, w⟩
    · simp at hl
    rw [List.mapM_cons]
    have h0 := h 0 (by simp)
    simp only [List.getElem_cons_zero, List.getElem?_cons_zero] at h0
    rw [ih w (by simpa using hl) (fun i hi => by
      have := h (i + 1) (by simpa using hi)
      simpa using this)]
    simp [rowEntry, h0, bind, Except.bind, pure, Except.pure]

theorem indexOf_sorted {α : Type _} [DecidableEq α] (l : List α) (hn : l.Nodup) (j : ℕ)
    (hj : j < l.length) : indexOf l l[j] = .ok j := by
  have : l.findIdx? (fun w => decide (w = l[j])) = some j := by
    rw [List.findIdx?_eq_some_iff_getElem]
    refine ⟨hj, by simp, ?_⟩
    intro i hi
    simp only [decide_eq_true_eq]
    intro he
    have := (List.Nodup.getElem_inj_iff hn).mp he
    omega
  simp [indexOf, this]

/-- C32: for a square transition matrix over the variable's set whose column for
the predecessor is non-negative and sums to one, and any uniform draw in [0,1),
the sampled successor is the unique member whose cumulative interval contains
the draw. -/
theorem C32_inverse_cdf {α : Type _} [LinearOrder α] (vset : List α) (hset : vset.Nodup)
    (m : List (List ℝ)) (hsq : isSquare m = true) (hlen : vset.length = m.length)
    (j : ℕ) (hj : j < (vset.mergeSort (· ≤ ·)).length)
    (w : List ℝ) (hw : Spec.IsColumn m j w) (hpos : ∀ x ∈ w, 0 ≤ x) (hsum : w.sum = 1)
    (u : ℝ) (h0 : 0 ≤ u) (h1 : u < 1) :
    ∃ (k : ℕ) (hk : k < (vset.mergeSort (· ≤ ·)).length),
      matrixCondSample (vset.mergeSort (· ≤ ·))[j] (.int 0) m vset u =
        .ok ((vset.mergeSort (· ≤ ·))[k], j, k) ∧
      ∀ i, Spec.prefixSum w i ≤ u ∧ u < Spec.prefixSum w (i + 1) ↔ i = k := by
  have hsl : (vset.mergeSort (· ≤ ·)).length = m.length := by rw [List.length_mergeSort, hlen]
  obtain ⟨k, hk, hk1, hk2⟩ := exists_interval w u h0 (by rw [hsum]; exact h1)
  have hkm : k < m.length := by rw [← hw.1]; exact hk
  refine ⟨k, by rw [hsl]; exact hkm, ?_, ?_⟩
  · have hn : (vset.mergeSort (· ≤ ·)).Nodup := (List.mergeSort_perm _ _).nodup_iff.mpr hset
    have hd := digitize_eq w hpos u k hk hk1 hk2
    have hmin : max 0 (min (m.length - 1) k) = k := by omega
    have hget : (vset.mergeSort (· ≤ ·))[k]? = some ((vset.mergeSort (· ≤ ·))[k]'(by rw [hsl]; exact hkm)) :=
      List.getElem?_eq_getElem _
    simp only [matrixCondSample, hsq, Bool.not_true, Bool.false_eq_true, if_false, hlen, ne_eq,
      not_true_eq_false, indexOf_sorted _ hn j hj, mapM_column m j w hw, bind, Except.bind, hd,
      hmin, hget]
  · have hm := prefixSum_mono w hpos
    intro i
    constructor
    · rintro ⟨a, b⟩
      by_contra hne
      rcases lt_or_gt_of_ne hne with h | h
      · linarith [hm (show i + 1 ≤ k by omega)]
      · linarith [hm (show k + 1 ≤ i by omega)]
    · rintro rfl; exact ⟨hk1, hk2⟩

/-- C32: the set of draws selecting the k-th member has length equal to its
transition probability; so a member of zero probability is never selected. -/
theorem C32_volume {α : Type _} [LinearOrder α] (vset : List α) (hset : vset.Nodup)
    (m : List (List ℝ)) (hsq : isSquare m = true) (hlen : vset.length = m.length)
    (j : ℕ) (hj : j < (vset.mergeSort (· ≤ ·)).length)
    (w : List ℝ) (hw : Spec.IsColumn m j w) (hpos : ∀ x ∈ w, 0 ≤ x) (hsum : w.sum = 1)
    (k : ℕ) (hk : k < (vset.mergeSort (· ≤ ·)).length) (hkw : k < w.length) :
    MeasureTheory.volume {u : ℝ | 0 ≤ u ∧ u < 1 ∧
      ∃ ij, matrixCondSample (vset.mergeSort (· ≤ ·))[j] (.int 0) m vset u =
        .ok ((vset.mergeSort (· ≤ ·))[k], ij)} = ENNReal.ofReal w[k] ∧
    (w[k] = 0 → ∀ u : ℝ, 0 ≤ u → u < 1 → ∀ ij,
      matrixCondSample (vset.mergeSort (· ≤ ·))[j] (.int 0) m vset u ≠
        .ok ((vset.mergeSort (· ≤ ·))[k], ij)) := by
  have hm := prefixSum_mono w hpos
  have hn : (vset.mergeSort (· ≤ ·)).Nodup := (List.mergeSort_perm _ _).nodup_iff.mpr hset
  have h0 : ∀ k, 0 ≤ Spec.prefixSum w k := fun k => by
    have := hm (Nat.zero_le k); simpa [Spec.prefixSum] using this
  have h1 : ∀ k, Spec.prefixSum w k ≤ 1 := fun k => by
    rcases le_total k w.length with h | h
    · have := hm h
      rwa [show Spec.prefixSum w w.length = 1 by rw [Spec.prefixSum, List.take_length, hsum]] at this
    · rw [Spec.prefixSum, List.take_of_length_le h, hsum]
  have hstep : Spec.prefixSum w (k + 1) = Spec.prefixSum w k + w[k] := by
    unfold Spec.prefixSum
    rw [List.take_succ_eq_append_getElem hkw, List.sum_append]; simp
  have hset : {u : ℝ | 0 ≤ u ∧ u < 1 ∧
      ∃ ij, matrixCondSample (vset.mergeSort (· ≤ ·))[j] (.int 0) m vset u =
        .ok ((vset.mergeSort (· ≤ ·))[k], ij)} =
      Set.Ico (Spec.prefixSum w k) (Spec.prefixSum w (k + 1)) := by
    ext u
    simp only [Set.mem_setOf_eq, Set.mem_Ico]
    constructor
    · rintro ⟨a, b, ij, c⟩
      obtain ⟨k', hk', e1, e2⟩ := C32_inverse_cdf vset hset m hsq hlen j hj w hw hpos hsum u a b
      rw [e1] at c
      simp only [Except.ok.injEq, Prod.mk.injEq] at c
      have := (List.Nodup.getElem_inj_iff hn).mp c.1
      subst this
      exact (e2 k').mpr rfl
    · rintro ⟨a, b⟩
      refine ⟨le_trans (h0 k) a, lt_of_lt_of_le b (h1 _), ?_⟩
      obtain ⟨k', hk', e1, e2⟩ := C32_inverse_cdf vset hset m hsq hlen j hj w hw hpos hsum u
        (le_trans (h0 k) a) (lt_of_lt_of_le b (h1 _))
      obtain rfl := (e2 k).mp ⟨a, b⟩
      exact ⟨_, e1⟩
  constructor
  · rw [hset, Real.volume_Ico, hstep]; congr 1; ring
  · intro hz u a b ij c
    have : u ∈ {u : ℝ | 0 ≤ u ∧ u < 1 ∧
      ∃ ij, matrixCondSample (vset.mergeSort (· ≤ ·))[j] (.int 0) m vset u =
        .ok ((vset.mergeSort (· ≤ ·))[k], ij)} := ⟨a, b, ij, c⟩
    rw [hset, hstep, hz, add_zero] at this
    simp at this

/-- C32 for a non-negative column of any sum: a member other than the last is selected by
the draws in its interval, and the last one by all that are left. -/
theorem C32_any_sum {α : Type _} [LinearOrder α] (vset : List α) (hset : vset.Nodup)
    (m : List (List ℝ)) (hsq : isSquare m = true) (hlen : vset.length = m.length)
    (j : ℕ) (hj : j < (vset.mergeSort (· ≤ ·)).length)
    (w : List ℝ) (hw : Spec.IsColumn m j w) (hpos : ∀ x ∈ w, 0 ≤ x) (u : ℝ) (h0 : 0 ≤ u) :
    ∃ (k : ℕ) (hk : k < (vset.mergeSort (· ≤ ·)).length),
      matrixCondSample (vset.mergeSort (· ≤ ·))[j] (.int 0) m vset u =
        .ok ((vset.mergeSort (· ≤ ·))[k], j, k) ∧
      Spec.prefixSum w k ≤ u ∧ (k + 1 < vset.length → u < Spec.prefixSum w (k + 1)) := by
  have hsl : (vset.mergeSort (· ≤ ·)).length = m.length := by rw [List.length_mergeSort, hlen]
  have hn : (vset.mergeSort (· ≤ ·)).Nodup := (List.mergeSort_perm _ _).nodup_iff.mpr hset
  have hm := prefixSum_mono w hpos
  by_cases h1 : u < w.sum
  · obtain ⟨k, hk, hk1, hk2⟩ := exists_interval w u h0 h1
    have hkm : k < m.length := by rw [← hw.1]; exact hk
    refine ⟨k, by rw [hsl]; exact hkm, ?_, hk1, fun _ => hk2⟩
    have hmin : max 0 (min (m.length - 1) k) = k := by omega
    have hget : (vset.mergeSort (· ≤ ·))[k]? = some ((vset.mergeSort (· ≤ ·))[k]'(by rw [hsl]; exact hkm)) :=
      List.getElem?_eq_getElem _
    simp only [matrixCondSample, hsq, Bool.not_true, Bool.false_eq_true, if_false, hlen, ne_eq,
      not_true_eq_false, indexOf_sorted _ hn j hj, mapM_column m j w hw, bind, Except.bind,
      digitize_eq w hpos u k hk hk1 hk2, hmin, hget]
  · have hd : npDigitize u (cumsum w) = .ok w.length := by
      rw [npDigitize, if_pos (cumsum_sorted w hpos), cumsum_eq]
      congr 1
      rw [List.countP_eq_length.mpr]
      · simp
      · intro x hx
        obtain ⟨i, hi, rfl⟩ := List.mem_map.mp hx
        rw [List.mem_range] at hi
        have := hm (show i + 1 ≤ w.length by omega)
        rw [show Spec.prefixSum w w.length = w.sum by rw [Spec.prefixSum, List.take_length]] at this
        simpa using this.trans (not_lt.mp h1)
    have hjm : j < m.length := by rw [← hsl]; exact hj
    have hkm : m.length - 1 < m.length := by omega
    refine ⟨m.length - 1, by rw [hsl]; exact hkm, ?_, ?_, fun h => by omega⟩
    · have hmin : max 0 (min (m.length - 1) w.length) = m.length - 1 := by rw [hw.1]; omega
      have hget : (vset.mergeSort (· ≤ ·))[m.length - 1]? =
          some ((vset.mergeSort (· ≤ ·))[m.length - 1]'(by rw [hsl]; exact hkm)) :=
        List.getElem?_eq_getElem _
      simp only [matrixCondSample, hsq, Bool.not_true, Bool.false_eq_true, if_false, hlen, ne_eq,
        not_true_eq_false, indexOf_sorted _ hn j hj, mapM_column m j w hw, bind, Except.bind, hd, hmin, hget]
    · have := hm (show m.length - 1 ≤ w.length by rw [hw.1]; omega)
      rw [show Spec.prefixSum w w.length = w.sum by rw [Spec.prefixSum, List.take_length]] at this
      exact this.trans (not_lt.mp h1)

/-- C32 for a column of logarithms (none positive, and one after the first negative):
whatever the draw, the least member is selected. -/
theorem C32_logarithms {α : Type _} [LinearOrder α] (vset : List α) (hset : vset.Nodup)
    (m : List (List ℝ)) (hsq : isSquare m = true) (hlen : vset.length = m.length)
    (j : ℕ) (hj : j < (vset.mergeSort (· ≤ ·)).length)
    (w : List ℝ) (hw : Spec.IsColumn m j w) (hneg : ∀ x ∈ w, x ≤ 0) (hlt : ∃ x ∈ w.tail, x < 0)
    (u : ℝ) (h0 : 0 ≤ u) :
    matrixCondSample (vset.mergeSort (· ≤ ·))[j] (.int 0) m vset u =
      .ok ((vset.mergeSort (· ≤ ·))[0]'(by omega), j, 0) := by
  have hn : (vset.mergeSort (· ≤ ·)).Nodup := (List.mergeSort_perm _ _).nodup_iff.mpr hset
  have hanti : ∀ a b, a ≤ b → Spec.prefixSum w b ≤ Spec.prefixSum w a := by
    intro a b hab
    unfold Spec.prefixSum
    obtain ⟨c, rfl⟩ := Nat.exists_eq_add_of_le hab
    rw [List.take_add, List.sum_append]
    have : ((w.drop a).take c).sum ≤ 0 := by
      refine (List.sum_le_card_nsmul _ 0 fun x hx => ?_).trans (by simp)
      exact hneg x (List.drop_subset _ _ (List.take_subset _ _ hx))
    linarith
  have hdec : (cumsum w).Pairwise (· ≥ ·) := by
    rw [cumsum_eq, List.pairwise_map]
    exact List.pairwise_lt_range.imp fun hab => hanti _ _ (by omega)
  obtain ⟨x, hx, hx0⟩ := hlt
  obtain ⟨i, hi, rfl⟩ := List.getElem_of_mem hx
  have hi' : i + 1 < w.length := by rw [List.length_tail] at hi; omega
  have hni : ¬ (cumsum w).Pairwise (· ≤ ·) := by
    rw [cumsum_eq, List.pairwise_map]
    intro h
    have := List.pairwise_iff_getElem.mp h i (i + 1) (by simp; omega) (by simp; omega) (by omega)
    simp only [List.getElem_range] at this
    have hs : Spec.prefixSum w (i + 1 + 1) = Spec.prefixSum w (i + 1) + w[i + 1] := by
      unfold Spec.prefixSum
      rw [List.take_succ_eq_append_getElem hi', List.sum_append]; simp
    rw [List.getElem_tail] at hx0
    linarith
  have hd : npDigitize u (cumsum w) = .ok 0 := by
    rw [npDigitize, if_neg hni, if_pos hdec, cumsum_eq]
    congr 1
    rw [List.countP_eq_zero]
    intro x hx
    obtain ⟨i, hi, rfl⟩ := List.mem_map.mp hx
    have : Spec.prefixSum w (i + 1) ≤ 0 := by
      have := hanti 0 (i + 1) (by omega); simpa [Spec.prefixSum] using this
    simp only [decide_eq_true_eq, not_lt]
    linarith
  have hget : (vset.mergeSort (· ≤ ·))[0]? = some ((vset.mergeSort (· ≤ ·))[0]'(by omega)) :=
    List.getElem?_eq_getElem _
  have hmin : max 0 (min (m.length - 1) 0) = 0 := by omega
  simp only [matrixCondSample, hsq, Bool.not_true, Bool.false_eq_true, if_false, hlen, ne_eq,
    not_true_eq_false, indexOf_sorted _ hn j hj, mapM_column m j w hw, bind, Except.bind, hd, hmin, hget]

/-- C32 full claim about scales: a matrix of the logarithms of transition probabilities
selects each member with its probability. -/
def C32_log_claim : Prop :=
  ∀ (vset : List ℕ) (hset : vset.Nodup) (m : List (List ℝ)), isSquare m = true →
    vset.length = m.length → ∀ (j k : ℕ) (hj : j < (vset.mergeSort (· ≤ ·)).length)
    (hk : k < (vset.mergeSort (· ≤ ·)).length) (w : List ℝ) (_ : Spec.IsColumn m j w)
    (hkw : k < w.length), (w.map Real.exp).sum = 1 →
    MeasureTheory.volume {u : ℝ | 0 ≤ u ∧ u < 1 ∧
      ∃ ij, matrixCondSample (vset.mergeSort (· ≤ ·))[j] (.int 0) m vset u =
        .ok ((vset.mergeSort (· ≤ ·))[k], ij)} = ENNReal.ofReal (Real.exp w[k])

/-- The claim fails: the logarithms of two even chances always select the first member. -/
theorem C32_log_claim_fails : ¬ C32_log_claim := by
  intro h
  have hl : Real.log (1 / 2) < 0 := Real.log_neg (by norm_num) (by norm_num)
  have hs : ([0, 1] : List ℕ).mergeSort (· ≤ ·) = [0, 1] :=
    List.mergeSort_of_pairwise (by simp)
  have hm : Spec.IsColumn [[Real.log (1 / 2), Real.log (1 / 2)], [Real.log (1 / 2), Real.log (1 / 2)]] 0
      [Real.log (1 / 2), Real.log (1 / 2)] := by
    refine ⟨rfl, ?_⟩
    intro i hi
    rcases i with _ | _ | i
    · simp
    · simp
    · simp at hi
  have h1 := h [0, 1] (by simp) [[Real.log (1 / 2), Real.log (1 / 2)], [Real.log (1 / 2), Real.log (1 / 2)]]
    (by simp [isSquare]) rfl 0 1 (by simp) (by simp) [Real.log (1 / 2), Real.log (1 / 2)] hm (by simp)
    (by simp only [List.map_cons, List.map_nil, List.sum_cons, List.sum_nil]
        rw [Real.exp_log (by norm_num)]; norm_num)
  have he : {u : ℝ | 0 ≤ u ∧ u < 1 ∧
      ∃ ij, matrixCondSample (([0, 1] : List ℕ).mergeSort (· ≤ ·))[0] (.int 0)
        [[Real.log (1 / 2), Real.log (1 / 2)], [Real.log (1 / 2), Real.log (1 / 2)]] [0, 1] u =
        .ok ((([0, 1] : List ℕ).mergeSort (· ≤ ·))[1]'(by simp), ij)} = ∅ := by
    ext u
    simp only [Set.mem_setOf_eq, Set.mem_empty_iff_false, iff_false, not_and, not_exists]
    intro h0 _ ij hc
    have h2 := C32_logarithms ([0, 1] : List ℕ) (by simp) _ (by simp [isSquare]) rfl 0 (by simp) _ hm
      (fun x hx => by
        simp only [List.mem_cons, List.not_mem_nil, or_false, or_self] at hx; rw [hx]; exact hl.le)
      ⟨_, List.mem_singleton_self _, hl⟩ u h0
    rw [h2] at hc
    simp [hs] at hc
  rw [he] at h1
  simp only [MeasureTheory.measure_empty, List.getElem_cons_succ, List.getElem_cons_zero] at h1
  rw [Real.exp_log (by norm_num)] at h1
  have := ENNReal.ofReal_pos.mpr (show (0 : ℝ) < 1 / 2 by norm_num)
  rw [← h1] at this
  exact lt_irrefl _ this

/-- C32 full claim about requests: a successor can be sampled at a given
cumulative probability `{u}` as well. -/
def C32_request_claim : Prop :=
  ∀ (vset : List ℕ) (m : List (List ℝ)) (pred : ℕ) (u v : ℝ), vset.Nodup → isSquare m = true →
    vset.length = m.length → pred ∈ vset → (∀ r ∈ m, ∀ x ∈ r, 0 ≤ x) → 0 ≤ u → u < 1 →
    ∃ r, matrixCondSample pred (.flt u) m vset v = .ok r

/-- C32 fails for every request other than `{0}`: it raises. -/
theorem C32_request_raises {α : Type _} [LinearOrder α] (vset : List α) (m : List (List ℝ))
    (pred : α) (req : SuccReq) (v : ℝ) (h : req ≠ .int 0) :
    Raises (matrixCondSample pred req m vset v) := by
  unfold matrixCondSample
  split
  · exact ⟨_, rfl⟩
  split
  · exact ⟨_, rfl⟩
  simp only [bind, Except.bind]
  rcases indexOf (vset.mergeSort (· ≤ ·)) pred with e | p
  · exact ⟨_, rfl⟩
  simp only
  rcases m.mapM (rowEntry p) with e | col
  · exact ⟨_, rfl⟩
  simp only
  rcases npDigitize v (cumsum col) with e | i
  · exact ⟨_, rfl⟩
  simp only
  rcases req with n | v
  · rcases n with (_ | n) | n
    · exact absurd rfl h
    · exact ⟨_, rfl⟩
    · exact ⟨_, rfl⟩
  · exact ⟨_, rfl⟩

theorem C32_request_claim_fails : ¬ C32_request_claim := by
  intro h
  obtain ⟨r, hr⟩ := h [0] [[1]] 0 0 0 (by simp) (by simp [isSquare]) rfl (by simp) (by simp)
    (le_refl _) (by norm_num)
  obtain ⟨e, he⟩ := C32_request_raises [0] [[1]] 0 (.flt 0) 0 (by simp)
  rw [he] at hr
  simp at hr

/-! ### C33 -/

/-- The matrix entry at positions (row, column). -/
def Spec.entry (m : List (List ℝ)) (i j : ℕ) (x : ℝ) : Prop := ∃ r, m[i]? = some r ∧ r[j]? = some x

theorem matEntry_of_square (m : List (List ℝ)) (h : isSquare m = true) (i j : ℕ)
    (hi : i < m.length) (hj : j < m.length) : ∃ x, matEntry m i j = .ok x ∧ Spec.entry m i j x := by
  have hr : m[i].length = m.length := by
    have := List.all_eq_true.mp h m[i] (List.getElem_mem hi)
    simpa using this
  refine ⟨m[i][j], ?_, m[i], by simp [hi], by simp [hr, hj]⟩
  simp [matEntry, hi, hr, hj]

/-- C33 for scalars: with values at positions `i`, `j` of the ordered set, the
looked up probability of moving from the `j`-th to the `i`-th value is the entry
in row `i` and column `j`. -/
theorem C33_scalar {α : Type _} [LinearOrder α] (vset : List α) (hset : vset.Nodup)
    (m : List (List ℝ)) (hsq : isSquare m = true) (hlen : vset.length = m.length)
    (i j : ℕ) (hi : i < (vset.mergeSort (· ≤ ·)).length) (hj : j < (vset.mergeSort (· ≤ ·)).length) :
    ∃ x, lookupSquareMatrix (.scalar (vset.mergeSort (· ≤ ·))[j])
      (.scalar (vset.mergeSort (· ≤ ·))[i]) m vset = .ok (.scalar x) ∧ Spec.entry m i j x := by
  have hsl : (vset.mergeSort (· ≤ ·)).length = m.length := by rw [List.length_mergeSort, hlen]
  have hn : (vset.mergeSort (· ≤ ·)).Nodup := (List.mergeSort_perm _ _).nodup_iff.mpr hset
  obtain ⟨x, hx, he⟩ := matEntry_of_square m hsq i j (by omega) (by omega)
  refine ⟨x, ?_, he⟩
  simp only [lookupSquareMatrix, hsq, Bool.not_true, Bool.false_eq_true, if_false, hlen, ne_eq,
    not_true_eq_false, indexOf_sorted _ hn i hi, indexOf_sorted _ hn j hj, bind, Except.bind, hx,
    pure, Except.pure]

theorem mapM_ok {α β : Type _} (f : α → Py β) (g : α → β) (l : List α)
    (h : ∀ a ∈ l, f a = .ok (g a)) : l.mapM f = .ok (l.map g) := by
  induction l with
  | nil => rfl
  | cons a l ih =>
    rw [List.mapM_cons, h a (by simp), ih (fun b hb => h b (by simp [hb]))]
    rfl

theorem mapM_index {α : Type _} [DecidableEq α] (l : List α) (hn : l.Nodup) (js : List ℕ)
    (hj : ∀ j ∈ js, j < l.length) (vs : List α) (hv : vs.map some = js.map (l[·]?)) :
    vs.mapM (indexOf l) = .ok js := by
  induction js generalizing vs with
  | nil => simp at hv; subst hv; rfl
  | cons j js ih =>
    rcases vs with _ | ⟨v, vs⟩
    · simp at hv
    simp only [List.map_cons, List.cons.injEq] at hv
    have hjl := hj j (by simp)
    have : v = l[j] := by
      have := hv.1
      rw [List.getElem?_eq_getElem hjl] at this
      exact Option.some.inj this
    rw [List.mapM_cons, this, indexOf_sorted l hn j hjl, ih (fun j hj' => hj j (by simp [hj'])) vs hv.2]
    rfl

theorem matEntry_mapM (m : List (List ℝ)) (hsq : isSquare m = true) (i : ℕ) (hi : i < m.length)
    (js : List ℕ) (hj : ∀ j ∈ js, j < m.length) :
    ∃ xs, js.mapM (fun j => matEntry m i j) = .ok xs ∧ List.Forall₂ (Spec.entry m i) js xs := by
  induction js with
  | nil => exact ⟨[], rfl, .nil⟩
  | cons j js ih =>
    obtain ⟨x, hx, he⟩ := matEntry_of_square m hsq i j hi (hj j (by simp))
    obtain ⟨xs, hxs, hes⟩ := ih (fun j hj' => hj j (by simp [hj']))
    exact ⟨x :: xs, by rw [List.mapM_cons, hx, hxs]; rfl, .cons he hes⟩

theorem matEntry_mapM' (m : List (List ℝ)) (hsq : isSquare m = true) (j : ℕ) (hj : j < m.length)
    (is : List ℕ) (hi : ∀ i ∈ is, i < m.length) :
    ∃ xs, is.mapM (fun i => matEntry m i j) = .ok xs ∧
      List.Forall₂ (fun i x => Spec.entry m i j x) is xs := by
  induction is with
  | nil => exact ⟨[], rfl, .nil⟩
  | cons i is ih =>
    obtain ⟨x, hx, he⟩ := matEntry_of_square m hsq i j (hi i (by simp)) hj
    obtain ⟨xs, hxs, hes⟩ := ih (fun j hj' => hi j (by simp [hj']))
    exact ⟨x :: xs, by rw [List.mapM_cons, hx, hxs]; rfl, .cons he hes⟩

/-- C33 for arrays: row `i` and column `j` of the result belong to the i-th
successor and j-th predecessor value, whatever the arrays (any length, repeated
or unordered values). -/
theorem C33_arrays {α : Type _} [LinearOrder α] (vset : List α) (hset : vset.Nodup)
    (m : List (List ℝ)) (hsq : isSquare m = true) (hlen : vset.length = m.length)
    (is js : List ℕ) (hi : ∀ i ∈ is, i < (vset.mergeSort (· ≤ ·)).length)
    (hj : ∀ j ∈ js, j < (vset.mergeSort (· ≤ ·)).length) (succ pred : List α)
    (hs : succ.map some = is.map ((vset.mergeSort (· ≤ ·))[·]?))
    (hp : pred.map some = js.map ((vset.mergeSort (· ≤ ·))[·]?)) :
    ∃ xss, lookupSquareMatrix (.array pred) (.array succ) m vset = .ok (.mat xss) ∧
      List.Forall₂ (fun i xs => List.Forall₂ (Spec.entry m i) js xs) is xss := by
  have hsl : (vset.mergeSort (· ≤ ·)).length = m.length := by rw [List.length_mergeSort, hlen]
  have hn : (vset.mergeSort (· ≤ ·)).Nodup := (List.mergeSort_perm _ _).nodup_iff.mpr hset
  have key : ∀ is : List ℕ, (∀ i ∈ is, i < m.length) →
      ∃ xss, is.mapM (fun i => js.mapM (fun j => matEntry m i j)) = .ok xss ∧
        List.Forall₂ (fun i xs => List.Forall₂ (Spec.entry m i) js xs) is xss := by
    intro is
    induction is with
    | nil => intro _; exact ⟨[], rfl, .nil⟩
    | cons i is ih =>
      intro hi
      obtain ⟨xs, hx, he⟩ := matEntry_mapM m hsq i (hi i (by simp)) js (fun j h => by
        rw [← hsl]; exact hj j h)
      obtain ⟨xss, hxs, hes⟩ := ih (fun j hj' => hi j (by simp [hj']))
      exact ⟨xs :: xss, by rw [List.mapM_cons, hx, hxs]; rfl, .cons he hes⟩
  obtain ⟨xss, h1, h2⟩ := key is (fun i h => by rw [← hsl]; exact hi i h)
  refine ⟨xss, ?_, h2⟩
  simp only [lookupSquareMatrix, hsq, Bool.not_true, Bool.false_eq_true, if_false, hlen, ne_eq,
    not_true_eq_false, mapM_index _ hn is hi succ hs, mapM_index _ hn js hj pred hp, bind,
    Except.bind, h1, pure, Except.pure]

/-- C33 for a scalar predecessor and an array of successors, and vice versa. -/
theorem C33_mixed {α : Type _} [LinearOrder α] (vset : List α) (hset : vset.Nodup)
    (m : List (List ℝ)) (hsq : isSquare m = true) (hlen : vset.length = m.length)
    (is : List ℕ) (j : ℕ) (hi : ∀ i ∈ is, i < (vset.mergeSort (· ≤ ·)).length)
    (hj : j < (vset.mergeSort (· ≤ ·)).length) (vs : List α)
    (hs : vs.map some = is.map ((vset.mergeSort (· ≤ ·))[·]?)) :
    (∃ xs, lookupSquareMatrix (.scalar (vset.mergeSort (· ≤ ·))[j]) (.array vs) m vset =
      .ok (.vec xs) ∧ List.Forall₂ (fun i x => Spec.entry m i j x) is xs) ∧
    (∃ xs, lookupSquareMatrix (.array vs) (.scalar (vset.mergeSort (· ≤ ·))[j]) m vset =
      .ok (.vec xs) ∧ List.Forall₂ (Spec.entry m j) is xs) := by
  have hsl : (vset.mergeSort (· ≤ ·)).length = m.length := by rw [List.length_mergeSort, hlen]
  have hn : (vset.mergeSort (· ≤ ·)).Nodup := (List.mergeSort_perm _ _).nodup_iff.mpr hset
  have hi' : ∀ i ∈ is, i < m.length := fun i h => by rw [← hsl]; exact hi i h
  constructor
  · obtain ⟨xs, h1, h2⟩ := matEntry_mapM' m hsq j (by omega) is hi'
    refine ⟨xs, ?_, h2⟩
    simp only [lookupSquareMatrix, hsq, Bool.not_true, Bool.false_eq_true, if_false, hlen, ne_eq,
      not_true_eq_false, mapM_index _ hn is hi vs hs, indexOf_sorted _ hn j hj, bind,
      Except.bind, h1, pure, Except.pure]
  · obtain ⟨xs, h1, h2⟩ := matEntry_mapM m hsq j (by omega) is hi'
    refine ⟨xs, ?_, h2⟩
    simp only [lookupSquareMatrix, hsq, Bool.not_true, Bool.false_eq_true, if_false, hlen, ne_eq,
      not_true_eq_false, mapM_index _ hn is hi vs hs, indexOf_sorted _ hn j hj, bind,
      Except.bind, h1, pure, Except.pure]

/-- C33: values outside the set are refused. -/
theorem C33_outside_refused {α : Type _} [LinearOrder α] (vset : List α) (m : List (List ℝ))
    (r c : α) (h : r ∉ vset ∨ c ∉ vset) :
    Raises (lookupSquareMatrix (.scalar c) (.scalar r) m vset) := by
  have hx : ∀ v, v ∉ vset → indexOf (vset.mergeSort (· ≤ ·)) v = .error .value := by
    intro v hv
    have : (vset.mergeSort (· ≤ ·)).findIdx? (fun w => decide (w = v)) = none := by
      rw [List.findIdx?_eq_none_iff]
      intro x hx
      have := (List.mergeSort_perm vset (· ≤ ·)).mem_iff.mp hx
      simp; rintro rfl; exact hv this
    simp [indexOf, this]
  unfold lookupSquareMatrix
  split
  · exact ⟨_, rfl⟩
  split
  · exact ⟨_, rfl⟩
  simp only [bind, Except.bind]
  rcases h with h | h
  · simp [hx r h, Raises]
  · split
    · exact ⟨_, rfl⟩
    · simp [hx c h, Raises]

/-- C33 full claim for sets declared as an unordered list: positions are those of
the declared list (the order in which `evaluate()` returns the values). -/
def C33_declared_order_claim : Prop :=
  ∀ (vset : List ℕ) (m : List (List ℝ)), vset.Nodup → isSquare m = true →
    vset.length = m.length → ∀ i j (hi : i < vset.length) (hj : j < vset.length),
      ∃ x, lookupSquareMatrix (.scalar vset[j]) (.scalar vset[i]) m vset = .ok (.scalar x) ∧
        Spec.entry m i j x

/-- C33 fails for the declared order of a list: positions are in sorted order. -/
theorem C33_declared_order_claim_fails : ¬ C33_declared_order_claim := by
  intro h
  obtain ⟨x, hx, r, h1, h2⟩ := h ([2, 1] : List ℕ) [[0, 0], [0, 1]] (by decide) (by simp [isSquare]) rfl 0 0
    (by simp) (by simp)
  have h3 := C33_scalar ([2, 1] : List ℕ) (by decide) [[0, 0], [0, 1]] (by simp [isSquare]) rfl 1 1
    (by simp) (by simp)
  obtain ⟨y, hy, r', h4, h5⟩ := h3
  have hs : ([2, 1] : List ℕ).mergeSort (· ≤ ·) = [1, 2] := by simp [List.mergeSort, List.MergeSort.Internal.splitInTwo, List.merge]
  simp only [hs] at hy
  simp at h1 h4
  subst h1 h4
  simp at h2 h5
  subst h2 h5
  simp only [List.getElem_cons_zero, List.getElem_cons_succ] at hx hy
  rw [hx] at hy
  simp at hy

/-- Non-vacuity. -/
theorem sort_example : ([5, 3] : List ℕ).mergeSort (· ≤ ·) = [3, 5] := by
  simp [List.mergeSort, List.MergeSort.Internal.splitInTwo, List.merge]
example : ∃ x, lookupSquareMatrix (.scalar 5) (.scalar 3) [[0.25, 0.5], [0.75, 0.5]] [5, 3] =
    .ok (.scalar x) ∧ Spec.entry [[0.25, 0.5], [0.75, 0.5]] 0 1 x := by
  have h := C33_scalar ([5, 3] : List ℕ) (by decide) [[0.25, 0.5], [0.75, 0.5]]
    (by simp [isSquare]) rfl 0 1 (by simp) (by simp)
  simp only [sort_example] at h
  exact h
example : ∃ (k : ℕ) (hk : k < [3, 5].length),
    matrixCondSample 3 (.int 0) [[0.25, 0.5], [0.75, 0.5]] [5, 3] 0.3 =
      .ok ([3, 5][k], 0, k) ∧
      ∀ i, Spec.prefixSum [0.25, 0.75] i ≤ 0.3 ∧ 0.3 < Spec.prefixSum [0.25, 0.75] (i + 1) ↔
        i = k := by
  have h := C32_inverse_cdf ([5, 3] : List ℕ) (by decide) [[0.25, 0.5], [0.75, 0.5]]
    (by simp [isSquare]) rfl 0 (by simp) [0.25, 0.75]
    ⟨rfl, fun i hi => by
      simp at hi
      have : i = 0 ∨ i = 1 := by omega
      rcases this with rfl | rfl <;> simp⟩
    (by intro x hx; simp at hx; rcases hx with rfl | rfl <;> norm_num) (by norm_num) 0.3
    (by norm_num) (by norm_num)
  simp only [sort_example] at h
  exact h

end Probayes
