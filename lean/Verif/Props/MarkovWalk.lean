/-
C88: processes that propose by the transition matrix of their variable and are judged by the
rules of Metropolis and of Hastings.
-/
import Verif.Props.MarkovLimit
import Verif.Props.Walk

namespace Probayes

open MeasureTheory Topology

variable {n : ℕ} {fmt : Val → Str} {F : RField} {v : Probayes.Drawn} {val : Fin n → ℚ} {M : Matrix (Fin n) (Fin n) ℝ}
  {p : Fin n → ℝ} {arrays : Dict Str Val → Py Arr} {start : Dict Str Req} {hastings : Bool} {ps : PSpec}

/-! ### Specification -/

/-- The process is at the `i`-th value: it has its distribution, and has moved there. -/
structure Spec.IsAt (name : Str) (val : Fin n → ℚ) (p : Fin n → ℝ) (l : OPQR PD) (i : Fin n) : Prop where
  prob : ∃ e, l.p = some e ∧ Spec.One name e (val i) (p i)
  prop : ∃ d x q, l.q = some d ∧ Spec.OneGiven name d (val i) x q

open Classical in
/-- The probability that the process, last in the state `l` (none before the first sample), is
at the value `z` after `k` further samples, all draws being independent and uniform. -/
noncomputable def Spec.reached (P : Proc Unit PD MDraw) (name : Str) :
    ℕ → Option (OPQR PD) → ℚ → ENNReal
  | 0, l, z => if (l.bind OPQR.p).bind (fun e => e.values name) = some (.scalar z) then 1 else 0
  | k + 1, l, z => Spec.mean fun u => Spec.mean fun t =>
      Spec.reached P name k (nextCore P l ⟨⟨0, [], u⟩, t⟩ ()).2.1 z

/-- Moves proposed by `M` and accepted with the ratio of the probabilities, capped at one;
`(i, j)` is for moves to `i` from `j`. -/
noncomputable def Spec.judged (M : Matrix (Fin n) (Fin n) ℝ) (p : Fin n → ℝ) : Matrix (Fin n) (Fin n) ℝ :=
  Matrix.of fun j i => Spec.kernel (fun x y => M y x) (fun x y => Spec.ratio (p x) (p y)) i j

/-! ### One sample -/

theorem sa_one {name : Str} {e : PD} {x : ℚ} {q : ℝ} (h : Spec.One name e x q) : e.sa = .scalar q := by
  rw [PD.sa, if_pos h.shape, h.prob]

theorem sa_given {name : Str} {d : PD} {y x : ℚ} {q : ℝ} (h : Spec.OneGiven name d y x q) : d.sa = .scalar q := by
  rw [PD.sa, if_pos h.shape, h.prob]

/-- Both rules give the ratio of the probabilities. -/
theorem walk_score (hs : evalPscale ps = .ok (.lin 1)) {name : Str} {e0 e1 d : PD} {x0 x1 y x : ℚ} {w0 w1 q : ℝ}
    (h0 : Spec.One name e0 x0 w0) (h1 : Spec.One name e1 x1 w1) (hd : Spec.OneGiven name d y x q) (hq : 0 < q) :
    (if hastings then hastingsScores PD.sa ⟨some e0, some e1, some d, none⟩ ps
      else metropolisScores PD.sa ⟨some e0, some e1, some d, none⟩ ps) = .ok (some (Spec.ratio w0 w1)) := by
  obtain ⟨z, hz, hv⟩ := C06_divProb_value w1 w0 ps ps (.flt 1) (.lin 1) (.lin 1) (.lin 1) hs hs
    (by simp [evalPscale]) (by simp [PSpec.truthy]) one_pos one_pos one_pos trivial trivial trivial
  simp only [Spec.value, one_mul] at hv
  have hr : rescale q ps (.flt 1) = .ok q := by
    have h1 : evalPscale (.flt 1) = .ok (.lin 1) := by simp [evalPscale]
    simp [rescale, hs, h1, bind, Except.bind, pure, Except.pure, rescaleE]
  cases hastings
  · simp [metropolisScores, sa_one h0, sa_one h1, hz, bind, Except.bind, pure, Except.pure, hv, Spec.ratio]
  · simp [hastingsScores, sa_one h0, sa_one h1, sa_given hd, hr, not_le.mpr hq, hz, bind, Except.bind, pure, Except.pure,
      hv, Spec.ratio]

theorem falls_pos {i j : Fin n} {u : ℝ} (h : Spec.Falls M i j u) : 0 < M j i := by
  obtain ⟨h1, h2⟩ := h
  rw [Iic_eq] at h2
  linarith

/-- C88: the first sample is the move that is proposed. -/
theorem C88_first (H : Spec.MarkovField fmt F v val M p) (hM : Spec.Stochastic M)
    (i : Fin n) (ω : MDraw) (h0 : 0 ≤ ω.w.u) (h1 : ω.w.u < 1) :
    ∃ j l smp, nextCore (matrixWalk fmt F arrays [(v.name, .scalar (val i))] hastings ps) none ω () =
        ((), some l, .ok (.sample smp)) ∧ Spec.Falls M i j ω.w.u ∧ Spec.IsAt v.name val p l j ∧ smp.v = l.p ∧
        smp.q = l.q := by
  have hreq : Spec.request [(v.name, Req.scalar (val i))] v.name = .scalar (val i) := by
    simp [Spec.request, Dict.get?]
  obtain ⟨d, j, g1, g0, g2, g3⟩ := markov_step (arrays := arrays) H hM i hreq ω.w h0 h1
  obtain ⟨e, e1, e0, e2⟩ := markov_call H j
  have hcall : (matrixOps fmt F arrays [(v.name, .scalar (val i))]).call d ω = .ok e := by
    simp only [matrixOps, succReqs_one H g2, bind, Except.bind]
    exact e1
  have hstep : (matrixOps fmt F arrays [(v.name, .scalar (val i))]).stepArg ω () = ((), .ok d) := by
    simp only [matrixOps, g1]
  have hsc : (if hastings then hastingsScores PD.sa ⟨none, some e, some d, none⟩ ps
      else metropolisScores PD.sa ⟨none, some e, some d, none⟩ ps) = .ok none := by
    cases hastings
    · simp [metropolisScores, sa_one e2]
    · simp [hastingsScores, sa_one e2]
  refine ⟨j, ⟨none, some e, some d, none⟩, ⟨none, some e, some d, none, none, some ω.t, some true, some e⟩, ?_, g3,
    ⟨⟨e, rfl, e2⟩, d, _, _, rfl, g2⟩, rfl, rfl⟩
  have hsmp : sampleTran (matrixOps fmt F arrays [(v.name, .scalar (val i))]) none ω () =
      ((), .ok ⟨none, some e, some d, none⟩) := by
    have hr : (matrixOps fmt F arrays [(v.name, .scalar (val i))]).reval = none := rfl
    simp only [sampleTran, hstep, sampleFinish, hr, hcall, bind, Except.bind, pure, Except.pure]
  simp only [nextCore, matrixWalk, Bool.false_eq_true, if_false, hsmp, bind,
    Except.bind, pure, Except.pure, judge, evalScores, evalUpdate, hsc, walkUpdate, metropolisUpdate]
  rfl

/-- C88: afterwards the draw proposes a value by the column of the present one, and the
process moves there if the threshold is at most the ratio of the probabilities and stays
otherwise; the verdict of the sample is the distribution of the value where it then is. -/
theorem C88_step (H : Spec.MarkovField fmt F v val M p) (hM : Spec.Stochastic M) (hs : evalPscale ps = .ok (.lin 1))
    (i : Fin n) {l : OPQR PD} (hl : Spec.IsAt v.name val p l i) (ω : MDraw) (h0 : 0 ≤ ω.w.u) (h1 : ω.w.u < 1) :
    ∃ j l' smp, nextCore (matrixWalk fmt F arrays start hastings ps) (some l) ω () =
        ((), some l', .ok (.sample smp)) ∧ Spec.Falls M i j ω.w.u ∧ smp.v = l'.p ∧
      (∃ d, smp.q = some d ∧ Spec.OneGiven v.name d (val j) (val i) (M j i)) ∧
      (ω.t ≤ Spec.ratio (p i) (p j) → Spec.IsAt v.name val p l' j ∧ smp.u = some true) ∧
      (¬ ω.t ≤ Spec.ratio (p i) (p j) → l' = l ∧ smp.u = none) := by
  obtain ⟨⟨e', hp, he'⟩, d', x', q', hq, hd'⟩ := hl
  have hreq : Spec.request [(v.name, Req.scalar (val i))] v.name = .scalar (val i) := by
    simp [Spec.request, Dict.get?]
  obtain ⟨d, j, g1, g0, g2, g3⟩ := markov_step (arrays := arrays) H hM i hreq ω.w h0 h1
  obtain ⟨e, e1, e0, e2⟩ := markov_call H j
  have hcall : (matrixOps fmt F arrays start).call d ω = .ok e := by
    simp only [matrixOps, succReqs_one H g2, bind, Except.bind]
    exact e1
  have hstep : (matrixOps fmt F arrays start).stepFrom d' ω () = ((), .ok d) := by
    simp only [matrixOps, succReqs_one H hd', bind, Except.bind, g1]
  have hsc := walk_score (hastings := hastings) hs he' e2 g2 (falls_pos g3)
  have hsmp : sampleTran (matrixOps fmt F arrays start) (some l) ω () =
      ((), .ok ⟨some e', some e, some d, none⟩) := by
    have hr : (matrixOps fmt F arrays start).reval = none := rfl
    simp only [sampleTran, hq, hp, hstep, sampleFinish, hr, hcall, bind, Except.bind, pure, Except.pure]
  by_cases ht : ω.t ≤ Spec.ratio (p i) (p j)
  · refine ⟨j, ⟨some e', some e, some d, none⟩,
      ⟨some e', some e, some d, none, some (Spec.ratio (p i) (p j)), some ω.t, some true, some e⟩, ?_, g3, rfl,
      ⟨d, rfl, g2⟩, fun _ => ⟨⟨⟨e, rfl, e2⟩, d, _, _, rfl, g2⟩, rfl⟩, fun h => absurd ht h⟩
    simp [nextCore, matrixWalk, hsmp, bind, Except.bind, pure, Except.pure, judge, evalScores, evalUpdate, hsc,
      walkUpdate, metropolisUpdate, ht]
  · refine ⟨j, l,
      ⟨some e', some e, some d, none, some (Spec.ratio (p i) (p j)), some ω.t, none, some e'⟩, ?_, g3, hp.symm,
      ⟨d, rfl, g2⟩, fun h => absurd h ht, fun _ => ⟨rfl, rfl⟩⟩
    simp [nextCore, matrixWalk, hsmp, bind, Except.bind, pure, Except.pure, judge, evalScores, evalUpdate, hsc,
      walkUpdate, metropolisUpdate, ht]

/-! ### Laws -/

theorem falls_exists (hM : Spec.Stochastic M) (i : Fin n) {u : ℝ} (hu : u ∈ Set.Ico (0 : ℝ) 1) :
    ∃ j, Spec.Falls M i j u := by
  by_contra hno
  simp only [Spec.Falls, not_exists, not_and, not_lt] at hno
  have key : ∀ k : ℕ, ∀ hk : k ≤ n, ∑ z ∈ Finset.univ.filter (fun z : Fin n => (z : ℕ) < k), M z i ≤ u := by
    intro k
    induction k with
    | zero => intro _; simpa using hu.1
    | succ k ih =>
      intro hk
      have h1 := ih (by omega)
      have e1 : (Finset.univ.filter fun z : Fin n => (z : ℕ) < k) = Finset.Iio ⟨k, by omega⟩ := by
        ext z
        simp only [Finset.mem_filter, Finset.mem_univ, true_and, Finset.mem_Iio, Fin.lt_def]
      have e2 : (Finset.univ.filter fun z : Fin n => (z : ℕ) < k + 1) = Finset.Iic ⟨k, by omega⟩ := by
        ext z
        simp only [Finset.mem_filter, Finset.mem_univ, true_and, Finset.mem_Iic, Fin.le_def]
        omega
      rw [e1] at h1
      rw [e2]
      exact hno _ h1
  have := key n le_rfl
  have e : (Finset.univ.filter fun z : Fin n => (z : ℕ) < n) = Finset.univ := by
    ext z
    simp
  rw [e, hM.sum i] at this
  linarith [hu.2]

/-- The mean over the draws of a value decided on by them. -/
theorem mean_falls (hM : Spec.Stochastic M) (i : Fin n) (g : ℝ → ENNReal) (c : Fin n → ENNReal)
    (h : ∀ j u, Spec.Falls M i j u → g u = c j) : Spec.mean g = ∑ j, ENNReal.ofReal (M j i) * c j := by
  have hset : Set.Ico (0 : ℝ) 1 = ⋃ j ∈ (Finset.univ : Finset (Fin n)), {u | Spec.Falls M i j u} := by
    ext u
    simp only [Set.mem_iUnion, Finset.mem_univ, exists_true_left, Set.mem_setOf_eq]
    exact ⟨fun hu => falls_exists hM i hu, fun ⟨j, hj⟩ => falls_mem hM hj⟩
  have hico : ∀ j, {u | Spec.Falls M i j u} = Set.Ico (∑ z ∈ Finset.Iio j, M z i) (∑ z ∈ Finset.Iic j, M z i) :=
    fun j => rfl
  rw [Spec.mean, hset, lintegral_biUnion_finset]
  · refine Finset.sum_congr rfl fun j _ => ?_
    have hms : MeasurableSet {u | Spec.Falls M i j u} := by rw [hico]; exact measurableSet_Ico
    have hg : ∀ u ∈ {u | Spec.Falls M i j u}, g u = (fun _ => c j) u := fun u hu => h j u hu
    rw [setLIntegral_congr_fun hms hg, setLIntegral_const, hico, Real.volume_Ico, Iic_eq, add_sub_cancel_left, mul_comm]
  · intro j _ j' _ hne
    rw [Function.onFun, Set.disjoint_left]
    intro u hu hu'
    exact hne (falls_unique hM hu hu')
  · intro j _
    rw [hico]; exact measurableSet_Ico

theorem ratio_range (hp : ∀ i, 0 ≤ p i) (i j : Fin n) : 0 ≤ Spec.ratio (p i) (p j) ∧ Spec.ratio (p i) (p j) ≤ 1 :=
  ratio_bounds _ _ (hp j)

/-- What becomes of the column `i` of a matrix. -/
theorem judged_apply (hM : Spec.Stochastic M) (c : Fin n → ℝ) (i : Fin n) :
    ∑ j, c j * Spec.judged M p j i =
      ∑ j, M j i * (Spec.ratio (p i) (p j) * c j + (1 - Spec.ratio (p i) (p j)) * c i) := by
  have e1 : ∀ j, Spec.judged M p j i = M j i * Spec.ratio (p i) (p j) +
      if j = i then 1 - ∑ z, M z i * Spec.ratio (p i) (p z) else 0 := by
    intro j
    simp only [Spec.judged, Matrix.of_apply, Spec.kernel]
    by_cases h : j = i
    · subst h
      rw [if_pos rfl, if_pos rfl, ← Finset.add_sum_erase _ (fun z => M z j * Spec.ratio (p j) (p z)) (Finset.mem_univ j)]
      ring
    · rw [if_neg (Ne.symm h), if_neg h, add_zero]
  have e2 : ∑ j, M j i * (Spec.ratio (p i) (p j) * c j + (1 - Spec.ratio (p i) (p j)) * c i) =
      ∑ j, M j i * Spec.ratio (p i) (p j) * c j + (1 - ∑ z, M z i * Spec.ratio (p i) (p z)) * c i := by
    have e3 : (1 : ℝ) - ∑ z, M z i * Spec.ratio (p i) (p z) = ∑ z, M z i * (1 - Spec.ratio (p i) (p z)) := by
      simp only [mul_sub, mul_one, Finset.sum_sub_distrib, hM.sum i]
    rw [e3, Finset.sum_mul, ← Finset.sum_add_distrib]
    exact Finset.sum_congr rfl fun j _ => by ring
  rw [e2]
  simp only [e1, mul_add, Finset.sum_add_distrib, mul_ite, mul_zero, Finset.sum_ite_eq', Finset.mem_univ, if_true]
  congr 1
  · exact Finset.sum_congr rfl fun j _ => by ring
  · ring

theorem judged_stochastic (hM : Spec.Stochastic M) (hp : ∀ i, 0 ≤ p i) : Spec.Stochastic (Spec.judged M p) := by
  refine ⟨fun j i => ?_, fun i => ?_⟩
  · simp only [Spec.judged, Matrix.of_apply, Spec.kernel]
    split_ifs with h
    · rw [sub_nonneg, ← hM.sum i]
      refine (Finset.sum_le_sum fun z _ => mul_le_of_le_one_right (hM.nonneg z i) (ratio_range hp i z).2).trans ?_
      exact Finset.sum_le_sum_of_subset_of_nonneg (Finset.erase_subset _ _) fun z _ _ => hM.nonneg z i
    · exact mul_nonneg (hM.nonneg _ _) (ratio_range hp _ _).1
  · have := judged_apply (p := p) hM (fun _ => 1) i
    simp only [one_mul, mul_one] at this
    rw [this]
    simp only [add_sub_cancel, mul_one, hM.sum]

theorem value_at {l : OPQR PD} {name : Str} {i : Fin n} (h : Spec.IsAt name val p l i) :
    ((some l).bind OPQR.p).bind (fun e => e.values name) = some (.scalar (val i)) := by
  obtain ⟨e, h1, h2⟩ := h.prob
  simp [h1, h2.val]

/-- C88: the law of the value after `k` further samples is given by the power of the matrix of
the moves that are proposed and accepted. -/
theorem C88_law (H : Spec.MarkovField fmt F v val M p) (hM : Spec.Stochastic M) (hp : ∀ i, 0 ≤ p i)
    (hs : evalPscale ps = .ok (.lin 1)) (z : Fin n) : ∀ (k : ℕ) (i : Fin n) (l : OPQR PD),
    Spec.IsAt v.name val p l i →
    Spec.reached (matrixWalk fmt F arrays start hastings ps) v.name k (some l) (val z) =
      ENNReal.ofReal ((Spec.judged M p ^ k) z i)
  | 0, i, l, hl => by
    rw [Spec.reached, value_at hl, pow_zero, Matrix.one_apply]
    by_cases h : z = i
    · subst h; simp
    · have hne : val i ≠ val z := fun e => h (H.mono.injective e).symm
      simp [h, hne]
  | k + 1, i, l, hl => by
    have ih := C88_law H hM hp hs z k
    rw [Spec.reached]
    have hK := stochastic_pow (judged_stochastic (p := p) hM hp) k
    set K := Spec.judged M p ^ k with hKdef
    have hin : ∀ j u, Spec.Falls M i j u →
        (Spec.mean fun t => Spec.reached (matrixWalk fmt F arrays start hastings ps) v.name k
          (nextCore (matrixWalk fmt F arrays start hastings ps) (some l) ⟨⟨0, [], u⟩, t⟩ ()).2.1 (val z)) =
        ENNReal.ofReal (Spec.ratio (p i) (p j)) * ENNReal.ofReal (K z j) +
          ENNReal.ofReal (1 - Spec.ratio (p i) (p j)) * ENNReal.ofReal (K z i) := by
      intro j u hj
      rw [← mean_le _ _ _ (ratio_range hp i j).1 (ratio_range hp i j).2]
      congr 1
      funext t
      have hu := falls_mem hM hj
      obtain ⟨j', l', smp, g1, g2, _, _, g3, g4⟩ := C88_step (arrays := arrays) (start := start) (hastings := hastings)
        H hM hs i hl ⟨⟨0, [], u⟩, t⟩ hu.1 hu.2
      obtain rfl : j' = j := falls_unique hM g2 hj
      rw [g1]
      split_ifs with ht
      · exact ih j' l' (g3 ht).1
      · rw [(g4 ht).1]; exact ih i l hl
    rw [mean_falls hM i _ _ hin, pow_succ, Matrix.mul_apply, judged_apply hM (fun j => K z j) i,
      ENNReal.ofReal_sum_of_nonneg]
    · refine Finset.sum_congr rfl fun j _ => ?_
      have hr := ratio_range hp i j
      rw [ENNReal.ofReal_mul (hM.nonneg _ _), ENNReal.ofReal_add (mul_nonneg hr.1 (hK.nonneg _ _))
        (mul_nonneg (sub_nonneg.mpr hr.2) (hK.nonneg _ _)), ENNReal.ofReal_mul hr.1,
        ENNReal.ofReal_mul (sub_nonneg.mpr hr.2)]
    · intro j _
      have hr := ratio_range hp i j
      exact mul_nonneg (hM.nonneg _ _) (add_nonneg (mul_nonneg hr.1 (hK.nonneg _ _))
        (mul_nonneg (sub_nonneg.mpr hr.2) (hK.nonneg _ _)))

/-- C88: the law of the value of the `k + 1`st sample from a start. -/
theorem C88_start (H : Spec.MarkovField fmt F v val M p) (hM : Spec.Stochastic M) (hp : ∀ i, 0 ≤ p i)
    (hs : evalPscale ps = .ok (.lin 1)) (i z : Fin n) (k : ℕ) :
    Spec.reached (matrixWalk fmt F arrays [(v.name, .scalar (val i))] hastings ps) v.name (k + 1) none (val z) =
      ENNReal.ofReal ((Spec.judged M p ^ k * M) z i) := by
  have hK := stochastic_pow (judged_stochastic (p := p) hM hp) k
  rw [Spec.reached]
  have hin : ∀ j u, Spec.Falls M i j u →
      (Spec.mean fun t => Spec.reached (matrixWalk fmt F arrays [(v.name, .scalar (val i))] hastings ps) v.name k
        (nextCore (matrixWalk fmt F arrays [(v.name, .scalar (val i))] hastings ps) none ⟨⟨0, [], u⟩, t⟩ ()).2.1
          (val z)) = ENNReal.ofReal ((Spec.judged M p ^ k) z j) := by
    intro j u hj
    have hu := falls_mem hM hj
    have : ∀ t, Spec.reached (matrixWalk fmt F arrays [(v.name, .scalar (val i))] hastings ps) v.name k
        (nextCore (matrixWalk fmt F arrays [(v.name, .scalar (val i))] hastings ps) none ⟨⟨0, [], u⟩, t⟩ ()).2.1
          (val z) = ENNReal.ofReal ((Spec.judged M p ^ k) z j) := by
      intro t
      obtain ⟨j', l, smp, g1, g2, g3, _⟩ := C88_first (arrays := arrays) (hastings := hastings) (ps := ps) H hM i
        ⟨⟨0, [], u⟩, t⟩ hu.1 hu.2
      obtain rfl : j' = j := falls_unique hM g2 hj
      rw [g1]
      exact C88_law H hM hp hs z k j' l g3
    simp only [this, Spec.mean, setLIntegral_const, Real.volume_Ico, sub_zero, ENNReal.ofReal_one, mul_one]
  rw [mean_falls hM i _ _ hin, Matrix.mul_apply, ENNReal.ofReal_sum_of_nonneg fun j _ =>
    mul_nonneg (hK.nonneg _ _) (hM.nonneg _ _)]
  exact Finset.sum_congr rfl fun j _ => by rw [ENNReal.ofReal_mul (hK.nonneg _ _), mul_comm]

/-! ### Keeping the target, and tending to it -/

/-- The process keeps the target: if its value has the probabilities `p` then so it has after
any number of samples. -/
def Spec.KeepsProb (P : Proc Unit PD MDraw) (name : Str) (val : Fin n → ℚ) (p : Fin n → ℝ) : Prop :=
  ∀ l : Fin n → OPQR PD, (∀ i, Spec.IsAt name val p (l i) i) → ∀ k z,
    ∑ i, ENNReal.ofReal (p i) * Spec.reached P name k (some (l i)) (val z) = ENNReal.ofReal (p z)

theorem keeps_iff (H : Spec.MarkovField fmt F v val M p) (hM : Spec.Stochastic M) (hp : ∀ i, 0 ≤ p i)
    (hs : evalPscale ps = .ok (.lin 1)) {l : Fin n → OPQR PD} (hl : ∀ i, Spec.IsAt v.name val p (l i) i) (k : ℕ)
    (z : Fin n) :
    ∑ i, ENNReal.ofReal (p i) * Spec.reached (matrixWalk fmt F arrays start hastings ps) v.name k (some (l i)) (val z) =
      ENNReal.ofReal (((Spec.judged M p ^ k).mulVec p) z) := by
  have hK := stochastic_pow (judged_stochastic (p := p) hM hp) k
  simp only [C88_law H hM hp hs z k _ _ (hl _), Matrix.mulVec, dotProduct]
  rw [ENNReal.ofReal_sum_of_nonneg fun j _ => mul_nonneg (hK.nonneg _ _) (hp _)]
  exact Finset.sum_congr rfl fun j _ => by rw [ENNReal.ofReal_mul (hK.nonneg _ _), mul_comm]

theorem judged_keeps (hp : ∀ i, 0 ≤ p i) (hsym : M.IsSymm) : (Spec.judged M p).mulVec p = p := by
  funext z
  have := C35_invariant p (fun x y => M y x) hp (fun x y => hsym.apply x y) z
  rw [← this]
  simp only [Matrix.mulVec, dotProduct, Spec.judged, Matrix.of_apply]
  exact Finset.sum_congr rfl fun j _ => by rw [mul_comm]; rfl

/-- C88, full claim: whatever the matrix, the process keeps the target if judged by the rule of
Hastings. -/
def C88_claim : Prop :=
  ∀ (n : ℕ) (fmt : Val → Str) (F : RField) (v : Probayes.Drawn) (val : Fin n → ℚ) (M : Matrix (Fin n) (Fin n) ℝ)
    (p : Fin n → ℝ) (arrays : Dict Str Val → Py Arr) (start : Dict Str Req) (ps : PSpec),
    Spec.MarkovField fmt F v val M p → Spec.Stochastic M → (∀ i, Spec.Normal (p i)) → evalPscale ps = .ok (.lin 1) →
    Spec.KeepsProb (matrixWalk fmt F arrays start true ps) v.name val p

/-- C88, proved part: for symmetric matrices, judged by either rule. -/
theorem C88_keeps_partial (H : Spec.MarkovField fmt F v val M p) (hM : Spec.Stochastic M)
    (hp : ∀ i, 0 ≤ p i) (hs : evalPscale ps = .ok (.lin 1)) (hsym : M.IsSymm) :
    Spec.KeepsProb (matrixWalk fmt F arrays start hastings ps) v.name val p := by
  intro l hl k z
  rw [keeps_iff H hM hp hs hl]
  congr 1
  have hk : ∀ k, (Spec.judged M p ^ k).mulVec p = p := by
    intro k
    induction k with
    | zero => simp
    | succ k ih => rw [pow_succ, ← Matrix.mulVec_mulVec, judged_keeps hp hsym, ih]
  rw [hk]

theorem pow_le_pow_entry {A B : Matrix (Fin n) (Fin n) ℝ} {c : ℝ} (hc : 0 ≤ c) (hA : ∀ i j, 0 ≤ A i j)
    (hB : ∀ i j, 0 ≤ B i j) (h : ∀ i j, c * A i j ≤ B i j) (k : ℕ) (i j : Fin n) :
    c ^ k * (A ^ k) i j ≤ (B ^ k) i j := by
  have hpow : ∀ {C : Matrix (Fin n) (Fin n) ℝ}, (∀ i j, 0 ≤ C i j) → ∀ k i j, 0 ≤ (C ^ k) i j := by
    intro C hC k
    induction k with
    | zero => intro i j; rw [pow_zero, Matrix.one_apply]; split_ifs <;> norm_num
    | succ k ih =>
      intro i j
      rw [pow_succ, Matrix.mul_apply]
      exact Finset.sum_nonneg fun z _ => mul_nonneg (ih _ _) (hC _ _)
  induction k generalizing i j with
  | zero => simp
  | succ k ih =>
    rw [pow_succ A, pow_succ B, Matrix.mul_apply, Matrix.mul_apply, pow_succ, Finset.mul_sum]
    refine Finset.sum_le_sum fun z _ => ?_
    calc c ^ k * c * ((A ^ k) i z * A z j) = (c ^ k * (A ^ k) i z) * (c * A z j) := by ring
      _ ≤ (B ^ k) i z * B z j := mul_le_mul (ih i z) (h z j) (mul_nonneg hc (hA _ _)) (hpow hB k i z)

/-- C88: with a symmetric matrix some power of which has no zeros, and probabilities that are
all positive, the law of the samples tends to the target from every start. -/
theorem C88_converges (H : Spec.MarkovField fmt F v val M p) (hM : Spec.Stochastic M)
    (hp : ∀ i, 0 < p i) (hs : evalPscale ps = .ok (.lin 1)) (hsym : M.IsSymm) {m : ℕ}
    (hm : ∀ i j, 0 < (M ^ m) i j) (i z : Fin n) :
    Filter.Tendsto (fun k => (Spec.reached (matrixWalk fmt F arrays [(v.name, .scalar (val i))] hastings ps) v.name
      (k + 1) none (val z)).toReal) Filter.atTop (𝓝 (p z / ∑ j, p j)) := by
  have hn : 0 < n := i.pos
  have hpos := hp
  have hnn : ∀ i, 0 ≤ p i := fun i => (hpos i).le
  have hJ := judged_stochastic (p := p) hM hnn
  -- accepting with at least a certain chance
  obtain ⟨⟨a0, b0⟩, _, hmin⟩ := Finset.exists_min_image (Finset.univ : Finset (Fin n × Fin n))
    (fun q => Spec.ratio (p q.1) (p q.2)) ⟨(i, i), Finset.mem_univ _⟩
  set c := Spec.ratio (p a0) (p b0) with hc
  have hc0 : 0 < c := lt_min one_pos (div_pos (hpos _) (lt_max_of_lt_left npz_pos))
  have hle : ∀ y x, c * M y x ≤ Spec.judged M p y x := by
    intro y x
    have h1 := judged_apply (p := p) hM (fun j => if j = y then 1 else 0) x
    simp only [ite_mul, one_mul, zero_mul, Finset.sum_ite_eq', Finset.mem_univ, if_true] at h1
    rw [h1]
    calc c * M y x = M y x * c := mul_comm _ _
      _ ≤ M y x * Spec.ratio (p x) (p y) := mul_le_mul_of_nonneg_left (hmin (x, y) (Finset.mem_univ _)) (hM.nonneg _ _)
      _ ≤ M y x * (Spec.ratio (p x) (p y) * (if y = y then 1 else 0) +
            (1 - Spec.ratio (p x) (p y)) * (if x = y then 1 else 0)) := by
          refine mul_le_mul_of_nonneg_left ?_ (hM.nonneg _ _)
          rw [if_pos rfl, mul_one]
          refine le_add_of_nonneg_right (mul_nonneg (sub_nonneg.mpr (ratio_range hnn x y).2) ?_)
          split_ifs <;> norm_num
      _ ≤ _ := Finset.single_le_sum (f := fun j => M j x * (Spec.ratio (p x) (p j) * (if j = y then 1 else 0) +
            (1 - Spec.ratio (p x) (p j)) * (if x = y then 1 else 0))) (fun j _ => by
              refine mul_nonneg (hM.nonneg _ _) (add_nonneg (mul_nonneg (ratio_range hnn x j).1 ?_)
                (mul_nonneg (sub_nonneg.mpr (ratio_range hnn x j).2) ?_)) <;> split_ifs <;> norm_num) (Finset.mem_univ y)
  have hJm : ∀ i j, 0 < (Spec.judged M p ^ m) i j := fun i j =>
    lt_of_lt_of_le (mul_pos (pow_pos hc0 m) (hm i j)) (pow_le_pow_entry hc0.le hM.nonneg hJ.nonneg hle m i j)
  obtain ⟨π, _, _, _, h4, h5⟩ := stochastic_limit hJ hn hJm
  have hsum : 0 < ∑ j, p j := Finset.sum_pos (fun j _ => hpos j) ⟨i, Finset.mem_univ _⟩
  have hπ : (fun z => p z / ∑ j, p j) = π := by
    refine h4 _ ?_ ?_
    · rw [← Finset.sum_div, div_self hsum.ne']
    · have e : (fun z => p z / ∑ j, p j) = (∑ j, p j)⁻¹ • p := by funext z; simp [div_eq_inv_mul]
      rw [e, Matrix.mulVec_smul, judged_keeps hnn hsym]
  have hlaw : ∀ k, (Spec.reached (matrixWalk fmt F arrays [(v.name, .scalar (val i))] hastings ps) v.name
      (k + 1) none (val z)).toReal = ∑ j, (Spec.judged M p ^ k) z j * M j i := by
    intro k
    rw [C88_start H hM hnn hs, Matrix.mul_apply, ENNReal.toReal_ofReal (Finset.sum_nonneg fun j _ =>
      mul_nonneg ((stochastic_pow hJ k).nonneg _ _) (hM.nonneg _ _))]
  simp only [hlaw]
  have hlim : Filter.Tendsto (fun k => ∑ j, (Spec.judged M p ^ k) z j * M j i) Filter.atTop (𝓝 (∑ j, π z * M j i)) :=
    tendsto_finset_sum _ fun j _ => (h5 z j).mul_const _
  rw [← Finset.mul_sum, hM.sum, mul_one, ← hπ] at hlim
  exact hlim

/-! ### Matrices that are not symmetric -/

theorem judged_flat {c : ℝ} (hM : Spec.Stochastic M) (hc : npz ≤ c) : Spec.judged M (fun _ => c) = M := by
  have hr : Spec.ratio c c = 1 := by
    rw [Spec.ratio, max_eq_right hc, div_self (npz_pos.trans_le hc).ne', min_self]
  ext y x
  have h1 := judged_apply (p := fun _ => c) hM (fun j => if j = y then 1 else 0) x
  simpa [hr] using h1

/-- C88: where all probabilities are equal, the sum of a row of the matrix is what the
probability of its value is multiplied by in one sample, by either rule. -/
theorem C88_flat {c : ℝ} (H : Spec.MarkovField fmt F v val M fun _ => c) (hM : Spec.Stochastic M) (hc : npz ≤ c)
    (hs : evalPscale ps = .ok (.lin 1)) {l : Fin n → OPQR PD} (hl : ∀ i, Spec.IsAt v.name val (fun _ => c) (l i) i)
    (z : Fin n) :
    ∑ i, ENNReal.ofReal c * Spec.reached (matrixWalk fmt F arrays start hastings ps) v.name 1 (some (l i)) (val z) =
      ENNReal.ofReal ((∑ i, M z i) * c) := by
  rw [keeps_iff H hM (fun _ => (npz_pos.le.trans hc)) hs hl 1 z, pow_one, judged_flat hM hc]
  simp only [Matrix.mulVec, dotProduct, Finset.sum_mul]

theorem stands_on (H : Spec.MarkovField fmt F v val M p) (hM : Spec.Stochastic M) {i j : Fin n} {u : ℝ}
    (h : Spec.Falls M i j u) : ∃ l, Spec.IsAt v.name val p l j := by
  have hu := falls_mem hM h
  obtain ⟨j', l, _, _, g2, g3, _⟩ := C88_first (arrays := fun _ => .error .value) (hastings := false) (ps := .none) H hM i
    ⟨⟨0, [], u⟩, 0⟩ hu.1 hu.2
  obtain rfl : j' = j := falls_unique hM g2 h
  exact ⟨l, g3⟩

theorem norris_stands (j : Fin 3) : ∃ l, Spec.IsAt norrisVar.name (fun i : Fin 3 => (i : ℚ)) (fun _ => 1 / 3) l j := by
  fin_cases j
  · refine stands_on norris_field norris_stochastic (i := 2) (u := 0) ⟨?_, ?_⟩
    · exact (Finset.sum_eq_zero (by simp)).le
    · rw [Iic_eq, Finset.sum_eq_zero (by simp)]; simp [norris]
  · refine stands_on norris_field norris_stochastic (i := 0) (u := 0) ⟨?_, ?_⟩
    · have : Finset.Iio (1 : Fin 3) = {0} := by decide
      simp [this, norris]
    · have : Finset.Iic (1 : Fin 3) = {0, 1} := by decide
      simp [this, norris]
  · refine stands_on norris_field norris_stochastic (i := 1) (u := 1 / 2) ⟨?_, ?_⟩
    · have : Finset.Iio (2 : Fin 3) = {0, 1} := by decide
      simp [this, norris]
    · have : Finset.Iic (2 : Fin 3) = {0, 1, 2} := by decide
      simp [this, norris]

theorem npz_le_quarter : npz ≤ 1 / 4 := by unfold npz; norm_num

theorem npz_le_third : npz ≤ 1 / 3 := by unfold npz; norm_num

/-- C88 fails: proposals are not corrected for, as no reverse proposal is made; the values of
the example's matrix do not keep their equal probabilities. -/
theorem C88_claim_fails : ¬ C88_claim := by
  intro h
  choose l hl using norris_stands
  have h1 := h 3 _ norrisField norrisVar _ norris _ (fun _ => .error .value) [] .none norris_field norris_stochastic
    (fun _ => .inr npz_le_third) (by simp [evalPscale]) l hl 1 0
  have h2 := C88_flat (arrays := fun _ => .error .value) (start := []) (hastings := true) (ps := .none) norris_field
    norris_stochastic npz_le_third (by simp [evalPscale]) hl 0
  rw [h1] at h2
  have h3 : ∑ i, norris 0 i = 1 / 2 := by simp [norris, Fin.sum_univ_three]
  rw [h3, ENNReal.ofReal_eq_ofReal_iff (by norm_num) (by norm_num)] at h2
  norm_num at h2

/-! ### An example -/

/-- Moves that go anywhere with equal chances. -/
noncomputable def evenMoves : Matrix (Fin 2) (Fin 2) ℝ := Matrix.of fun _ _ => 1 / 2

theorem evenMoves_stochastic : Spec.Stochastic evenMoves :=
  ⟨fun i j => by simp [evenMoves], fun j => by simp [evenMoves]⟩

/-- A biased coin. -/
noncomputable def biasedVar : Probayes.Drawn :=
  ⟨⟨['x'], [0, 1], .none, .fn fun vals => match vals with
      | .scalar x => .ok ⟨[], fun _ => if x = 0 then 1 / 4 else 3 / 4⟩
      | .array xs => .ok (listArr (xs.map fun x => if x = 0 then 1 / 4 else 3 / 4)),
    .matrix (Spec.rows evenMoves), none⟩, 0, []⟩

noncomputable def biasedField : RField := ⟨[biasedVar], .none, .none, none⟩

noncomputable def biasedProb (i : Fin 2) : ℝ := if i = 0 then 1 / 4 else 3 / 4

theorem biased_field : Spec.MarkovField (fun _ => ['v']) biasedField biasedVar (fun i : Fin 2 => (i : ℚ)) evenMoves
    biasedProb where
  good := {
    ne := by simp [biasedField]
    nodup := by simp [biasedField, RField.names]
    good := by
      intro v hv
      simp only [biasedField, List.mem_singleton] at hv
      subst hv
      exact ⟨by decide, by decide, by decide, by decide, by decide, by decide, by decide,
        by simp, by simp, by simp, by simp⟩
    plain := by
      intro v hv
      simp only [biasedField, List.mem_singleton] at hv
      subst hv
      decide }
  only := rfl
  tran := rfl
  tfun := rfl
  delta := rfl
  nodup := by simp [biasedVar]
  mono := by
    intro i j h
    have : (i : ℕ) < (j : ℕ) := h
    simpa using this
  range := by
    intro x
    simp only [biasedVar, List.mem_cons, List.not_mem_nil, or_false]
    constructor
    · rintro (rfl | rfl)
      · exact ⟨0, by simp⟩
      · exact ⟨1, by simp⟩
    · rintro ⟨i, rfl⟩
      fin_cases i <;> simp
  matrix := .inl rfl
  scale := by simp [biasedVar, evalPscale]
  prob := by
    intro i
    refine ⟨⟨[], fun _ => biasedProb i⟩, ?_, rfl, rfl⟩
    fin_cases i <;> simp [biasedVar, DRV.evalProb, biasedProb]

example (arrays : Dict Str Val → Py Arr) (start : Dict Str Req) (hastings : Bool) :
    Spec.KeepsProb (matrixWalk (fun _ => ['v']) biasedField arrays start hastings (.flt 1)) biasedVar.name
      (fun i : Fin 2 => (i : ℚ)) biasedProb := by
  refine C88_keeps_partial biased_field evenMoves_stochastic (fun i => ?_) (by simp [evalPscale])
    (by ext i j; simp [evenMoves])
  fin_cases i <;> simp only [biasedProb] <;> norm_num

example (arrays : Dict Str Val → Py Arr) (i : Fin 2) :
    Filter.Tendsto (fun k => (Spec.reached (matrixWalk (fun _ => ['v']) biasedField arrays
      [(biasedVar.name, .scalar (i : ℚ))] false (.flt 1)) biasedVar.name (k + 1) none ((1 : Fin 2) : ℚ)).toReal)
      Filter.atTop (𝓝 (biasedProb 1 / ∑ j, biasedProb j)) :=
  C88_converges (m := 1) (hastings := false) biased_field evenMoves_stochastic (fun i => by
      fin_cases i <;> simp only [biasedProb] <;> norm_num)
    (by simp [evalPscale]) (by ext i j; simp [evenMoves]) (fun i j => by simp [evenMoves]) i 1

end Probayes
