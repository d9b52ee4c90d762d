/-
C87: the law of the samples of a Markov chain tends to the only one its matrix keeps; the
summary of the samples.
-/
import Mathlib.Analysis.SpecificLimits.Basic
import Mathlib.Analysis.SpecialFunctions.Trigonometric.Basic
import Verif.Props.Markov
import Verif.Props.PDSum
import Verif.Props.SP

namespace Probayes

open MeasureTheory Filter Topology

variable {n : ℕ} {M : Matrix (Fin n) (Fin n) ℝ}

theorem stochastic_pow (hM : Spec.Stochastic M) (k : ℕ) : Spec.Stochastic (M ^ k) := by
  induction k with
  | zero =>
    refine ⟨fun i j => ?_, fun j => ?_⟩
    · rw [pow_zero, Matrix.one_apply]; split_ifs <;> norm_num
    · simp [Matrix.one_apply]
  | succ k ih =>
    refine ⟨fun i j => ?_, fun j => ?_⟩
    · rw [pow_succ, Matrix.mul_apply]
      exact Finset.sum_nonneg fun z _ => mul_nonneg (ih.nonneg _ _) (hM.nonneg _ _)
    · simp only [pow_succ, Matrix.mul_apply]
      rw [Finset.sum_comm]
      simp only [← Finset.sum_mul, ih.sum, one_mul, hM.sum]

/-- Averages of numbers that differ by at most `B` differ by less if every one has a weight. -/
theorem average_gap {P : Matrix (Fin n) (Fin n) ℝ} (hP : Spec.Stochastic P) {δ : ℝ} (hδ : ∀ i j, δ ≤ P i j)
    {a : Fin n → ℝ} {B : ℝ} (ha : ∀ j j', |a j - a j'| ≤ B) (i i' : Fin n) :
    |∑ j, a j * P j i - ∑ j, a j * P j i'| ≤ (1 - δ) * B := by
  have key : ∀ i i' : Fin n, ∑ j, a j * P j i - ∑ j, a j * P j i' ≤ (1 - δ) * B := by
    intro i i'
    obtain ⟨l, _, hl⟩ := Finset.exists_min_image Finset.univ a ⟨i, Finset.mem_univ _⟩
    have hB : 0 ≤ B := le_trans (abs_nonneg _) (ha i i)
    have e : ∀ i, ∑ j, a j * P j i = ∑ j, (a j - a l) * P j i + a l := by
      intro i
      simp only [sub_mul, Finset.sum_sub_distrib, ← Finset.mul_sum, hP.sum, mul_one]
      ring
    rw [e i, e i']
    have h1 : 0 ≤ ∑ j, (a j - a l) * P j i' := Finset.sum_nonneg fun j _ =>
      mul_nonneg (sub_nonneg.mpr (hl j (Finset.mem_univ _))) (hP.nonneg _ _)
    have h2 : ∑ j, (a j - a l) * P j i ≤ ∑ j, (if j = l then 0 else B * P j i) := by
      refine Finset.sum_le_sum fun j _ => ?_
      split_ifs with hj
      · rw [hj]; simp
      · exact mul_le_mul_of_nonneg_right ((le_abs_self _).trans (ha j l)) (hP.nonneg _ _)
    have h3 : ∑ j, (if j = l then 0 else B * P j i) = B * (1 - P l i) := by
      have : ∀ j, (if j = l then 0 else B * P j i) = B * P j i - if j = l then B * P j i else 0 := by
        intro j; split_ifs <;> ring
      simp only [this, Finset.sum_sub_distrib, Finset.sum_ite_eq', Finset.mem_univ, if_true, ← Finset.mul_sum, hP.sum]
      ring
    have h4 : B * (1 - P l i) ≤ (1 - δ) * B := by
      rw [mul_comm]
      exact mul_le_mul_of_nonneg_right (by linarith [hδ l i]) hB
    linarith
  rw [abs_le]
  constructor
  · have := key i' i; linarith
  · exact key i i'

/-- If some power of the matrix has no zeros, the powers tend to the matrix whose columns
are all the only law that is kept. -/
theorem stochastic_limit (hM : Spec.Stochastic M) (hn : 0 < n) {m : ℕ} (hm : ∀ i j, 0 < (M ^ m) i j) :
    ∃ π : Fin n → ℝ, (∀ i, 0 ≤ π i) ∧ ∑ i, π i = 1 ∧ M.mulVec π = π ∧
      (∀ ρ : Fin n → ℝ, ∑ i, ρ i = 1 → M.mulVec ρ = ρ → ρ = π) ∧
      ∀ z i, Tendsto (fun k => (M ^ k) z i) atTop (𝓝 (π z)) := by
  have i0 : Fin n := ⟨0, hn⟩
  obtain ⟨⟨a0, b0⟩, _, hmin⟩ := Finset.exists_min_image (Finset.univ : Finset (Fin n × Fin n))
    (fun q => (M ^ m) q.1 q.2) ⟨(i0, i0), Finset.mem_univ _⟩
  set δ := (M ^ m) a0 b0 with hδ
  have hδ0 : 0 < δ := hm _ _
  have hδm : ∀ i j, δ ≤ (M ^ m) i j := fun i j => hmin (i, j) (Finset.mem_univ _)
  have hle : ∀ k i j, (M ^ k) i j ≤ 1 := by
    intro k i j
    rw [← (stochastic_pow hM k).sum j]
    exact Finset.single_le_sum (fun z _ => (stochastic_pow hM k).nonneg z j) (Finset.mem_univ i)
  have hδ1 : δ ≤ 1 := hle _ _ _
  -- rows level out
  have hlevel : ∀ q k z i i', m * q ≤ k → |(M ^ k) z i - (M ^ k) z i'| ≤ (1 - δ) ^ q := by
    intro q
    induction q with
    | zero =>
      intro k z i i' _
      rw [pow_zero, abs_le]
      have := (stochastic_pow hM k).nonneg z i
      have := (stochastic_pow hM k).nonneg z i'
      have := hle k z i
      have := hle k z i'
      constructor <;> linarith
    | succ q ih =>
      intro k z i i' hk
      obtain ⟨l, rfl⟩ : ∃ l, k = l + m := ⟨k - m, by rw [mul_add, mul_one] at hk; omega⟩
      have hl : m * q ≤ l := by rw [mul_add, mul_one] at hk; omega
      rw [pow_add, Matrix.mul_apply, Matrix.mul_apply, pow_succ, mul_comm]
      exact average_gap (stochastic_pow hM m) hδm (fun j j' => ih l z j j' hl) i i'
  have hfar : ∀ q k l z i i', m * q ≤ k → |(M ^ (k + l)) z i - (M ^ k) z i'| ≤ (1 - δ) ^ q := by
    intro q k l z i i' hk
    have e : (M ^ (k + l)) z i - (M ^ k) z i' = ∑ j, ((M ^ k) z j - (M ^ k) z i') * (M ^ l) j i := by
      rw [pow_add, Matrix.mul_apply]
      simp only [sub_mul, Finset.sum_sub_distrib, ← Finset.mul_sum, (stochastic_pow hM l).sum, mul_one]
    rw [e]
    refine (Finset.abs_sum_le_sum_abs _ _).trans ?_
    calc ∑ j, |((M ^ k) z j - (M ^ k) z i') * (M ^ l) j i| ≤ ∑ j, (1 - δ) ^ q * (M ^ l) j i := by
          refine Finset.sum_le_sum fun j _ => ?_
          rw [abs_mul, abs_of_nonneg ((stochastic_pow hM l).nonneg j i)]
          exact mul_le_mul_of_nonneg_right (hlevel q k z j i' hk) ((stochastic_pow hM l).nonneg j i)
      _ = (1 - δ) ^ q := by rw [← Finset.mul_sum, (stochastic_pow hM l).sum, mul_one]
  have hsmall : ∀ ε : ℝ, 0 < ε → ∃ q, (1 - δ) ^ q < ε := fun ε hε =>
    exists_pow_lt_of_lt_one hε (by linarith)
  have hcau : ∀ z, CauchySeq fun k => (M ^ k) z i0 := by
    intro z
    rw [Metric.cauchySeq_iff']
    intro ε hε
    obtain ⟨q, hq⟩ := hsmall ε hε
    refine ⟨m * q, fun k hk => ?_⟩
    obtain ⟨l, rfl⟩ := Nat.exists_eq_add_of_le hk
    rw [Real.dist_eq]
    exact lt_of_le_of_lt (hfar q _ l z i0 i0 le_rfl) hq
  choose π hπ using fun z => cauchySeq_tendsto_of_complete (hcau z)
  have hlim : ∀ z i, Tendsto (fun k => (M ^ k) z i) atTop (𝓝 (π z)) := by
    intro z i
    rw [Metric.tendsto_atTop]
    intro ε hε
    obtain ⟨q, hq⟩ := hsmall (ε / 2) (by linarith)
    obtain ⟨N, hN⟩ := Metric.tendsto_atTop.mp (hπ z) (ε / 2) (by linarith)
    refine ⟨max N (m * q), fun k hk => ?_⟩
    have h1 := hlevel q k z i i0 (le_trans (le_max_right _ _) hk)
    have h2 := hN k (le_trans (le_max_left _ _) hk)
    rw [Real.dist_eq] at h2 ⊢
    calc |(M ^ k) z i - π z| ≤ |(M ^ k) z i - (M ^ k) z i0| + |(M ^ k) z i0 - π z| := abs_sub_le _ _ _
      _ < ε := by linarith
  have hsum : ∑ i, π i = 1 := by
    have h1 : Tendsto (fun k => ∑ z, (M ^ k) z i0) atTop (𝓝 (∑ z, π z)) :=
      tendsto_finset_sum _ fun z _ => hlim z i0
    have h2 : Tendsto (fun k => ∑ z, (M ^ k) z i0) atTop (𝓝 1) := by
      simp only [(stochastic_pow hM _).sum]
      exact tendsto_const_nhds
    exact tendsto_nhds_unique h1 h2
  refine ⟨π, fun z => ge_of_tendsto' (hlim z i0) fun k => (stochastic_pow hM k).nonneg _ _, hsum, ?_, ?_, hlim⟩
  · funext z
    have h1 : Tendsto (fun k => (M ^ (k + 1)) z i0) atTop (𝓝 (π z)) := (hlim z i0).comp (tendsto_add_atTop_nat 1)
    have h2 : Tendsto (fun k => (M ^ (k + 1)) z i0) atTop (𝓝 ((M.mulVec π) z)) := by
      simp only [pow_succ', Matrix.mul_apply, Matrix.mulVec, dotProduct]
      exact tendsto_finset_sum _ fun j _ => (hlim j i0).const_mul _
    exact tendsto_nhds_unique h2 h1
  · intro ρ hρ1 hρ
    have hk : ∀ k, (M ^ k).mulVec ρ = ρ := by
      intro k
      induction k with
      | zero => simp
      | succ k ih => rw [pow_succ, ← Matrix.mulVec_mulVec, hρ, ih]
    funext z
    have h1 : Tendsto (fun k => ((M ^ k).mulVec ρ) z) atTop (𝓝 (∑ i, π z * ρ i)) := by
      simp only [Matrix.mulVec, dotProduct]
      exact tendsto_finset_sum _ fun j _ => (hlim z j).mul_const _
    rw [← Finset.mul_sum, hρ1, mul_one] at h1
    simp only [hk] at h1
    exact tendsto_nhds_unique tendsto_const_nhds h1

/-- C87: if some number of steps can lead from any value to any other, there is exactly one
law that the matrix keeps, and from every start the law of the samples tends to it. -/
theorem C87_converges {fmt : Val → Str} {F : RField} {v : Drawn} {val : Fin n → ℚ} {p : Fin n → ℝ}
    {arrays : Dict Str Val → Py Arr} (H : Spec.MarkovField fmt F v val M p) (hM : Spec.Stochastic M) (hn : 0 < n)
    {m : ℕ} (hm : ∀ i j, 0 < (M ^ m) i j) :
    ∃ π : Fin n → ℝ, (∀ i, 0 ≤ π i) ∧ ∑ i, π i = 1 ∧ M.mulVec π = π ∧
      (∀ ρ : Fin n → ℝ, ∑ i, ρ i = 1 → M.mulVec ρ = ρ → ρ = π) ∧
      ∀ z i, Tendsto (fun k => (volume {u : Fin (k + 1) → ℝ | (∀ t, u t ∈ Set.Ico (0 : ℝ) 1) ∧
        Spec.EndsAt fmt F arrays v.name val i z u}).toReal) atTop (𝓝 (π z)) := by
  obtain ⟨π, h1, h2, h3, h4, h5⟩ := stochastic_limit hM hn hm
  refine ⟨π, h1, h2, h3, h4, fun z i => ?_⟩
  have : ∀ k, (volume {u : Fin (k + 1) → ℝ | (∀ t, u t ∈ Set.Ico (0 : ℝ) 1) ∧
      Spec.EndsAt fmt F arrays v.name val i z u}).toReal = (M ^ (k + 1)) z i := by
    intro k
    rw [C87_law H hM, ENNReal.toReal_ofReal ((stochastic_pow hM _).nonneg _ _)]
  simp only [this]
  exact (h5 z i).comp (tendsto_add_atTop_nat 1)

/-! ### The summary of the samples -/

theorem number_of_values {d : PD} {k : Str} {x : ℚ} (h : d.values k = some (.scalar x)) : Spec.NumberAt d k x := by
  rw [PD.values] at h
  rcases hw : Dict.get? d.vals k with _ | w
  · simp [hw] at h
  · refine ⟨w, hw, .inl ?_⟩
    rw [hw] at h
    cases w with
    | arr s l => cases s <;> simp [Val.flat] at h
    | _ => simp_all [Val.flat]

theorem number_unique {d : PD} {k : Str} {x y : ℚ} (hx : Spec.NumberAt d k x) (hy : Spec.NumberAt d k y) : x = y := by
  obtain ⟨v, h1, h2⟩ := hx
  obtain ⟨w, h3, h4⟩ := hy
  obtain rfl : v = w := by rw [h1] at h3; simpa using h3
  rcases h2 with rfl | rfl <;> simpa [Spec.Number] using h4

/-- The numbers of a variable of distributions listed in order. -/
theorem sum_values {first r : PD} {args : List PD} (h : Spec.Sum first args r) {k : Str} (hk : k ∈ first.keylist)
    (z : ℕ → ℚ) (hz : ∀ (i : ℕ) (a : PD), args[i]? = some a → a.values k = some (.scalar (z i))) :
    r.values k = some (.arr [args.length] ((List.range args.length).map z)) := by
  obtain ⟨_, xs, h1, h2, h3⟩ := h.numbers k (fun a ha => by
    obtain ⟨i, hi⟩ := List.getElem?_of_mem ha
    exact ⟨_, number_of_values (hz i a hi)⟩) hk
  rw [h1]
  congr 2
  refine List.ext_getElem? fun i => ?_
  rcases lt_or_ge i args.length with hi | hi
  · obtain ⟨x, hx1, hx2⟩ := h3 i _ (List.getElem?_eq_getElem hi)
    rw [hx2, List.getElem?_map, List.getElem?_range hi, Option.map_some]
    rw [number_unique hx1 (number_of_values (hz i _ (List.getElem?_eq_getElem hi)))]
  · rw [List.getElem?_eq_none (by omega), List.getElem?_eq_none (by simpa using hi)]

theorem collected_all {α : Type} {f : Sample PD → Option α} {xs : List (Sample PD)} (hne : xs ≠ [])
    (hu : ∀ x ∈ xs, x.u = none) (hf : ∀ x ∈ xs, ∃ a, f x = some a) :
    ∃ ys : List α, Spec.collected f xs = some ys ∧ ys.length = xs.length ∧
      ∀ (i : ℕ) (x : Sample PD), xs[i]? = some x → f x = ys[i]? := by
  have h1 : xs.filter (fun x => x.u ≠ some false) = xs := by
    rw [List.filter_eq_self]
    intro x hx
    simp [hu x hx]
  have key : ∀ xs : List (Sample PD), (∀ x ∈ xs, ∃ a, f x = some a) → (xs.filterMap f).length = xs.length ∧
      ∀ (i : ℕ) (x : Sample PD), xs[i]? = some x → f x = (xs.filterMap f)[i]? := by
    intro xs
    induction xs with
    | nil => intro _; simp
    | cons x xs ih =>
      intro h
      obtain ⟨a, ha⟩ := h x (by simp)
      obtain ⟨g1, g2⟩ := ih fun y hy => h y (by simp [hy])
      rw [List.filterMap_cons_some ha]
      refine ⟨by simp [g1], ?_⟩
      intro i y hy
      rcases i with _ | i
      · simp only [List.getElem?_cons_zero, Option.some.injEq] at hy ⊢
        rw [← hy, ha]
      · simpa using g2 i y (by simpa using hy)
  obtain ⟨k1, k2⟩ := key xs hf
  refine ⟨xs.filterMap f, ?_, k1, k2⟩
  have hne' : xs.filterMap f ≠ [] := by
    intro h
    rw [h] at k1
    exact hne (List.length_eq_zero_iff.mp k1.symm)
  simp only [Spec.collected, h1, hne', if_false]

/-- C87: the summary of the samples lists, in order, the values moved from and to with the
probabilities of the moves, and the values moved to with their probabilities. -/
theorem C87_summary {fmt : Val → Str} {F : RField} {v : Drawn} {val : Fin n → ℚ} {p : Fin n → ℝ}
    {arrays : Dict Str Val → Py Arr} (H : Spec.MarkovField fmt F v val M p) (hM : Spec.Stochastic M)
    (S : SPState Unit PD) (stop : Option ℤ) (k : ℕ) (hk0 : 0 < k) (hk : ∀ m, stop = some m → (k : ℤ) ≤ m)
    (i : Fin n) (ω : ℕ → MDraw) (hu : ∀ t, 0 ≤ (ω t).w.u ∧ (ω t).w.u < 1) :
    ∃ S', ∃ xs : List (Sample PD), ∃ qs ps : List PD, ∃ q p' : PD, ∃ y : ℕ → Fin n,
      drain (matrixProc fmt F arrays [(v.name, .scalar (val i))]) S.made ω k (mkSampler S stop) =
        (S', xs.map .sample, none) ∧
      (collect false xs).q = some qs ∧ summate fmt qs = .ok (some q) ∧
      (collect false xs).p = some ps ∧ summate fmt ps = .ok (some p') ∧
      y 0 = i ∧ (∀ t < k, Spec.Falls M (y t) (y (t + 1)) (ω t).w.u) ∧
      q.keylist = [v.name ++ ['\''], v.name] ∧ q.shape = [k] ∧
      q.values v.name = some (.arr [k] ((List.range k).map fun t => val (y t))) ∧
      q.values (v.name ++ ['\'']) = some (.arr [k] ((List.range k).map fun t => val (y (t + 1)))) ∧
      (∀ t < k, q.at [t] = M (y (t + 1)) (y t)) ∧
      p'.keylist = [v.name] ∧ p'.shape = [k] ∧
      p'.values v.name = some (.arr [k] ((List.range k).map fun t => val (y (t + 1)))) ∧
      (∀ t < k, p'.at [t] = p (y (t + 1))) := by
  obtain ⟨S', xs, y, e1, e2, e3, e4⟩ := C87_chain (arrays := arrays) H hM S stop k hk i ω hu
  have hne : xs ≠ [] := by rintro rfl; simp at e2; omega
  have hvis : ∀ x ∈ xs, ∃ t, xs[t]? = some x ∧ Spec.Visit fmt v.name val M p x (y t) (y (t + 1)) := by
    intro x hx
    obtain ⟨t, ht⟩ := List.getElem?_of_mem hx
    exact ⟨t, ht, (e4 t x ht).1⟩
  have hunone : ∀ x ∈ xs, x.u = none := fun x hx => by obtain ⟨t, _, h⟩ := hvis x hx; exact h.u
  obtain ⟨qs, q1, q2, q3⟩ := collected_all (f := (·.q)) hne hunone (fun x hx => by
    obtain ⟨t, _, h⟩ := hvis x hx; obtain ⟨d, hd, _⟩ := h.q; exact ⟨d, hd⟩)
  obtain ⟨ps, p1, p2, p3⟩ := collected_all (f := (·.p)) hne hunone (fun x hx => by
    obtain ⟨t, _, h⟩ := hvis x hx; obtain ⟨d, hd, _⟩ := h.p; exact ⟨d, hd⟩)
  have hq : ∀ (t : ℕ) (d : PD), qs[t]? = some d → d.WF fmt ∧
      Spec.OneGiven v.name d (val (y (t + 1))) (val (y t)) (M (y (t + 1)) (y t)) := by
    intro t d hd
    have ht : t < xs.length := by rw [← q2]; exact (List.getElem?_eq_some_iff.mp hd).1
    have hx := List.getElem?_eq_getElem ht
    obtain ⟨d', hd', h⟩ := (e4 t _ hx).1.q
    have := q3 t _ hx
    rw [hd, hd'] at this
    obtain rfl : d' = d := by simpa using this
    exact h
  have hp : ∀ (t : ℕ) (d : PD), ps[t]? = some d → d.WF fmt ∧
      Spec.One v.name d (val (y (t + 1))) (p (y (t + 1))) := by
    intro t d hd
    have ht : t < xs.length := by rw [← p2]; exact (List.getElem?_eq_some_iff.mp hd).1
    have hx := List.getElem?_eq_getElem ht
    obtain ⟨d', hd', _, h⟩ := (e4 t _ hx).1.p
    have := p3 t _ hx
    rw [hd, hd'] at this
    obtain rfl : d' = d := by simpa using this
    exact h
  have hqm : ∀ d ∈ qs, ∃ t, qs[t]? = some d := fun d hd => List.getElem?_of_mem hd
  have hpm : ∀ d ∈ ps, ∃ t, ps[t]? = some d := fun d hd => List.getElem?_of_mem hd
  obtain ⟨q0, hq0⟩ : ∃ d, qs[0]? = some d := ⟨_, List.getElem?_eq_getElem (by omega)⟩
  obtain ⟨p0, hp0⟩ : ∃ d, ps[0]? = some d := ⟨_, List.getElem?_eq_getElem (by omega)⟩
  obtain ⟨_, Q0⟩ := hq 0 q0 hq0
  obtain ⟨_, P0⟩ := hp 0 p0 hp0
  have hqnum : ∀ k ∈ q0.keylist, ∀ a ∈ qs, ∃ x, Spec.NumberAt a k x := by
    intro k hk a ha
    obtain ⟨t, ht⟩ := hqm a ha
    obtain ⟨_, h⟩ := hq t a ht
    rw [Q0.keys] at hk
    simp only [List.mem_cons, List.not_mem_nil, or_false] at hk
    rcases hk with rfl | rfl
    · exact ⟨_, number_of_values h.succ⟩
    · exact ⟨_, number_of_values h.pred⟩
  have hpnum : ∀ k ∈ p0.keylist, ∀ a ∈ ps, ∃ x, Spec.NumberAt a k x := by
    intro k hk a ha
    obtain ⟨t, ht⟩ := hpm a ha
    obtain ⟨_, h⟩ := hp t a ht
    rw [P0.keys] at hk
    obtain rfl := List.mem_singleton.mp hk
    exact ⟨_, number_of_values h.val⟩
  have hnocount : ∀ {d : PD} {k : Str} {m : ℤ}, Spec.CountAt d k m → (∃ x, Spec.NumberAt d k x) → False := by
    rintro d k m h ⟨x, w, h1, h2⟩
    rw [Spec.CountAt, h1] at h
    rcases h2 with rfl | rfl <;> simp at h
  have hqs : Spec.Summable fmt q0 qs := ⟨by rw [List.head?_eq_getElem?]; exact hq0,
    fun a ha => by obtain ⟨t, ht⟩ := hqm a ha; exact (hq t a ht).1,
    fun a ha => by obtain ⟨t, ht⟩ := hqm a ha; rw [Q0.scale, (hq t a ht).2.scale],
    fun a ha => by obtain ⟨t, ht⟩ := hqm a ha; rw [Q0.marg, (hq t a ht).2.marg],
    fun a ha => by obtain ⟨t, ht⟩ := hqm a ha; rw [Q0.cond, (hq t a ht).2.cond],
    fun k hk => .inr (hqnum k hk)⟩
  have hps : Spec.Summable fmt p0 ps := ⟨by rw [List.head?_eq_getElem?]; exact hp0,
    fun a ha => by obtain ⟨t, ht⟩ := hpm a ha; exact (hp t a ht).1,
    fun a ha => by obtain ⟨t, ht⟩ := hpm a ha; rw [P0.scale, (hp t a ht).2.scale],
    fun a ha => by obtain ⟨t, ht⟩ := hpm a ha; rw [P0.marg, (hp t a ht).2.marg],
    fun a ha => by obtain ⟨t, ht⟩ := hpm a ha; rw [P0.cond, (hp t a ht).2.cond],
    fun k hk => .inr (hpnum k hk)⟩
  obtain ⟨q, r1, _, r2⟩ := C26_summate_partial fmt q0 qs hqs
    ⟨v.name, by rw [Q0.keys]; simp, hqnum _ (by rw [Q0.keys]; simp)⟩
    (fun k hk m hm => (hnocount hm (hqnum k hk q0 (List.mem_of_getElem? hq0))).elim)
  obtain ⟨p', s1, _, s2⟩ := C26_summate_partial fmt p0 ps hps
    ⟨v.name, by rw [P0.keys]; simp, hpnum _ (by rw [P0.keys]; simp)⟩
    (fun k hk m hm => (hnocount hm (hpnum k hk p0 (List.mem_of_getElem? hp0))).elim)
  have lq : qs.length = k := q2.trans e2
  have lp : ps.length = k := p2.trans e2
  refine ⟨S', xs, qs, ps, q, p', y, e1, by rw [(C39_collect false xs).2.2.1]; exact q1, r1,
    by rw [(C39_collect false xs).2.1]; exact p1, s1, e3, ?_, ?_, by rw [r2.shape, lq], ?_, ?_, ?_, ?_,
    by rw [s2.shape, lp], ?_, ?_⟩
  · intro t ht
    exact (e4 t _ (List.getElem?_eq_getElem (by omega))).2
  · rw [r2.keys, Q0.marg, Q0.cond]; rfl
  · rw [← lq]
    exact sum_values r2 (by rw [Q0.keys]; simp) (fun t => val (y t)) fun t a ha => (hq t a ha).2.pred
  · rw [← lq]
    exact sum_values r2 (by rw [Q0.keys]; simp) (fun t => val (y (t + 1))) fun t a ha => (hq t a ha).2.succ
  · intro t ht
    obtain ⟨d, hd⟩ : ∃ d, qs[t]? = some d := ⟨_, List.getElem?_eq_getElem (by omega)⟩
    rw [r2.entry t d hd, PD.at, (hq t d hd).2.scale, (hq t d hd).2.prob]
    simp [Spec.value]
  · rw [s2.keys, P0.marg, P0.cond]; rfl
  · rw [← lp]
    exact sum_values s2 (by rw [P0.keys]; simp) (fun t => val (y (t + 1))) fun t a ha => (hp t a ha).2.val
  · intro t ht
    obtain ⟨d, hd⟩ : ∃ d, ps[t]? = some d := ⟨_, List.getElem?_eq_getElem (by omega)⟩
    rw [s2.entry t d hd, PD.at, (hp t d hd).2.scale, (hp t d hd).2.prob]
    simp [Spec.value]

/-! ### The example of the repository -/

/-- The matrix of examples/markov/markov_sp_matrix.py. -/
noncomputable def norris : Matrix (Fin 3) (Fin 3) ℝ := !![0, 0, 1/2; 1, 1/2, 0; 0, 1/2, 1/2]

theorem norris_stochastic : Spec.Stochastic norris := by
  refine ⟨fun i j => ?_, fun j => ?_⟩
  · fin_cases i <;> fin_cases j <;> simp [norris]
  · fin_cases j <;> simp [norris, Fin.sum_univ_three] <;> norm_num

theorem norris_pow : ∀ i j, 0 < (norris ^ 4) i j := by
  have h2 : norris ^ 2 = !![0, 1/4, 1/4; 1/2, 1/4, 1/2; 1/2, 1/2, 1/4] := by
    rw [pow_two]
    ext i j
    fin_cases i <;> fin_cases j <;> simp [norris, Matrix.mul_apply, Fin.sum_univ_three] <;> norm_num
  have h4 : norris ^ 4 = (norris ^ 2) * (norris ^ 2) := by rw [← pow_add]
  intro i j
  rw [h4, h2]
  fin_cases i <;> fin_cases j <;> simp [Matrix.mul_apply, Fin.sum_univ_three] <;> norm_num

/-- The variable of the example. -/
noncomputable def norrisVar : Drawn :=
  ⟨⟨['x'], [0, 1, 2], .none, .scalar (1 / 3), .matrix (Spec.rows norris), none⟩, 0, []⟩

noncomputable def norrisField : RField := ⟨[norrisVar], .none, .none, none⟩

theorem norris_field : Spec.MarkovField (fun _ => ['v']) norrisField norrisVar (fun i : Fin 3 => (i : ℚ)) norris
    (fun _ => 1 / 3) where
  good := {
    ne := by simp [norrisField]
    nodup := by simp [norrisField, RField.names]
    good := by
      intro v hv
      simp only [norrisField, List.mem_singleton] at hv
      subst hv
      exact ⟨by decide, by decide, by decide, by decide, by decide, by decide, by decide,
        by simp, by simp, by simp, by simp⟩
    plain := by
      intro v hv
      simp only [norrisField, List.mem_singleton] at hv
      subst hv
      decide }
  only := rfl
  tran := rfl
  tfun := rfl
  delta := rfl
  nodup := by simp [norrisVar]
  mono := by
    intro i j h
    have : (i : ℕ) < (j : ℕ) := h
    simpa using this
  range := by
    intro x
    simp only [norrisVar, List.mem_cons, List.not_mem_nil, or_false]
    constructor
    · rintro (rfl | rfl | rfl)
      · exact ⟨0, by simp⟩
      · exact ⟨1, by simp⟩
      · exact ⟨2, by simp⟩
    · rintro ⟨i, rfl⟩
      fin_cases i <;> simp
  matrix := .inl rfl
  scale := by simp [norrisVar, evalPscale]
  prob := by
    intro i
    refine ⟨⟨[], fun _ => 1 / 3⟩, ?_, rfl, rfl⟩
    fin_cases i <;>
      simp [norrisVar, DRV.evalProb, rvEvalProb, insideD, evalPscale, uniformProb, PScale.iscomplex]

/-- The recurrence of the characteristic polynomial. -/
theorem norris_cube : norris ^ 3 = norris ^ 2 - (1 / 4 : ℝ) • norris + (1 / 4 : ℝ) • (1 : Matrix (Fin 3) (Fin 3) ℝ) := by
  have h2 : norris ^ 2 = !![0, 1/4, 1/4; 1/2, 1/4, 1/2; 1/2, 1/2, 1/4] := by
    rw [pow_two]
    ext i j
    fin_cases i <;> fin_cases j <;> simp [norris, Matrix.mul_apply, Fin.sum_univ_three] <;> norm_num
  rw [pow_succ, h2]
  ext i j
  fin_cases i <;> fin_cases j <;> simp [norris, Matrix.mul_apply, Fin.sum_univ_three, Matrix.one_apply] <;> norm_num

/-- The formula that the example plots as expected. -/
noncomputable def Spec.hatp (m : ℕ) : ℝ :=
  1 / 5 + (1 / 2) ^ m * (4 / 5 * Real.cos (m * (Real.pi / 2)) - 2 / 5 * Real.sin (m * (Real.pi / 2)))

theorem norris_hatp (m : ℕ) : (norris ^ m) 0 0 = Spec.hatp m := by
  induction m using Nat.strong_induction_on with
  | _ m ih =>
    match m, ih with
    | 0, _ => simp [Spec.hatp]; norm_num
    | 1, _ => simp [Spec.hatp, norris]; norm_num
    | 2, _ =>
      rw [pow_two, Matrix.mul_apply, Spec.hatp]
      have : ((2 : ℕ) : ℝ) * (Real.pi / 2) = Real.pi := by push_cast; ring
      rw [this]
      simp [norris, Fin.sum_univ_three]; norm_num
    | k + 3, ih =>
      have h0 := ih k (by omega)
      have h1 := ih (k + 1) (by omega)
      have h2 := ih (k + 2) (by omega)
      have e : norris ^ (k + 3) = norris ^ (k + 2) - (1 / 4 : ℝ) • norris ^ (k + 1) + (1 / 4 : ℝ) • norris ^ k := by
        rw [pow_add, norris_cube, mul_add, mul_sub, ← pow_add, Matrix.mul_smul, Matrix.mul_smul, mul_one, ← pow_succ]
      rw [e]
      simp only [Matrix.add_apply, Matrix.sub_apply, Matrix.smul_apply, smul_eq_mul, h0, h1, h2, Spec.hatp]
      have a1 : ((k + 1 : ℕ) : ℝ) * (Real.pi / 2) = k * (Real.pi / 2) + Real.pi / 2 := by push_cast; ring
      have a2 : ((k + 2 : ℕ) : ℝ) * (Real.pi / 2) = k * (Real.pi / 2) + Real.pi := by push_cast; ring
      have a3 : ((k + 3 : ℕ) : ℝ) * (Real.pi / 2) = (k * (Real.pi / 2) + Real.pi) + Real.pi / 2 := by push_cast; ring
      rw [a1, a2, a3, Real.cos_add_pi_div_two, Real.sin_add_pi_div_two, Real.cos_add_pi_div_two,
        Real.sin_add_pi_div_two, Real.cos_add_pi, Real.sin_add_pi]
      ring

/-- C87: the example examples/markov/markov_sp_matrix.py simulates what it says: the chance
that the sample after `m` steps from 0 is again 0 is the formula it plots. -/
theorem C87_example {arrays : Dict Str Val → Py Arr} (m : ℕ) :
    volume {u : Fin (m + 1) → ℝ | (∀ t, u t ∈ Set.Ico (0 : ℝ) 1) ∧
      Spec.EndsAt (fun _ => ['v']) norrisField arrays norrisVar.name (fun i : Fin 3 => (i : ℚ)) 0 0 u} =
        ENNReal.ofReal (Spec.hatp (m + 1)) := by
  rw [← norris_hatp]
  exact C87_law (arrays := arrays) norris_field norris_stochastic 0 0 m

example {arrays : Dict Str Val → Py Arr} :
    ∃ π : Fin 3 → ℝ, (∀ i, 0 ≤ π i) ∧ ∑ i, π i = 1 ∧ norris.mulVec π = π ∧
      (∀ ρ : Fin 3 → ℝ, ∑ i, ρ i = 1 → norris.mulVec ρ = ρ → ρ = π) ∧
      ∀ z i, Tendsto (fun k => (volume {u : Fin (k + 1) → ℝ | (∀ t, u t ∈ Set.Ico (0 : ℝ) 1) ∧
        Spec.EndsAt (fun _ => ['v']) norrisField arrays norrisVar.name (fun i : Fin 3 => (i : ℚ)) i z u}).toReal)
          atTop (𝓝 (π z)) :=
  C87_converges (arrays := arrays) norris_field norris_stochastic (by norm_num) norris_pow

end Probayes
