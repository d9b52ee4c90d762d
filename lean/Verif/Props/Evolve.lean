/-
C95: evolving the conditional distribution of a Markov chain by renaming, multiplying and
marginalising gives the powers of the transition matrix.
-/
import Verif.Lemmas.Evolve
import Verif.Props.RVCall

namespace Probayes

variable {fmt : Val → Str}

section
variable {a b : PD} {z y x sfx : Str} {zs ys xs : List ℚ}
  {S : Matrix (Fin zs.length) (Fin ys.length) ℝ} {T : Matrix (Fin ys.length) (Fin xs.length) ℝ}

/-- C95 (Chapman-Kolmogorov), on linear scales: the product of a conditional distribution of `z`
given `y` and one of `y` given `x`, summed over `y`, is the conditional distribution of `z` given
`x` whose probabilities are the sums over `y` of the products. -/
theorem C95_chain_linear_partial (A : Spec.Kernel fmt a z y sfx zs ys S)
    (B : Spec.Kernel fmt b y x sfx ys xs T) (hzx : z ≠ x) (hzs : zs ≠ []) (hys : ys ≠ [])
    (hxs : xs ≠ []) {c e : ℝ} (ha : a.pscale = .lin c) (hb : b.pscale = .lin e) (hc : 0 < c) (he : 0 < e) :
    ∃ r, a.chainOn fmt b y = .ok r ∧ r.pscale = .lin (c * e) ∧
      Spec.Kernel fmt r z x sfx zs xs (S * T) := by
  obtain ⟨F, G⟩ := cond_factors A B hzx hzs hys hxs
  obtain ⟨J, h1, h2, P, h3⟩ := C19_linear_partial F G (by simp [ha, hb, PScale.iscomplex])
  have h3 : J.pscale = .lin (c * e) := by rw [h3]; simp [ha, hb, Spec.factor]
  obtain ⟨r, h4, h5, U, h6, h7⟩ := cond_core A B hzx hzs hys hxs h2 P
    (fun _ _ => readable_lin h3 (mul_pos hc he))
  refine ⟨r, by simp [PD.chainOn, h1, h4, bind, Except.bind], h5.trans h3, ?_⟩
  convert h6
  ext i j
  rw [h7]
  exact (rescaleE_from_one _ _ (by rw [h3]; exact mul_pos hc he) h2.stable (by rw [h3]; trivial)).symm

/-- What the chain gives on the logarithmic scale. -/
theorem chain_log (A : Spec.Kernel fmt a z y sfx zs ys S)
    (B : Spec.Kernel fmt b y x sfx ys xs T) (hzx : z ≠ x) (hzs : zs ≠ []) (hys : ys ≠ [])
    (hxs : xs ≠ []) (ha : a.pscale = .log 0 0) (hb : b.pscale = .log 0 0)
    (hle : ∀ i l j, S i l * T l j ≤ npi) :
    ∃ r, a.chainOn fmt b y = .ok r ∧ r.pscale = .log 0 0 ∧
      ∃ U, Spec.Kernel fmt r z x sfx zs xs U ∧
        ∀ i j, U i j = Real.exp (logProb ((S * T) i j)) := by
  obtain ⟨F, G⟩ := cond_factors A B hzx hzs hys hxs
  obtain ⟨J, h1, h2, P, h3⟩ := C19_log_partial F G (by simp [ha, hb, Spec.Valid])
    ⟨a, by simp, by simp [ha, PScale.iscomplex]⟩ (by simp [ha, hb, Spec.factor, Spec.offset])
    (by simp [ha, hb, PScale.iscomplex])
  obtain ⟨r, h4, h5, U, h6, h7⟩ := cond_core A B hzx hzs hys hxs h2 P (by
    intro hs he
    refine ⟨by rw [h3]; trivial, ?_⟩
    intro ix hix
    rw [hs, mem_idx] at hix
    match ix, hix with
    | [i, l, j], hix =>
      simp at hix
      have := he ⟨i, hix.1⟩ ⟨l, hix.2.1⟩ ⟨j, hix.2.2⟩
      simp only [PD.at, h3, Spec.value, Spec.offset, ite_self, add_zero, neg_zero] at this
      have h8 := hle ⟨i, hix.1⟩ ⟨l, hix.2.1⟩ ⟨j, hix.2.2⟩
      rw [← this] at h8
      rw [h3]
      refine ⟨?_, .inl (by simp [Spec.offset])⟩
      simp only [Spec.offset, ite_self, add_zero, neg_zero, Real.log_one, sub_zero]
      exact (Real.le_log_iff_exp_le npi_pos).mpr h8)
  refine ⟨r, by simp [PD.chainOn, h1, h4, bind, Except.bind], h5.trans h3, U, h6, ?_⟩
  intro i j
  rw [h7, h3]
  simp [rescaleE, logpOffs, npz_pos, Spec.value, Spec.offset]

/-- C95 (Chapman-Kolmogorov), on the logarithmic scale, when no resulting probability is below the
smallest normal float. -/
theorem C95_chain_log_partial (A : Spec.Kernel fmt a z y sfx zs ys S)
    (B : Spec.Kernel fmt b y x sfx ys xs T) (hzx : z ≠ x) (hzs : zs ≠ []) (hys : ys ≠ [])
    (hxs : xs ≠ []) (ha : a.pscale = .log 0 0) (hb : b.pscale = .log 0 0)
    (hle : ∀ i l j, S i l * T l j ≤ npi) (hge : ∀ i j, npz ≤ (S * T) i j) :
    ∃ r, a.chainOn fmt b y = .ok r ∧ r.pscale = .log 0 0 ∧
      Spec.Kernel fmt r z x sfx zs xs (S * T) := by
  obtain ⟨r, h1, h2, U, h3, h4⟩ := chain_log A B hzx hzs hys hxs ha hb hle
  refine ⟨r, h1, h2, ?_⟩
  convert h3
  ext i j
  rw [h4, logProb, if_pos (hge i j), Real.exp_log (lt_of_lt_of_le npz_pos (hge i j))]

/-- C95: on the logarithmic scale a probability below the smallest normal float is replaced by
something smaller than any float. -/
theorem C95_lost (A : Spec.Kernel fmt a z y sfx zs ys S)
    (B : Spec.Kernel fmt b y x sfx ys xs T) (hzx : z ≠ x) (hzs : zs ≠ []) (hys : ys ≠ [])
    (hxs : xs ≠ []) (ha : a.pscale = .log 0 0) (hb : b.pscale = .log 0 0)
    (hle : ∀ i l j, S i l * T l j ≤ npi) :
    ∃ r, a.chainOn fmt b y = .ok r ∧ r.pscale = .log 0 0 ∧
      ∃ U, Spec.Kernel fmt r z x sfx zs xs U ∧
        ∀ i j, U i j = if npz ≤ (S * T) i j then (S * T) i j else Real.exp nni := by
  obtain ⟨r, h1, h2, U, h3, h4⟩ := chain_log A B hzx hzs hys hxs ha hb hle
  refine ⟨r, h1, h2, U, h3, ?_⟩
  intro i j
  rw [h4, logProb]
  split
  · rw [Real.exp_log (lt_of_lt_of_le npz_pos ‹_›)]
  · rfl

end

section
variable {cond : PD} {x x' sfx : Str} {xs : List ℚ} {T : Matrix (Fin xs.length) (Fin xs.length) ℝ}
  {name : ℕ → Str}

theorem timed_ok (h : Spec.Kernel fmt cond x' x sfx xs xs T) (hxs : xs ≠ [])
    (hn : Spec.Times name) (i : ℕ) :
    ∃ r, cond.timed fmt x x' name i = .ok r ∧ r.pscale = cond.pscale ∧
      Spec.Kernel fmt r (name (i + 1)) (name i) sfx xs xs T := by
  refine cond_rekey h hxs hxs (fun he => by have := hn.distinct he; omega) ?_
  intro k _ k' hk
  have := Dict.get?_mem hk
  simp only [List.mem_cons, Prod.mk.injEq, List.not_mem_nil, or_false] at this
  rcases this with ⟨_, rfl⟩ | ⟨_, rfl⟩ <;> exact hn.usable _

theorem evolve_linear (h : Spec.Kernel fmt cond x' x sfx xs xs T) (hxs : xs ≠ [])
    (hn : Spec.Times name) {c : ℝ} (hc : 0 < c) (hs : cond.pscale = .lin c) (k : ℕ) :
    ∃ d, cond.evolve fmt x x' name k = .ok d ∧ d.pscale = .lin (c ^ (k + 1)) ∧
      Spec.Kernel fmt d (name (k + 1)) (name 0) sfx xs xs (T ^ (k + 1)) := by
  induction k with
  | zero =>
    obtain ⟨r, h1, h2, h3⟩ := timed_ok h hxs hn 0
    exact ⟨r, h1, by simp [h2, hs], by simpa using h3⟩
  | succ k ih =>
    obtain ⟨d, h1, h2, h3⟩ := ih
    obtain ⟨r, h4, h5, h6⟩ := timed_ok h hxs hn (k + 1)
    obtain ⟨e, h7, h8, h9⟩ := C95_chain_linear_partial h6 h3
      (fun he => by have := hn.distinct he; omega) hxs hxs hxs (h5.trans hs) h2 hc (by positivity)
    refine ⟨e, by simp [PD.evolve, h1, h4, h7, bind, Except.bind], by rw [h8, pow_succ' c (k + 1)], ?_⟩
    rw [pow_succ' T (k + 1)]
    exact h9

/-- C95 on linear scales: after round `k` of the loop (counted from 0) the last conditional
distribution is that of the chain's value at time `k + 1` given its value at time 0, with the
probabilities of the (k+1)-th power of the transition matrix, and the list of results has it as
plain probabilities.  Missing: logarithmic scales, for which see `C95_log_partial`. -/
theorem C95_linear_partial (h : Spec.Kernel fmt cond x' x sfx xs xs T) (hxs : xs ≠ [])
    (hn : Spec.Times name) {c : ℝ} (hc : 0 < c) (hs : cond.pscale = .lin c) (k : ℕ) :
    ∃ d r, cond.evolve fmt x x' name k = .ok d ∧ d.pscale = .lin (c ^ (k + 1)) ∧
      Spec.Kernel fmt d (name (k + 1)) (name 0) sfx xs xs (T ^ (k + 1)) ∧
      cond.conds fmt x x' name k = .ok r ∧ r.pscale = .lin 1 ∧
      Spec.Kernel fmt r (name (k + 1)) (name 0) sfx xs xs (T ^ (k + 1)) := by
  obtain ⟨d, h1, h2, h3⟩ := evolve_linear h hxs hn hc hs k
  obtain ⟨r, h4, h5, h6⟩ := cond_rescaled h3 hxs hxs (by rw [h2]; exact pow_pos hc _)
    (by intro i j; rw [h2]; trivial)
  exact ⟨d, r, h1, h2, h3, by simp [PD.conds, h1, h4, bind, Except.bind], h5, h6⟩

/-- The columns of a power of a matrix with columns summing to one sum to one. -/
theorem columns_pow {n : ℕ} {T : Matrix (Fin n) (Fin n) ℝ} (hcol : ∀ j, ∑ i, T i j = 1) (k : ℕ) :
    ∀ j, ∑ i, (T ^ k) i j = 1 := by
  induction k with
  | zero => intro j; simp [Matrix.one_apply]
  | succ k ih =>
    intro j
    simp only [pow_succ', Matrix.mul_apply]
    rw [Finset.sum_comm]
    simp only [← Finset.sum_mul, hcol, one_mul, ih]

/-- A lower bound of the entries holds for all powers. -/
theorem le_pow {n : ℕ} {T : Matrix (Fin n) (Fin n) ℝ} (hcol : ∀ j, ∑ i, T i j = 1) {c : ℝ} (hc : 0 ≤ c)
    (hT : ∀ i j, c ≤ T i j) (k : ℕ) : ∀ i j, c ≤ (T ^ (k + 1)) i j := by
  induction k with
  | zero => simpa using hT
  | succ k ih =>
    intro i j
    rw [pow_succ', Matrix.mul_apply]
    calc c = ∑ l, c * (T ^ (k + 1)) l j := by rw [← Finset.mul_sum, columns_pow hcol, mul_one]
      _ ≤ _ := Finset.sum_le_sum fun l _ => mul_le_mul_of_nonneg_right (hT i l) (hc.trans (ih l j))

theorem le_one_of_columns {n : ℕ} {T : Matrix (Fin n) (Fin n) ℝ} (hcol : ∀ j, ∑ i, T i j = 1)
    (hT : ∀ i j, 0 ≤ T i j) (i j : Fin n) : T i j ≤ 1 := by
  rw [← hcol j]
  exact Finset.single_le_sum (f := fun i => T i j) (fun i _ => hT i j) (Finset.mem_univ i)

theorem one_le_npi : (1 : ℝ) ≤ npi := by unfold npi; norm_num

theorem evolve_log (h : Spec.Kernel fmt cond x' x sfx xs xs T) (hxs : xs ≠ [])
    (hn : Spec.Times name) (hs : cond.pscale = .log 0 0) (hcol : ∀ j, ∑ i, T i j = 1)
    (hT : ∀ i j, npz ≤ T i j) (k : ℕ) :
    ∃ d, cond.evolve fmt x x' name k = .ok d ∧ d.pscale = .log 0 0 ∧
      Spec.Kernel fmt d (name (k + 1)) (name 0) sfx xs xs (T ^ (k + 1)) := by
  have h0 : ∀ k i j, 0 ≤ (T ^ (k + 1)) i j := fun k i j => npz_pos.le.trans (le_pow hcol npz_pos.le hT k i j)
  induction k with
  | zero =>
    obtain ⟨r, h1, h2, h3⟩ := timed_ok h hxs hn 0
    exact ⟨r, h1, by simp [h2, hs], by simpa using h3⟩
  | succ k ih =>
    obtain ⟨d, h1, h2, h3⟩ := ih
    obtain ⟨r, h4, h5, h6⟩ := timed_ok h hxs hn (k + 1)
    obtain ⟨e, h7, h8, h9⟩ := C95_chain_log_partial h6 h3
      (fun he => by have := hn.distinct he; omega) hxs hxs hxs (h5.trans hs) h2
      (fun i l j => (mul_le_one₀ (le_one_of_columns hcol (fun i j => npz_pos.le.trans (hT i j)) i l)
        (h0 k l j) (le_one_of_columns (columns_pow hcol _) (h0 k) l j)).trans one_le_npi)
      (fun i j => by rw [← pow_succ']; exact le_pow hcol npz_pos.le hT (k + 1) i j)
    refine ⟨e, by simp [PD.evolve, h1, h4, h7, bind, Except.bind], h8, ?_⟩
    rw [pow_succ' T (k + 1)]
    exact h9

/-- C95 on the logarithmic scale (that of the example): as on linear scales, if the columns of the
transition matrix sum to one and no transition probability is below the smallest normal float.
Missing: smaller probabilities (`C95_lost`), other logarithmic scales. -/
theorem C95_log_partial (h : Spec.Kernel fmt cond x' x sfx xs xs T) (hxs : xs ≠ [])
    (hn : Spec.Times name) (hs : cond.pscale = .log 0 0) (hcol : ∀ j, ∑ i, T i j = 1)
    (hT : ∀ i j, npz ≤ T i j) (k : ℕ) :
    ∃ d r, cond.evolve fmt x x' name k = .ok d ∧ d.pscale = .log 0 0 ∧
      Spec.Kernel fmt d (name (k + 1)) (name 0) sfx xs xs (T ^ (k + 1)) ∧
      cond.conds fmt x x' name k = .ok r ∧ r.pscale = .lin 1 ∧
      Spec.Kernel fmt r (name (k + 1)) (name 0) sfx xs xs (T ^ (k + 1)) := by
  obtain ⟨d, h1, h2, h3⟩ := evolve_log h hxs hn hs hcol hT k
  obtain ⟨r, h4, h5, h6⟩ := cond_rescaled h3 hxs hxs (by rw [h2]; trivial) (by
    intro i j
    have := h3.entry i j
    simp only [PD.at, h2, Spec.value, Spec.offset, ite_self, add_zero, neg_zero] at this
    have h8 : (T ^ (k + 1)) i j ≤ npi := (le_one_of_columns (columns_pow hcol _)
      (fun i j => npz_pos.le.trans (le_pow hcol npz_pos.le hT k i j)) i j).trans one_le_npi
    rw [← this] at h8
    rw [h2]
    refine ⟨?_, .inl (by simp [Spec.offset])⟩
    simp only [Spec.offset, ite_self, add_zero, neg_zero, Real.log_one, sub_zero]
    exact (Real.le_log_iff_exp_le npi_pos).mpr h8)
  exact ⟨d, r, h1, h2, h3, by simp [PD.conds, h1, h4, bind, Except.bind], h5, h6⟩

/-- C95: what the loop gives stays a conditional distribution: for every value at time 0 the
probabilities of the values at time `k + 1` sum to one. -/
theorem C95_columns (h : Spec.Kernel fmt cond x' x sfx xs xs T) (hxs : xs ≠ [])
    (hn : Spec.Times name) {c : ℝ} (hc : 0 < c) (hs : cond.pscale = .lin c)
    (hcol : ∀ j, ∑ i, T i j = 1) (k : ℕ) :
    ∃ d, cond.evolve fmt x x' name k = .ok d ∧ ∀ j < xs.length, ∑ i ∈ Finset.range xs.length, d.at [i, j] = 1 := by
  obtain ⟨d, h1, h2, h3⟩ := evolve_linear h hxs hn hc hs k
  refine ⟨d, h1, fun j hj => ?_⟩
  rw [Finset.sum_range, ← columns_pow hcol (k + 1) ⟨j, hj⟩]
  exact Finset.sum_congr rfl fun i _ => h3.entry i ⟨j, hj⟩

/-- C95 in full on the logarithmic scale: whatever the transition probabilities. -/
def C95_claim : Prop :=
  ∀ (fmt : Val → Str) (cond : PD) (x x' sfx : Str) (xs : List ℚ)
    (T : Matrix (Fin xs.length) (Fin xs.length) ℝ) (name : ℕ → Str),
    Spec.Kernel fmt cond x' x sfx xs xs T → xs ≠ [] → Spec.Times name →
    cond.pscale = .log 0 0 → (∀ j, ∑ i, T i j = 1) → ∀ k,
    ∃ d, cond.evolve fmt x x' name k = .ok d ∧
      Spec.Kernel fmt d (name (k + 1)) (name 0) sfx xs xs (T ^ (k + 1))

end

section
variable {v : DRV}

theorem rank_sorted {l : List ℚ} (hl : l.Pairwise (· < ·)) (i : ℕ) (hi : i < l.length) :
    Spec.rank l l[i] = i := countP_rank _ hl i _ (List.getElem?_eq_getElem hi)

/-- C95: stepping a variable with a transition matrix over all of its values gives the conditional
distribution with that matrix. -/
theorem step_conditional (h : Spec.GoodName fmt v) (hset : v.vset.Pairwise (· < ·)) (hne : v.vset ≠ [])
    (m : List (List ℝ)) (hm : v.tran = .matrix m) (hsq : isSquare m = true)
    (hlen : v.vset.length = m.length) (hd : v.delta = none) (b : PScale) (hb : evalPscale v.pscale = .ok b)
    (M : Matrix (Fin v.vset.length) (Fin v.vset.length) ℝ)
    (hM : ∀ (i j : Fin v.vset.length) y, Spec.entry m i j y → Spec.value b y = M i j)
    (r : ℕ) (perm : List ℕ) (r' : ℕ) (perm' : List ℕ) (u : ℝ) :
    ∃ d, v.step fmt .all none false r perm r' perm' u = .ok d ∧ d.pscale = b ∧
      Spec.Kernel fmt d (v.name ++ ['\'']) v.name [] v.vset v.vset M := by
  have hlp : 0 < v.vset.length := List.length_pos_of_ne_nil hne
  obtain ⟨d, h1, h2, h3, h4, h5, h6, h7, h8, h9, h10, h11⟩ := C61_matrix h
    (hset.imp fun h => ne_of_lt h) false m (.inl hm) hsq hlen _ hb
    .all r perm _ rfl none _ (.same v.vset hd rfl) (within_vset _) (within_vset _)
    (by simp [VArg.sizes, hlp]) r' perm' u
  refine ⟨d, h1, h10, h2, by simpa [Spec.shown, Spec.specified] using h3,
    by simpa [Spec.shown, Spec.specified] using h4, h5, h6, ⟨by simpa [VArg.isscalar] using h7,
    by simpa [VArg.isscalar, VArg.sizes] using h8⟩, ?_⟩
  intro i j
  have := h11 [i.1] [j.1] v.vset[i.1] v.vset[j.1] (by simp [VArg.entry]) (by simp [VArg.entry])
  rw [rank_sorted hset, rank_sorted hset] at this
  rw [PD.at, h10]
  exact hM i j _ this

/-- C95 from a variable with a transition matrix of plain probabilities: step over all values, then
evolve. -/
theorem C95_matrix (h : Spec.GoodName fmt v) (hset : v.vset.Pairwise (· < ·)) (hne : v.vset ≠ [])
    (m : List (List ℝ)) (hm : v.tran = .matrix m) (hsq : isSquare m = true)
    (hlen : v.vset.length = m.length) (hd : v.delta = none) (hb : evalPscale v.pscale = .ok (.lin 1))
    (M : Matrix (Fin v.vset.length) (Fin v.vset.length) ℝ)
    (hM : ∀ (i j : Fin v.vset.length) y, Spec.entry m i j y → y = M i j)
    (r : ℕ) (perm : List ℕ) (r' : ℕ) (perm' : List ℕ) (u : ℝ) {name : ℕ → Str} (hn : Spec.Times name)
    (k : ℕ) :
    ∃ cond d, v.step fmt .all none false r perm r' perm' u = .ok cond ∧
      cond.conds fmt v.name (v.name ++ ['\'']) name k = .ok d ∧
      Spec.Kernel fmt d (name (k + 1)) (name 0) [] v.vset v.vset (M ^ (k + 1)) ∧
      ∀ i j : Fin v.vset.length, d.prob.get [i.1, j.1] = (M ^ (k + 1)) i j := by
  obtain ⟨cond, h1, h2, h3⟩ := step_conditional h hset hne m hm hsq hlen hd _ hb M
    (fun i j y hy => by rw [← hM i j y hy]; simp [Spec.value]) r perm r' perm' u
  obtain ⟨_, d, _, _, _, h4, h5, h6⟩ := C95_linear_partial h3 hne hn one_pos h2 k
  refine ⟨cond, d, h1, h4, h6, fun i j => ?_⟩
  have := h6.entry i j
  simpa [PD.at, h5, Spec.value] using this

end

/-! ### Concrete chains -/

/-- A two-state chain that stays with stored probability `a` and changes with `b`. -/
noncomputable def flipChain (s : PSpec) (a b : ℝ) : DRV :=
  ⟨['x'], [0, 1], s, .scalar (1 / 2), .matrix [[a, b], [b, a]], none⟩

theorem flipChain_named (s : PSpec) (a b : ℝ) : Spec.GoodName (fun _ => ['v']) (flipChain s a b) :=
  ⟨by simp [flipChain], by simp [flipChain], by simp [flipChain], by simp [flipChain], by simp [flipChain],
    by simp [flipChain], by simp [flipChain]; decide, by simp, by simp, by simp, by simp⟩

/-- The names x_, x_I, x_II, ... -/
def tally (i : ℕ) : Str := 'x' :: '_' :: List.replicate i 'I'

theorem tally_times : Spec.Times tally where
  distinct := by
    intro i j h
    have := congrArg List.length h
    simpa [tally] using this
  usable := by
    intro i
    refine ⟨by simp [tally], by simp [tally], by simp [tally], by simp [tally], by simp [tally],
      by simp [tally], ?_⟩
    simp [disallowed, tally]

/-- The matrix of the chain. -/
noncomputable def flipMatrix (p q : ℝ) : Matrix (Fin 2) (Fin 2) ℝ := !![p, q; q, p]

theorem flipChain_step (s : PSpec) (b : PScale) (hb : evalPscale s = .ok b) (p q : ℝ) :
    ∃ d, (flipChain s p q).step (fun _ => ['v']) .all none false 0 [] 0 [] 0 = .ok d ∧ d.pscale = b ∧
      Spec.Kernel (fun _ => ['v']) d ['x', '\''] ['x'] [] [0, 1] [0, 1]
        (flipMatrix (Spec.value b p) (Spec.value b q)) := by
  refine step_conditional (flipChain_named s p q) (by simp [flipChain]) (by simp [flipChain]) _ rfl
    (by simp [isSquare]) rfl rfl b hb (flipMatrix (Spec.value b p) (Spec.value b q)) ?_ 0 [] 0 [] 0
  intro i j y ⟨row, h1, h2⟩
  change Fin 2 at i j
  fin_cases i <;> fin_cases j <;> simp at h1 <;> subst h1 <;> simp at h2 <;> subst h2 <;>
    simp [flipMatrix]

/-- C95 is not vacuous on linear scales: a chain that stays with probability 3/4 is back or still
there after two steps with probability 5/8. -/
example : ∃ cond d, (flipChain .none (3 / 4) (1 / 4)).step (fun _ => ['v']) .all none false 0 [] 0 [] 0
      = .ok cond ∧
    cond.conds (fun _ => ['v']) ['x'] ['x', '\''] tally 1 = .ok d ∧ d.prob.get [0, 0] = 5 / 8 := by
  obtain ⟨cond, h1, h2, h3⟩ := flipChain_step .none (.lin 1) (by simp [evalPscale]) (3 / 4) (1 / 4)
  obtain ⟨_, d, _, _, _, h4, h5, h6⟩ := C95_linear_partial h3 (by simp) tally_times one_pos h2 1
  refine ⟨cond, d, h1, h4, ?_⟩
  have := h6.entry (0 : Fin 2) (0 : Fin 2)
  rw [PD.at, h5, Spec.value, one_mul] at this
  refine this.trans ?_
  change (flipMatrix _ _ ^ 2) 0 0 = _
  simp [pow_two, flipMatrix, Spec.value]
  norm_num

theorem flipMatrix_columns {p q : ℝ} (h : p + q = 1) : ∀ j, ∑ i, flipMatrix p q i j = 1 := by
  intro j
  fin_cases j <;> simp [flipMatrix, h, add_comm]

/-- C95 is not vacuous on the logarithmic scale. -/
example (k : ℕ) : ∃ cond d, (flipChain (.str "log") (Real.log (3 / 4)) (Real.log (1 / 4))).step
      (fun _ => ['v']) .all none false 0 [] 0 [] 0 = .ok cond ∧
    cond.conds (fun _ => ['v']) ['x'] ['x', '\''] tally k = .ok d ∧
    Spec.Kernel (fun _ => ['v']) d (tally (k + 1)) (tally 0) [] [0, 1] [0, 1]
      (flipMatrix (3 / 4) (1 / 4) ^ (k + 1)) := by
  obtain ⟨cond, h1, h2, h3⟩ := flipChain_step (.str "log") (.log 0 0) (by simp [evalPscale, complexZero])
    (Real.log (3 / 4)) (Real.log (1 / 4))
  have e1 : Spec.value (.log 0 0) (Real.log (3 / 4)) = 3 / 4 := by
    simp only [Spec.value, Spec.offset, ite_self, add_zero, neg_zero]; rw [Real.exp_log (by norm_num)]
  have e2 : Spec.value (.log 0 0) (Real.log (1 / 4)) = 1 / 4 := by
    simp only [Spec.value, Spec.offset, ite_self, add_zero, neg_zero]; rw [Real.exp_log (by norm_num)]
  rw [e1, e2] at h3
  have hz : npz ≤ 1 / 4 := by unfold npz; norm_num
  obtain ⟨_, d, _, _, _, h4, h5, h6⟩ := C95_log_partial h3 (by simp) tally_times h2
    (flipMatrix_columns (by norm_num)) (by
      intro i j
      change Fin 2 at i j
      fin_cases i <;> fin_cases j <;> simp [flipMatrix] <;> linarith) k
  exact ⟨cond, d, h1, h4, h6⟩

/-- C95 in full does not hold: a chain that changes with a probability of a quarter of the smallest
normal float has, after two steps on the logarithmic scale, lost half of that float. -/
theorem C95_claim_fails : ¬ C95_claim := by
  intro H
  set e : ℝ := npz / 4 with he
  have e0 : 0 < e := by have := npz_pos; positivity
  have e1 : e < 1 / 4 := by have := npz_lt_one; rw [he]; linarith
  obtain ⟨cond, h1, h2, h3⟩ := flipChain_step (.str "log") (.log 0 0) (by simp [evalPscale, complexZero])
    (Real.log (1 - e)) (Real.log e)
  have v1 : Spec.value (.log 0 0) (Real.log (1 - e)) = 1 - e := by
    simp only [Spec.value, Spec.offset, ite_self, add_zero, neg_zero]; rw [Real.exp_log (by linarith)]
  have v2 : Spec.value (.log 0 0) (Real.log e) = e := by
    simp only [Spec.value, Spec.offset, ite_self, add_zero, neg_zero]; rw [Real.exp_log e0]
  rw [v1, v2] at h3
  obtain ⟨d, h4, h5⟩ := H _ cond _ _ [] [0, 1] _ tally h3 (by simp) tally_times h2
    (flipMatrix_columns (by ring)) 1
  obtain ⟨a, a1, a2, a3⟩ := timed_ok h3 (by simp) tally_times 0
  obtain ⟨b, b1, b2, b3⟩ := timed_ok h3 (by simp) tally_times 1
  have hpos : ∀ i j : Fin 2, 0 ≤ flipMatrix (1 - e) e i j := by
    intro i j
    fin_cases i <;> fin_cases j <;> simp [flipMatrix] <;> linarith
  have hone : ∀ i j : Fin 2, flipMatrix (1 - e) e i j ≤ 1 :=
    le_one_of_columns (flipMatrix_columns (by ring)) hpos
  obtain ⟨r, r1, r2, U, r3, r4⟩ := C95_lost b3 a3 (fun h => by have := tally_times.distinct h; omega)
    (by simp) (by simp) (by simp) (b2.trans h2) (a2.trans h2)
    (fun i l j => (mul_le_one₀ (hone i l) (hpos l j) (hone l j)).trans one_le_npi)
  have hr : cond.evolve (fun _ => ['v']) ['x'] ['x', '\''] tally 1 = .ok r := by
    simp [PD.evolve, a1, b1, bind, Except.bind]
    exact r1
  rw [hr] at h4
  obtain rfl := Except.ok.inj h4
  have w1 := r3.entry (0 : Fin 2) (1 : Fin 2)
  have w2 := h5.entry (0 : Fin 2) (1 : Fin 2)
  have hval : (flipMatrix (1 - e) e * flipMatrix (1 - e) e) 0 1 = 2 * e * (1 - e) := by
    simp [flipMatrix]; ring
  have hU := r4 (0 : Fin 2) (1 : Fin 2)
  have hlt : 2 * e * (1 - e) < npz := by rw [he] at *; nlinarith
  have hU' : U (0 : Fin 2) (1 : Fin 2) = Real.exp nni := by
    refine hU.trans ?_
    change (if npz ≤ (flipMatrix (1 - e) e * flipMatrix (1 - e) e) 0 1 then _ else _) = _
    rw [hval, if_neg (not_le.mpr hlt)]
  have hw2 : r.at [(0 : Fin 2).1, (1 : Fin 2).1] = 2 * e * (1 - e) := by
    refine w2.trans ?_
    change (flipMatrix (1 - e) e ^ 2) 0 1 = _
    rw [pow_two, hval]
  have : Real.exp nni = 2 * e * (1 - e) := by rw [← hU', ← hw2]; exact w1.symm
  have hexp : Real.exp nni * npi < 1 := by
    have h1 : npi < Real.exp npi := by have := Real.add_one_le_exp npi; linarith
    have h2 : Real.exp nni = 1 / Real.exp npi := by unfold nni; rw [Real.exp_neg, one_div]
    rw [h2, one_div, inv_mul_lt_iff₀ (Real.exp_pos _)]
    linarith
  rw [this, he] at hexp
  have hn : (1 : ℝ) < npz / 4 * npi * (3 / 2) := by unfold npz npi; norm_num
  have hp : 0 < npz / 4 * npi := mul_pos e0 npi_pos
  nlinarith

end Probayes
