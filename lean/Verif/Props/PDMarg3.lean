/-
C16: marginalising in stages, and `marginal`.
-/
import Verif.Props.PDMarg2
import Mathlib.Algebra.Order.BigOperators.Group.Finset

namespace Probayes

/-- Probabilities within the range of the conversions between scales: nothing to
check on a linear scale; on a logarithmic one every probability is at least the
smallest normal float, the total is below the largest, and the offset is zero or
at least the smallest normal float. -/
def Spec.Tame (d : PD) : Prop :=
  match d.pscale with
  | .lin c => 0 < c
  | .log re im => (Spec.offset re im = 0 ∨ npz ≤ |Spec.offset re im|) ∧
      (∀ i ∈ idx d.shape, npz ≤ d.at i) ∧ Spec.mass d ≤ npi

/-- The same distribution: the same variables in the same order with the same
values, the same name and scale, and the same probability at every joint value. -/
structure Spec.Same (r r' : PD) : Prop where
  keylist : r.keylist = r'.keylist
  marg : r.marg = r'.marg
  cond : r.cond = r'.cond
  values : ∀ k, r.values k = r'.values k
  pscale : r.pscale = r'.pscale
  /-- entries correspond one to one -/
  unique : ∀ j ∈ idx r.shape, ∃! j', j' ∈ idx r'.shape ∧ Spec.Agree r r' j j'
  unique' : ∀ j' ∈ idx r'.shape, ∃! j, j ∈ idx r.shape ∧ Spec.Agree r r' j j'
  entry : ∀ j ∈ idx r.shape, ∀ j' ∈ idx r'.shape, Spec.Agree r r' j j' → r.at j = r'.at j'

theorem Spec.Tame.at_nonneg {d : PD} (h : Spec.Tame d) (hl : ∀ c, d.pscale ≠ .lin c) {i : List ℕ} :
    0 ≤ d.at i := by
  unfold PD.at
  rcases hp : d.pscale with c | ⟨re, im⟩
  · exact absurd hp (hl c)
  · exact (Real.exp_pos _).le

theorem Spec.Tame.readable {d : PD} (h : Spec.Tame d) : Spec.Readable d := by
  unfold Spec.Tame at h
  unfold Spec.Readable
  rcases hp : d.pscale with c | ⟨re, im⟩
  · rw [hp] at h
    exact ⟨h, fun _ _ => trivial⟩
  · rw [hp] at h
    obtain ⟨h1, h2, h3⟩ := h
    refine ⟨trivial, fun i hi => ⟨?_, ?_⟩⟩
    · have hle : d.at i ≤ npi := by
        refine le_trans (Finset.single_le_sum (f := d.at) (fun j hj => ?_) hi) h3
        exact le_trans npz_pos.le (h2 j hj)
      have hexp : d.at i = Real.exp (d.prob.get i + Spec.offset re im) := by
        simp [PD.at, hp, Spec.value]
      rw [hexp] at hle
      rw [Real.log_one, sub_zero]
      exact (Real.le_log_iff_exp_le npi_pos).mpr hle
    · rw [Real.log_one, sub_zero]; exact h1

section
variable {d r : PD} {keys : List Str}

theorem sumAt_writable (h : Spec.Tame d) (hs : Spec.SummedOut d keys r) :
    ∀ j ∈ idx r.shape, Spec.Writable d.pscale (Spec.sumAt d r j) := by
  intro j hj
  unfold Spec.Tame at h
  unfold Spec.Writable
  rcases hp : d.pscale with c | ⟨re, im⟩
  · trivial
  · rw [hp] at h
    obtain ⟨h1, h2, h3⟩ := h
    refine ⟨?_, ?_⟩
    · obtain ⟨i, hi, ha⟩ := hs.onto j hj
      classical
      unfold Spec.sumAt
      refine le_trans (h2 i hi) (Finset.single_le_sum (f := d.at) (fun i' hi' => ?_) ?_)
      · exact le_trans npz_pos.le (h2 i' (Finset.mem_filter.mp hi').1)
      · rw [Finset.mem_filter]; exact ⟨hi, ha⟩
    · rw [Real.log_one, zero_sub, abs_neg]
      rcases h1 with h1 | h1
      · left; exact h1.symm
      · right; exact h1

theorem Spec.SummedOut.tame (h : Spec.Tame d) (hs : Spec.SummedOut d keys r) :
    Spec.Tame r := by
  have hw := sumAt_writable h hs
  have hm := C15_mass d r keys hs hw
  unfold Spec.Tame at h ⊢
  rw [hs.pscale]
  rcases hp : d.pscale with c | ⟨re, im⟩
  · rw [hp] at h; exact h
  · rw [hp] at h
    obtain ⟨h1, h2, h3⟩ := h
    refine ⟨h1, ?_, by rw [hm]; exact h3⟩
    intro j hj
    rw [hs.entry j hj (hw j hj)]
    have := hw j hj
    rw [hp] at this
    exact this.1

end

/-- Taking entries of `d` to entries of `r'` directly or through `r` is the same. -/
theorem agree_trans {fmt : Val → Str} {d r r' : PD} {A B : List Str} (hr : r.WF fmt) (hr' : r'.WF fmt)
    (h1 : Spec.SummedOut d A r) (h2 : Spec.SummedOut r B r') {i j' : List ℕ} (hi : i ∈ idx d.shape) :
    Spec.Agree d r' i j' ↔ ∃ j ∈ idx r.shape, Spec.Agree d r i j ∧ Spec.Agree r r' j j' := by
  have hin : ∀ k b, r'.axis k = some b → ∃ c, r.axis k = some c := by
    intro k b hb
    have hk := hr'.dimKeys k (Dict.mem_keys_of_get? (join_eq_some.mp hb))
    have := h2.arrays k hk
    rw [hb] at this
    exact Option.isSome_iff_exists.mp this.symm
  have hin1 : ∀ k b, r.axis k = some b → ∃ c, d.axis k = some c := by
    intro k b hb
    have hk := hr.dimKeys k (Dict.mem_keys_of_get? (join_eq_some.mp hb))
    have := h1.arrays k hk
    rw [hb] at this
    exact Option.isSome_iff_exists.mp this.symm
  constructor
  · intro ha
    obtain ⟨j, ⟨hj, haj⟩, _⟩ := h1.unique i hi
    refine ⟨j, hj, haj, ?_⟩
    intro k b b' hb hb'
    obtain ⟨a, haa⟩ := hin1 k b hb
    rw [← haj k a b haa hb]
    exact ha k a b' haa hb'
  · rintro ⟨j, hj, h3, h4⟩ k a b ha hb
    obtain ⟨c, hc⟩ := hin k b hb
    rw [h3 k a c ha hc]
    exact h4 k c b hc hb

theorem filter_filter_notMem (l A B : List Str) :
    (l.filter (· ∉ A)).filter (· ∉ B) = l.filter (· ∉ A ++ B) := by
  rw [List.filter_filter]
  apply List.filter_congr
  intro k _
  by_cases h1 : k ∈ A <;> by_cases h2 : k ∈ B <;> simp [h1, h2]

/-- `SummedOut` composes. -/
theorem Spec.SummedOut.trans {fmt : Val → Str} {d r r' : PD} {A B : List Str} (hr : r.WF fmt) (hr' : r'.WF fmt)
    (h : Spec.Tame d)
    (h1 : Spec.SummedOut d A r) (h2 : Spec.SummedOut r B r') : Spec.SummedOut d (A ++ B) r' := by
  classical
  have hw := sumAt_writable h h1
  have hsum : ∀ j' ∈ idx r'.shape, Spec.sumAt r r' j' = Spec.sumAt d r' j' := by
    intro j' hj'
    have e1 : Spec.sumAt r r' j' = ∑ j ∈ (idx r.shape).filter (fun j => Spec.Agree r r' j j'),
        Spec.sumAt d r j := by
      unfold Spec.sumAt
      refine Finset.sum_congr (by congr!) ?_
      intro j hj
      exact h1.entry j (Finset.mem_filter.mp hj).1 (hw j (Finset.mem_filter.mp hj).1)
    rw [e1, sum_sumAt _ h1.unique, Spec.sumAt]
    refine Finset.sum_congr ?_ (fun _ _ => rfl)
    ext i
    simp only [Finset.mem_filter, and_congr_right_iff]
    intro hi
    exact (agree_trans hr hr' h1 h2 hi).symm
  refine ⟨?_, ?_, by rw [h2.cond, h1.cond], ?_, by rw [h2.pscale, h1.pscale], ?_, ?_, ?_, ?_, ?_, ?_⟩
  · rw [h2.keylist, h1.keylist, filter_filter_notMem]
  · rw [h2.marg, h1.marg, List.filter_filter]
    apply List.filter_congr
    intro kv _
    by_cases g1 : kv.1 ∈ A <;> by_cases g2 : kv.1 ∈ B <;> simp [g1, g2]
  · intro k hk
    have hk' : k ∈ r.keylist := by rw [h2.keylist] at hk; exact (List.mem_filter.mp hk).1
    rw [h2.values k hk, h1.values k hk']
  · intro k hk
    have hk' : k ∈ r.keylist := by rw [h2.keylist] at hk; exact (List.mem_filter.mp hk).1
    rw [h2.arrays k hk, h1.arrays k hk']
  · intro k k' a a' c c' ha ha' hc hc'
    have hin : ∀ k b, r'.axis k = some b → ∃ c, r.axis k = some c := by
      intro k b hb
      have hk := hr'.dimKeys k (Dict.mem_keys_of_get? (join_eq_some.mp hb))
      have := h2.arrays k hk
      rw [hb] at this
      exact Option.isSome_iff_exists.mp this.symm
    obtain ⟨b, hb⟩ := hin k c hc
    obtain ⟨b', hb'⟩ := hin k' c' hc'
    rw [h2.order k k' b b' c c' hb hb' hc hc', h1.order k k' a a' b b' ha ha' hb hb']
  · intro n hn; exact h1.sizes n (h2.sizes n hn)
  · intro i hi
    obtain ⟨j, ⟨hj, haj⟩, huj⟩ := h1.unique i hi
    obtain ⟨j', ⟨hj', haj'⟩, huj'⟩ := h2.unique j hj
    refine ⟨j', ⟨hj', (agree_trans hr hr' h1 h2 hi).mpr ⟨j, hj, haj, haj'⟩⟩, ?_⟩
    rintro l ⟨hl, hal⟩
    obtain ⟨m, hm, h3, h4⟩ := (agree_trans hr hr' h1 h2 hi).mp hal
    have := huj m ⟨hm, h3⟩
    subst this
    exact huj' l ⟨hl, h4⟩
  · intro j' hj'
    obtain ⟨j, hj, h3⟩ := h2.onto j' hj'
    obtain ⟨i, hi, h4⟩ := h1.onto j hj
    exact ⟨i, hi, (agree_trans hr hr' h1 h2 hi).mpr ⟨j, hj, h4, h3⟩⟩
  · intro j' hj' hwr
    rw [← hsum j' hj']
    apply h2.entry j' hj'
    rw [h1.pscale, hsum j' hj']; exact hwr

/-- Two distributions obtained by summing out the same variables are the same. -/
theorem Spec.SummedOut.same {fmt : Val → Str} {d r r' : PD} {A B : List Str} (hr : r.WF fmt) (hr' : r'.WF fmt)
    (h : Spec.Tame d) (hAB : ∀ k, k ∈ A ↔ k ∈ B)
    (h1 : Spec.SummedOut d A r) (h2 : Spec.SummedOut d B r') : Spec.Same r r' := by
  have hk : r.keylist = r'.keylist := by
    rw [h1.keylist, h2.keylist]; apply List.filter_congr; intro k _; simp [hAB]
  have hsome : ∀ k, (r.axis k).isSome = (r'.axis k).isSome := by
    intro k
    by_cases hkk : k ∈ r.keylist
    · rw [h1.arrays k hkk, h2.arrays k (by rw [← hk]; exact hkk)]
    · have hkk' : k ∉ r'.keylist := by rw [← hk]; exact hkk
      have n1 : r.axis k = none := by
        rcases ha : r.axis k with _ | a
        · rfl
        · exact absurd (hr.dimKeys k (Dict.mem_keys_of_get? (join_eq_some.mp ha))) hkk
      have n2 : r'.axis k = none := by
        rcases ha : r'.axis k with _ | a
        · rfl
        · exact absurd (hr'.dimKeys k (Dict.mem_keys_of_get? (join_eq_some.mp ha))) (hkk')
      rw [n1, n2]
  have hd : ∀ k b, r.axis k = some b → ∃ a, d.axis k = some a := by
    intro k b hb
    have hk := hr.dimKeys k (Dict.mem_keys_of_get? (join_eq_some.mp hb))
    have := h1.arrays k hk
    rw [hb] at this
    exact Option.isSome_iff_exists.mp this.symm
  -- `j` and `j'` agree iff they come from the same entries
  have key : ∀ i, ∀ j j', Spec.Agree d r i j → Spec.Agree d r' i j' → Spec.Agree r r' j j' := by
    intro i j j' h3 h4 k b b' hb hb'
    obtain ⟨a, ha⟩ := hd k b hb
    rw [← h3 k a b ha hb, h4 k a b' ha hb']
  have key2 : ∀ i, ∀ j j', Spec.Agree r r' j j' → (Spec.Agree d r i j ↔ Spec.Agree d r' i j') := by
    intro i j j' h3
    constructor
    · intro h4 k a b' ha hb'
      obtain ⟨b, hb⟩ := Option.isSome_iff_exists.mp (by rw [hsome k, hb']; rfl : (r.axis k).isSome = true)
      rw [h4 k a b ha hb, h3 k b b' hb hb']
    · intro h4 k a b ha hb
      obtain ⟨b', hb'⟩ := Option.isSome_iff_exists.mp (by rw [← hsome k, hb]; rfl : (r'.axis k).isSome = true)
      rw [h4 k a b' ha hb', h3 k b b' hb hb']
  refine ⟨hk, ?_, by rw [h1.cond, h2.cond], ?_, by rw [h1.pscale, h2.pscale], ?_, ?_, ?_⟩
  · rw [h1.marg, h2.marg]; apply List.filter_congr; intro kv _; simp [hAB]
  · intro k
    by_cases hkk : k ∈ r.keylist
    · rw [h1.values k hkk, h2.values k (by rw [← hk]; exact hkk)]
    · have hkk' : k ∉ r'.keylist := by rw [← hk]; exact hkk
      have n1 : Dict.get? r.vals k = none := Dict.get?_eq_none.mpr hkk
      have n2 : Dict.get? r'.vals k = none := Dict.get?_eq_none.mpr (hkk')
      simp [PD.values, n1, n2]
  · intro j hj
    obtain ⟨i, hi, hij⟩ := h1.onto j hj
    obtain ⟨j', ⟨hj', haj'⟩, hu⟩ := h2.unique i hi
    refine ⟨j', ⟨hj', key i j j' hij haj'⟩, ?_⟩
    rintro l ⟨hl, hal⟩
    exact hu l ⟨hl, (key2 i j l hal).mp hij⟩
  · intro j' hj'
    obtain ⟨i, hi, hij⟩ := h2.onto j' hj'
    obtain ⟨j, ⟨hj, haj⟩, hu⟩ := h1.unique i hi
    refine ⟨j, ⟨hj, key i j j' haj hij⟩, ?_⟩
    rintro l ⟨hl, hal⟩
    exact hu l ⟨hl, (key2 i l j' hal).mpr hij⟩
  · intro j hj j' hj' hjj
    rw [h1.entry j hj (sumAt_writable h h1 j hj), h2.entry j' hj' (sumAt_writable h h2 j' hj')]
    unfold Spec.sumAt
    refine Finset.sum_congr ?_ (fun _ _ => rfl)
    ext i
    simp only [Finset.mem_filter, and_congr_right_iff]
    intro _
    exact key2 i j j' hjj


section
variable {fmt : Val → Str} {d r : PD} {A : List Str}

theorem Spec.SummedOut.axis_d (hr : r.WF fmt) (h : Spec.SummedOut d A r) {k : Str} {b : ℕ}
    (hb : r.axis k = some b) : ∃ a, d.axis k = some a := by
  have hk := hr.dimKeys k (Dict.mem_keys_of_get? (join_eq_some.mp hb))
  have := h.arrays k hk
  rw [hb] at this
  exact Option.isSome_iff_exists.mp this.symm

theorem Spec.SummedOut.ordered (hr : r.WF fmt) (h : Spec.SummedOut d A r) (ho : Spec.Ordered d) :
    Spec.Ordered r := by
  unfold Spec.Ordered at ho ⊢
  rw [h.keylist]
  refine (ho.sublist List.filter_sublist).imp ?_
  intro k k' hkk b b' hb hb'
  obtain ⟨a, ha⟩ := h.axis_d hr hb
  obtain ⟨a', ha'⟩ := h.axis_d hr hb'
  have h1 := hkk a a' ha ha'
  have h2 := h.order k' k a' a b' b ha' ha hb' hb
  omega

theorem Spec.SummedOut.ownAxis (hr : r.WF fmt) (h : Spec.SummedOut d A r) {k : Str}
    (ho : Spec.OwnAxis d k) : Spec.OwnAxis r k := by
  intro k' b hb hb'
  obtain ⟨a, ha⟩ := h.axis_d hr hb
  obtain ⟨a', ha'⟩ := h.axis_d hr hb'
  have h1 := h.order k k' a a' b b ha ha' hb hb'
  have h2 := h.order k' k a' a b b ha' ha hb' hb
  have : a' = a := by omega
  subst this
  exact ho k' a' ha ha'

theorem Spec.SummedOut.keysOK (hr : r.WF fmt) (h : Spec.SummedOut d A r) {k : Str} (hkA : k ∉ A)
    (hd : d.WF fmt) (hk : k ∈ d.marg.keys ∧ (d.axis k).isSome) :
    k ∈ r.marg.keys ∧ (r.axis k).isSome := by
  have h1 : k ∈ Dict.keys r.marg := by
    rw [h.marg, Dict.keys_filter (fun k => decide (k ∉ A)) d.marg, List.mem_filter]
    exact ⟨hk.1, by simpa using hkA⟩
  exact ⟨h1, by rw [h.arrays k ((hr.keys k).mpr (Or.inl h1))]; exact hk.2⟩

end

/-- C16, proved part: for a distribution with axes in key order, summing out A
then B, B then A, and A and B together succeed and give the same distribution. -/
theorem C16_stages_partial (fmt : Val → Str) (d : PD) (A B : List Str) (h : d.WF fmt) (hpos : d.Pos)
    (ht : Spec.Tame d) (hord : Spec.Ordered d)
    (hkeys : ∀ k ∈ A ++ B, k ∈ d.marg.keys ∧ (d.axis k).isSome)
    (hown : ∀ k ∈ A ++ B, Spec.OwnAxis d k) (hdisj : ∀ k ∈ A, k ∉ B)
    (hkeep : ∃ k ∈ d.keylist, k ∉ A ++ B) :
    ∃ rA rB rAB rBA r, d.marginalise fmt A = .ok rA ∧ rA.marginalise fmt B = .ok rAB ∧
      d.marginalise fmt B = .ok rB ∧ rB.marginalise fmt A = .ok rBA ∧
      d.marginalise fmt (A ++ B) = .ok r ∧
      Spec.SummedOut d (A ++ B) r ∧ Spec.Same rAB r ∧ Spec.Same rBA r ∧ Spec.Same rAB rBA := by
  obtain ⟨k0, hk0, hk0'⟩ := hkeep
  have stage : ∀ C D : List Str, (∀ k ∈ C ++ D, k ∈ A ++ B) → (∀ k ∈ C, k ∉ D) →
      ∃ rC rCD, d.marginalise fmt C = .ok rC ∧ rC.marginalise fmt D = .ok rCD ∧ rCD.WF fmt ∧
        Spec.SummedOut d (C ++ D) rCD := by
    intro C D hsub hCD
    obtain ⟨rC, c1, c2, c3⟩ := C15_marginalise_partial fmt d C h hpos ht.readable
      (fun k hk => hkeys k (hsub k (by simp [hk]))) (fun k hk => hown k (hsub k (by simp [hk]))) hord
      ⟨k0, hk0, fun hc => hk0' (hsub k0 (by simp [hc]))⟩
    obtain ⟨rCD, e1, e2, e3⟩ := C15_marginalise_partial fmt rC D c2
      (fun n hn => hpos n (c3.sizes n hn)) (c3.tame ht).readable
      (fun k hk => c3.keysOK c2 (fun hc => hCD k hc hk) h (hkeys k (hsub k (by simp [hk]))))
      (fun k hk => c3.ownAxis c2 (hown k (hsub k (by simp [hk])))) (c3.ordered c2 hord)
      ⟨k0, by rw [c3.keylist, List.mem_filter]
              exact ⟨hk0, by simpa using fun hc => hk0' (hsub k0 (by simp [hc]))⟩,
        fun hc => hk0' (hsub k0 (by simp [hc]))⟩
    exact ⟨rC, rCD, c1, e1, e2, c3.trans c2 e2 ht e3⟩
  obtain ⟨rA, rAB, a1, a2, a3, a4⟩ := stage A B (fun k hk => hk) hdisj
  obtain ⟨rB, rBA, b1, b2, b3, b4⟩ := stage B A (fun k hk => by
    simp only [List.mem_append] at hk ⊢; tauto) (fun k hk hk' => hdisj k hk' hk)
  obtain ⟨r, r1, r2, r3⟩ := C15_marginalise_partial fmt d (A ++ B) h hpos ht.readable hkeys hown hord
    ⟨k0, hk0, hk0'⟩
  refine ⟨rA, rB, rAB, rBA, r, a1, a2, b1, b2, r1, r3, ?_, ?_, ?_⟩
  · exact a4.same a3 r2 ht (fun k => Iff.rfl) r3
  · exact b4.same b3 r2 ht (fun k => by simp only [List.mem_append]; tauto) r3
  · exact a4.same a3 b3 ht (fun k => by simp only [List.mem_append]; tauto) b4

/-! ### marginal -/

theorem marginalDims_ok (d : PD) (keys : List Str) (h : ∀ k ∈ keys, k ∈ d.marg.keys)
    (hd : ∀ k ∈ keys, ∃ o, Dict.get? d.dims k = some o) :
    ∃ l, marginalDims d keys = .ok l ∧ ∀ a, a ∈ l ↔ ∃ k ∈ keys, d.axis k = some a := by
  induction keys with
  | nil => exact ⟨[], rfl, by simp⟩
  | cons k ks ih =>
    obtain ⟨l, h1, h2⟩ := ih (fun k hk => h k (by simp [hk])) (fun k hk => hd k (by simp [hk]))
    obtain ⟨o, ho⟩ := hd k (by simp)
    have hk : k ∈ d.marg.keys := h k (by simp)
    have hax : d.axis k = o := by simp [PD.axis, ho]
    rcases o with _ | a
    · refine ⟨l, by simp [marginalDims, hk, dimOf, ho, h1, bind, Except.bind, pure, Except.pure], ?_⟩
      intro b; simp [h2, hax]
    · refine ⟨a :: l, by simp [marginalDims, hk, dimOf, ho, h1, bind, Except.bind, pure, Except.pure], ?_⟩
      intro b; simp [h2, hax, eq_comm]

/-- C16, proved part: `marginal(keys)` keeps exactly the requested variables of
the marginal side (and all conditions), summing out the rest. -/
theorem C16_marginal_partial (fmt : Val → Str) (d : PD) (keys : List Str) (h : d.WF fmt)
    (hpos : d.Pos) (hread : Spec.Readable d) (hord : Spec.Ordered d)
    (hown : ∀ k, Spec.OwnAxis d k)
    (hkeys : ∀ k ∈ keys, k ∈ d.marg.keys)
    (hscal : ∀ k ∈ d.marg.keys, d.axis k = none → k ∈ keys)
    (hne : keys ≠ [] ∨ d.cond ≠ []) :
    ∃ r rest, d.marginal fmt keys = .ok r ∧ r.WF fmt ∧ Spec.SummedOut d rest r ∧
      (∀ k, k ∈ rest ↔ k ∈ d.marg.keys ∧ k ∉ keys) ∧
      r.marg = d.marg.filter (fun kv => kv.1 ∈ keys) ∧
      r.keylist = d.keylist.filter (fun k => decide (k ∈ keys) || decide (k ∈ d.cond.keys)) := by
  have hget : ∀ k ∈ Dict.keys d.vals, ∃ v o, Dict.get? d.vals k = some v ∧ Dict.get? d.dims k = some o := by
    intro k hk
    obtain ⟨v, hv⟩ := Dict.get?_of_mem_keys hk
    rcases hs : v.issingleton with _ | _
    · obtain ⟨a, ha⟩ := h.axis_isSome hv hs
      exact ⟨v, _, hv, join_eq_some.mp ha⟩
    · exact ⟨v, _, hv, (h.single k v hv hs).1⟩
  obtain ⟨l, hl, hmem⟩ := marginalDims_ok d keys hkeys (by
    intro k hk
    obtain ⟨_, o, _, ho⟩ := hget k ((h.keys k).mpr (Or.inl (hkeys k hk)))
    exact ⟨o, ho⟩)
  have hc1 : d.vals.keys.all (fun k => offAxes d.dims l k || decide (k ∈ keys)) = true := by
    rw [List.all_eq_true]
    intro k _
    unfold offAxes
    rcases ha : (Dict.get? d.dims k).join with _ | a
    · simp
    · simp only [Bool.or_eq_true, decide_eq_true_eq]
      by_cases hal : a ∈ l
      · right
        obtain ⟨k', h1, h2⟩ := (hmem a).mp hal
        have := hown k' k a h2 ha
        rw [this]; exact h1
      · exact Or.inl hal
  set restD := d.vals.filter fun kv =>
      decide (kv.1 ∈ d.marg.keys) && !kv.2.issingleton && !decide (kv.1 ∈ keys) with hrestD
  have hrest : ∀ k, k ∈ Dict.keys restD ↔ k ∈ d.marg.keys ∧ k ∉ keys := by
    intro k
    rw [Dict.keys, List.mem_map]
    simp only [hrestD, List.mem_filter, Bool.and_eq_true, decide_eq_true_eq,
      Bool.not_eq_true', decide_eq_false_iff_not]
    constructor
    · rintro ⟨⟨k', v⟩, ⟨_, ⟨h2, _⟩, h4⟩, rfl⟩; exact ⟨h2, h4⟩
    · rintro ⟨h1, h2⟩
      obtain ⟨v, o, hv, _⟩ := hget k ((h.keys k).mpr (Or.inl h1))
      refine ⟨(k, v), ⟨Dict.get?_mem hv, ⟨h1, ?_⟩, h2⟩, rfl⟩
      rcases hs : v.issingleton with _ | _
      · rfl
      · exact absurd (hscal k h1 (h.axis_none hv hs)) h2
  have hc2 : (Dict.keys (d.vals.filter fun kv => decide (kv.1 ∈ d.marg.keys) && kv.2.issingleton)).all
      (· ∈ keys) = true := by
    rw [List.all_eq_true]
    intro k hk
    obtain ⟨⟨k', v⟩, h1, rfl⟩ := List.mem_map.mp hk
    simp only [List.mem_filter, Bool.and_eq_true, decide_eq_true_eq] at h1 ⊢
    exact hscal k' h1.2.1 (h.axis_none (Dict.get?_of_mem h.nodup h1.1) h1.2.2)
  obtain ⟨r, r1, r2, r3⟩ := C15_marginalise_partial fmt d (Dict.keys restD) h hpos hread (by
      intro k hk
      obtain ⟨h1, h2⟩ := (hrest k).mp hk
      refine ⟨h1, ?_⟩
      rcases ha : d.axis k with _ | a
      · exact absurd (hscal k h1 ha) h2
      · rfl) (fun k _ => hown k) hord (by
      rcases hne with hne | hne
      · obtain ⟨k, hk⟩ := List.exists_mem_of_ne_nil _ hne
        exact ⟨k, (h.keys k).mpr (Or.inl (hkeys k hk)), fun hc => ((hrest k).mp hc).2 hk⟩
      · obtain ⟨⟨k, t⟩, hk⟩ := List.exists_mem_of_ne_nil _ hne
        have hk' : k ∈ Dict.keys d.cond := List.mem_map.mpr ⟨_, hk, rfl⟩
        exact ⟨k, (h.keys k).mpr (Or.inr hk'), fun hc => h.disj k ((hrest k).mp hc).1 hk'⟩)
  refine ⟨r, Dict.keys restD, ?_, r2, r3, hrest, ?_, ?_⟩
  · unfold PD.marginal
    simp only [hl, bind, Except.bind]
    rw [if_pos hc1, if_pos hc2]
    exact r1
  · rw [r3.marg]
    apply List.filter_congr
    intro kv hkv
    have : kv.1 ∈ Dict.keys d.marg := List.mem_map.mpr ⟨kv, hkv, rfl⟩
    by_cases hk : kv.1 ∈ keys <;> simp [hrest, this, hk]
  · rw [r3.keylist]
    apply List.filter_congr
    intro k hk
    rcases (h.keys k).mp hk with h1 | h1
    · have : k ∉ Dict.keys d.cond := h.disj k h1
      by_cases hkk : k ∈ keys <;> simp [hrest, h1, hkk, this]
    · have : k ∉ Dict.keys d.marg := fun hc => h.disj k hc h1
      simp [hrest, this, h1]

/-- C16: a marginal scalar left out is refused. -/
theorem C16_marginal_scalar_refused (fmt : Val → Str) (d : PD) (keys : List Str) (k : Str) (v : Val)
    (hv : Dict.get? d.vals k = some v) (hs : v.issingleton = true) (hm : k ∈ d.marg.keys)
    (hk : k ∉ keys) : Raises (d.marginal fmt keys) := by
  unfold PD.marginal
  rcases marginalDims d keys with e | l
  · exact ⟨e, rfl⟩
  simp only [bind, Except.bind]
  split
  · rw [if_neg]
    · exact ⟨_, rfl⟩
    · intro hc
      rw [List.all_eq_true] at hc
      have := hc k (by
        refine List.mem_map.mpr ⟨(k, v), ?_, rfl⟩
        rw [List.mem_filter]
        exact ⟨Dict.get?_mem hv, by simp [hm, hs]⟩)
      exact hk (by simpa using this)
  · exact ⟨_, rfl⟩

/-- The general claim of C16 for stages. -/
def C16_claim : Prop :=
  ∀ (fmt : Val → Str) (d : PD) (A B : List Str), d.WF fmt → d.Pos → Spec.Tame d →
    (∀ k ∈ A ++ B, k ∈ d.marg.keys ∧ (d.axis k).isSome) → (∀ k ∈ A ++ B, Spec.OwnAxis d k) →
    (∀ k ∈ A, k ∉ B) → (∃ k ∈ d.keylist, k ∉ A ++ B) →
    ∃ rA rAB r, d.marginalise fmt A = .ok rA ∧ rA.marginalise fmt B = .ok rAB ∧
      d.marginalise fmt (A ++ B) = .ok r ∧ Spec.Same rAB r

/-- C16 fails with axes out of key order: summing out r alone raises. -/
theorem C16_claim_fails : ¬ C16_claim := by
  intro h
  obtain ⟨rA, rAB, r, h1, _⟩ := h (fun _ => []) sample4 [['r']] [['s']] sample4_wf
    (by intro n hn
        simp only [sample4, PD.shape, List.mem_cons, List.not_mem_nil, or_false] at hn; omega)
    one_pos
    (by intro k hk
        simp only [List.cons_append, List.nil_append, List.mem_cons, List.not_mem_nil, or_false] at hk
        rcases hk with rfl | rfl <;> exact ⟨by decide, by decide⟩)
    (by intro k hk k' a ha ha'
        have m := sample4_wf.dimKeys k' (Dict.mem_keys_of_get? (join_eq_some.mp ha'))
        simp only [sample4, PD.vals, Dict.keys, List.map_cons, List.map_nil, List.mem_cons,
          List.not_mem_nil, or_false] at m
        have e1 : sample4.axis ['a'] = some 1 := rfl
        have e2 : sample4.axis ['r'] = some 0 := rfl
        have e3 : sample4.axis ['s'] = some 3 := rfl
        have e4 : sample4.axis ['b'] = some 2 := rfl
        simp only [List.cons_append, List.nil_append, List.mem_cons, List.not_mem_nil, or_false] at hk
        rcases hk with rfl | rfl <;> rcases m with rfl | rfl | rfl | rfl <;>
          simp_all <;> omega)
    (by decide) ⟨['a'], by decide, by decide⟩
  have hloop : sample4.vals.foldlM (margStep sample4 [['r']]) ⟨sample4.marg, [], [], 0, []⟩
      = .ok ⟨[(['a'], ['a']), (['s'], ['s']), (['b'], ['b'])],
        [(['a'], .arr [1, 2, 1, 1] [1, 2]), (['s'], .arr [1, 1, 1, 1] [4]),
         (['b'], .arr [1, 1, 2, 1] [5, 6])],
        [(['a'], some 1), (['s'], some 2), (['b'], some 1)], 1, [0]⟩ := rfl
  rw [PD.marginalise, if_pos (by decide), hloop] at h1
  simp only [bind, Except.bind] at h1
  rcases hx : rescaleArr sample4.prob sample4.pscale.spec (.flt 1) with e | P
  · simp [hx] at h1
  simp only [hx] at h1
  rcases hy : sumAxes [0] P with e | Q
  · simp [hy] at h1
  simp only [hy] at h1
  rcases hz : rescaleArr Q (.flt 1) sample4.pscale.spec with e | R
  · simp [hz] at h1
  simp only [hz] at h1
  have hd : distDims [(['a'], .arr [1, 2, 1, 1] [1, 2]), (['s'], .arr [1, 1, 1, 1] [4]),
         (['b'], .arr [1, 1, 2, 1] [5, 6])]
        (some [(['a'], some 1), (['s'], some 2), (['b'], some 1)]) = .error .type := rfl
  unfold pdInit at h1
  rw [hd] at h1
  rcases hw : strMargcond (margcondStr [(['a'], ['a']), (['s'], ['s']), (['b'], ['b'])] sample4.cond)
    with e | mc <;> rw [hw] at h1 <;> simp [bind, Except.bind] at h1

/-- Non-vacuity: x and y of p(x, y, u=1 | z) in stages; the marginal in x and u. -/
example : (∃ rA rB rAB rBA r, sample3.marginalise (fun _ => ['1']) [['y']] = .ok rA ∧
      rA.marginalise (fun _ => ['1']) [['x']] = .ok rAB ∧
      sample3.marginalise (fun _ => ['1']) [['x']] = .ok rB ∧
      rB.marginalise (fun _ => ['1']) [['y']] = .ok rBA ∧
      sample3.marginalise (fun _ => ['1']) [['y'], ['x']] = .ok r ∧
      Spec.SummedOut sample3 [['y'], ['x']] r ∧ Spec.Same rAB r ∧ Spec.Same rBA r ∧
      Spec.Same rAB rBA) ∧
    ∃ r rest, sample3.marginal (fun _ => ['1']) [['x'], ['u']] = .ok r ∧ r.WF (fun _ => ['1']) ∧
      Spec.SummedOut sample3 rest r ∧
      (∀ k, k ∈ rest ↔ k ∈ sample3.marg.keys ∧ k ∉ [['x'], ['u']]) ∧
      r.marg = sample3.marg.filter (fun kv => kv.1 ∈ [['x'], ['u']]) ∧
      r.keylist = sample3.keylist.filter (fun k => decide (k ∈ [['x'], ['u']]) ||
        decide (k ∈ sample3.cond.keys)) := by
  have hpos : sample3.Pos := by
    intro n hn
    simp only [sample3, PD.shape, List.mem_cons, List.not_mem_nil, or_false] at hn; omega
  refine ⟨C16_stages_partial _ sample3 [['y']] [['x']] sample3_wf.1 hpos one_pos sample3_wf.2.1 ?_
    (fun k _ => sample3_wf.2.2 k) (by decide) ⟨['z'], by decide, by decide⟩,
    C16_marginal_partial _ sample3 [['x'], ['u']] sample3_wf.1 hpos (readable_lin rfl one_pos)
      sample3_wf.2.1 sample3_wf.2.2 (by decide) ?_ (Or.inl (by decide))⟩
  · intro k hk
    simp only [List.cons_append, List.nil_append, List.mem_cons, List.not_mem_nil, or_false] at hk
    rcases hk with rfl | rfl <;> exact ⟨by decide, by decide⟩
  · intro k hk ha
    simp only [sample3, Dict.keys, List.map_cons, List.map_nil, List.mem_cons, List.not_mem_nil,
      or_false] at hk
    rcases hk with rfl | rfl | rfl
    · decide
    · exact absurd ha (by decide)
    · decide

end Probayes
