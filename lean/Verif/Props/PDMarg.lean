/-
C15 (marginalisation) and C16 (marginalising in stages, `marginal`).
-/
import Verif.Lemmas.PDMarg
import Mathlib.Algebra.BigOperators.Group.Finset.Sigma

namespace Probayes

open Classical in
/-- The sum of the probabilities of all entries of `d` compatible with entry `j`
of `r`: those with the same position for every variable of `r`. -/
noncomputable def Spec.sumAt (d r : PD) (j : List ℕ) : ℝ :=
  ∑ i ∈ (idx d.shape).filter (fun i => Spec.Agree d r i j), d.at i

/-- No stored value of `d` reaches the clamps of the conversion to plain
probabilities. -/
def Spec.Readable (d : PD) : Prop :=
  Spec.Valid d.pscale ∧ ∀ i ∈ idx d.shape, Spec.Unclamped (d.prob.get i) d.pscale (.lin 1)

/-- The probability `x` can be stored at scale `s` without reaching a clamp. -/
def Spec.Writable (s : PScale) (x : ℝ) : Prop := Spec.Unclamped x (.lin 1) s

/-- Along the key list the axes never decrease. -/
def Spec.Ordered (d : PD) : Prop :=
  d.keylist.Pairwise fun k k' => ∀ a b, d.axis k = some a → d.axis k' = some b → a ≤ b

/-- No other key uses the axis of `k`. -/
def Spec.OwnAxis (d : PD) (k : Str) : Prop :=
  ∀ k' a, d.axis k = some a → d.axis k' = some a → k' = k

/-- `r` is `d` summed over the variables `keys`. -/
structure Spec.SummedOut (d : PD) (keys : List Str) (r : PD) : Prop where
  /-- the other keys remain, in the same order -/
  keylist : r.keylist = d.keylist.filter (· ∉ keys)
  marg : r.marg = d.marg.filter fun kv => kv.1 ∉ keys
  cond : r.cond = d.cond
  /-- with the same values -/
  values : ∀ k ∈ r.keylist, r.values k = d.values k
  pscale : r.pscale = d.pscale
  /-- and a variable remains an array -/
  arrays : ∀ k ∈ r.keylist, (r.axis k).isSome = (d.axis k).isSome
  /-- the axes keep their order -/
  order : ∀ k k' a a' b b', d.axis k = some a → d.axis k' = some a' → r.axis k = some b →
    r.axis k' = some b' → (b < b' ↔ a < a')
  sizes : ∀ n ∈ r.shape, n ∈ d.shape
  /-- every entry of `d` is compatible with exactly one entry of `r` -/
  unique : ∀ i ∈ idx d.shape, ∃! j, j ∈ idx r.shape ∧ Spec.Agree d r i j
  /-- every entry of `r` has a compatible entry -/
  onto : ∀ j ∈ idx r.shape, ∃ i ∈ idx d.shape, Spec.Agree d r i j
  /-- every entry is the sum of the compatible entries -/
  entry : ∀ j ∈ idx r.shape, Spec.Writable d.pscale (Spec.sumAt d r j) → r.at j = Spec.sumAt d r j

/-- C15 as intended: for every set of array variables of the marginal side, of
any consistent distribution. -/
def C15_claim : Prop :=
  ∀ (fmt : Val → Str) (d : PD) (keys : List Str), d.WF fmt → d.Pos → Spec.Readable d →
    (∀ k ∈ keys, k ∈ d.marg.keys ∧ (d.axis k).isSome) →
    (∀ k ∈ keys, Spec.OwnAxis d k) →
    ∃ r, d.marginalise fmt keys = .ok r ∧ r.WF fmt ∧ Spec.SummedOut d keys r

section
variable {fmt : Val → Str} {d : PD}

theorem precedingAxes (h : d.WF fmt) (hord : Spec.Ordered d) {keys : List Str}
    (hkeys : ∀ k ∈ keys, k ∈ d.marg.keys ∧ (d.axis k).isSome)
    (hown : ∀ k ∈ keys, Spec.OwnAxis d k) {k : Str} {a : ℕ} (hk : k ∉ keys) (ha : d.axis k = some a) :
    (preceding keys k d.vals).length = dropped (· ∈ margAxes d keys d.vals) a := by
  have hkv : k ∈ Dict.keys d.vals := h.dimKeys k (Dict.mem_keys_of_get? (join_eq_some.mp ha))
  obtain ⟨p1, p2, p3⟩ := mem_preceding (keys := keys) (k := k) h.nodup hord hkv
  have hmem : ∀ b, b ∈ margAxes d keys d.vals ↔ ∃ k' ∈ keys, d.axis k' = some b := by
    intro b
    simp only [margAxes, List.mem_filterMap]
    constructor
    · rintro ⟨kv, _, h2⟩
      split at h2
      · rename_i h3; exact ⟨kv.1, h3, h2⟩
      · simp at h2
    · rintro ⟨k', h1, h2⟩
      obtain ⟨v, hv⟩ := Dict.get?_of_mem_keys (h.dimKeys k' (Dict.mem_keys_of_get? (join_eq_some.mp h2)))
      exact ⟨(k', v), Dict.get?_mem hv, by simp [h1, h2]⟩
  let f : Str → ℕ := fun k => (d.axis k).getD 0
  have hf : ∀ k' ∈ keys, d.axis k' = some (f k') := by
    intro k' hk'
    obtain ⟨b, hb⟩ := Option.isSome_iff_exists.mp (hkeys k' hk').2
    simp [f, hb]
  have hnd : ((preceding keys k d.vals).map f).Nodup := by
    rw [List.nodup_map_iff_inj_on p3]
    intro x hx y hy hxy
    have h1 := hf x (p1 x hx).1
    have h2 := hf y (p1 y hy).1
    rw [hxy] at h1
    exact hown y (p1 y hy).1 x _ h2 h1
  have hperm : ((preceding keys k d.vals).map f).Perm
      ((List.range a).filter (· ∈ margAxes d keys d.vals)) := by
    rw [List.perm_ext_iff_of_nodup hnd (List.nodup_range.filter _)]
    intro b
    simp only [List.mem_map, List.mem_filter, List.mem_range, decide_eq_true_eq, hmem]
    constructor
    · rintro ⟨k', h1, rfl⟩
      obtain ⟨q1, q2, q3, q4⟩ := p1 k' h1
      have := q4 _ _ (hf k' q1) ha
      refine ⟨lt_of_le_of_ne this ?_, k', q1, hf k' q1⟩
      intro hc
      have := hown k' q1 k _ (hf k' q1) (hc ▸ ha)
      exact q3 this.symm
    · rintro ⟨hlt, k', h1, h2⟩
      refine ⟨k', ?_, by simp [f, h2]⟩
      by_contra hc
      have hkv' : k' ∈ Dict.keys d.vals := h.dimKeys k' (Dict.mem_keys_of_get? (join_eq_some.mp h2))
      have hne : k' ≠ k := by rintro rfl; exact hk h1
      have := p2 k' h1 hkv' hne hc _ _ ha h2
      omega
  have := hperm.length_eq
  rw [List.length_map] at this
  rw [this, dropped, List.countP_eq_length_filter]

end

/-- Marginalising, with what is stored. -/
theorem marginalise_core (fmt : Val → Str) (d : PD) (keys : List Str) (h : d.WF fmt)
    (hpos : d.Pos) (hread : Spec.Readable d)
    (hkeys : ∀ k ∈ keys, k ∈ d.marg.keys ∧ (d.axis k).isSome)
    (hown : ∀ k ∈ keys, Spec.OwnAxis d k)
    (hord : Spec.Ordered d) (hkeep : ∃ k ∈ d.keylist, k ∉ keys) :
    ∃ r, d.marginalise fmt keys = .ok r ∧ r.WF fmt ∧ Spec.SummedOut d keys r ∧
      ∀ j ∈ idx r.shape, r.prob.get j = rescaleE (Spec.sumAt d r j) (.lin 1) d.pscale := by
  obtain ⟨hval, hread⟩ := hread
  set axes := margAxes d keys d.vals with haxes
  set p : ℕ → Bool := fun n => decide (n ∈ axes) with hp
  have hmem : ∀ b, p b = true ↔ ∃ k' ∈ keys, d.axis k' = some b := by
    intro b
    simp only [hp, haxes, decide_eq_true_eq, margAxes, List.mem_filterMap]
    constructor
    · rintro ⟨kv, _, h2⟩
      split at h2
      · rename_i h3; exact ⟨kv.1, h3, h2⟩
      · simp at h2
    · rintro ⟨k', h1, h2⟩
      obtain ⟨v, hv⟩ := Dict.get?_of_mem_keys (h.dimKeys k' (Dict.mem_keys_of_get? (join_eq_some.mp h2)))
      exact ⟨(k', v), Dict.get?_mem hv, by simp [h1, h2]⟩
  have hpk : ∀ k a, k ∉ keys → d.axis k = some a → p a = false := by
    intro k a hk ha
    by_contra hc
    obtain ⟨k', h1, h2⟩ := (hmem a).mp (by simpa using hc)
    exact hk (hown k' h1 k a h2 ha ▸ h1)
  have hprec : ∀ k a, k ∉ keys → d.axis k = some a → (preceding keys k d.vals).length = dropped p a :=
    fun k a hk ha => precedingAxes h hord hkeys hown hk ha
  -- the loop
  obtain ⟨st, g1, g2, g3, g4, g5⟩ := margLoop_ok d keys d.vals ⟨d.marg, [], [], 0, []⟩ h.nodup
    h.margSide.1 (by intro k _; simp) (by
      rintro ⟨k, v⟩ hkv hk
      obtain ⟨a, ha⟩ := Option.isSome_iff_exists.mp (hkeys k hk).2
      refine ⟨?_, (hkeys k hk).1, a, ha⟩
      have := h.axis_single (Dict.get?_of_mem h.nodup hkv)
      rw [ha] at this
      simpa using this) (by
      rintro ⟨k, v⟩ hkv hk hs
      obtain ⟨a, ha⟩ := h.axis_isSome (Dict.get?_of_mem h.nodup hkv) hs
      refine ⟨a, ha, ?_⟩
      simp only at hk ⊢
      rw [Nat.zero_add, hprec k a hk ha]
      exact dropped_le p a)
  simp only [List.nil_append] at g3 g4 g5
  have g2' : st.marg = d.marg.filter (fun kv => kv.1 ∉ keys) := by
    rw [g2]
    apply List.filter_congr
    rintro ⟨k, t⟩ hkt
    have : k ∈ Dict.keys d.vals := (h.keys k).mpr (Or.inl (List.mem_map.mpr ⟨_, hkt, rfl⟩))
    simp [this]
  -- dims
  have hdims : ∀ k, Dict.get? st.dims k = if k ∈ keys then none else
      (d.axis k).map fun a => some (a - dropped p a) := by
    intro k
    rw [g4, get?_margDims d keys k d.vals 0 h.nodup]
    rcases hv : Dict.get? d.vals k with _ | v
    · have hax : d.axis k = none := by
        rcases ha : d.axis k with _ | a
        · rfl
        · obtain ⟨_, data, h1, _⟩ := h.axis_some ha; rw [hv] at h1; simp at h1
      simp [hax]
    · by_cases hk : k ∈ keys
      · simp [hk]
      · simp only [hk, if_false]
        rcases hs : v.issingleton with _ | _
        · obtain ⟨a, ha⟩ := h.axis_isSome hv hs
          simp [ha, hprec k a hk ha]
        · simp [h.axis_none hv hs]
  have hjoin : ∀ k, (Dict.get? st.dims k).join = if k ∈ keys then none else
      (d.axis k).map fun a => a - dropped p a := by
    intro k
    rw [hdims]
    split
    · rfl
    · cases d.axis k <;> simp
  set S := dropAxes p d.shape with hS
  have hkl : Dict.keys st.vals = d.keylist.filter (· ∉ keys) := by
    rw [g3]; exact Dict.keys_filter (fun k => decide (k ∉ keys)) d.vals
  have hgv : ∀ k, Dict.get? st.vals k = if k ∈ keys then none else Dict.get? d.vals k := by
    intro k
    rw [g3, Dict.get?_filter (fun k => decide (k ∉ keys)) d.vals k]
    by_cases hk : k ∈ keys <;> simp [hk]
  have hmk : Dict.keys st.marg = (Dict.keys d.marg).filter (· ∉ keys) := by
    rw [g2']; exact Dict.keys_filter (fun k => decide (k ∉ keys)) d.marg
  have hgm : ∀ k, Dict.get? st.marg k = if k ∈ keys then none else Dict.get? d.marg k := by
    intro k
    rw [g2', Dict.get?_filter (fun k => decide (k ∉ keys)) d.marg k]
    by_cases hk : k ∈ keys <;> simp [hk]
  have hcondkeys : ∀ k ∈ Dict.keys d.cond, k ∉ keys := by
    intro k hk hk'
    exact h.disj k (hkeys k hk').1 hk
  have hbuild : BuildArgs fmt st.marg d.cond st.vals st.dims S := by
    refine ⟨?_, ?_, ?_, ?_, h.condSide, ?_, ?_, ?_, ?_, ?_, ?_, ?_⟩
    · obtain ⟨k, h1, h2⟩ := hkeep
      intro hc
      have : k ∈ Dict.keys st.vals := by rw [hkl]; simp [h1, h2]
      rw [hc] at this; simp at this
    · show (Dict.keys st.vals).Nodup
      rw [hkl]; exact h.nodup.filter _
    · intro k hk
      have hk' : k ∈ Dict.keys st.vals := hk
      rw [hkl] at hk'
      exact h.allowed k (List.mem_filter.mp hk').1
    · refine ⟨?_, ?_⟩
      · show (Dict.keys st.marg).Nodup
        rw [hmk]; exact h.margSide.1.filter _
      · intro kv hkv
        rw [g2'] at hkv
        exact h.margSide.2 kv (List.mem_filter.mp hkv).1
    · intro k hk
      have hk' : k ∈ Dict.keys st.marg := hk
      rw [hmk] at hk'
      exact h.disj k (List.mem_filter.mp hk').1
    · intro k
      show k ∈ Dict.keys st.vals ↔ k ∈ Dict.keys st.marg ∨ k ∈ Dict.keys d.cond
      rw [hkl, hmk, List.mem_filter, List.mem_filter, h.keys k]
      constructor
      · rintro ⟨h1 | h1, h2⟩
        · exact Or.inl ⟨h1, h2⟩
        · exact Or.inr h1
      · rintro (⟨h1, h2⟩ | h1)
        · exact ⟨Or.inl h1, h2⟩
        · exact ⟨Or.inr h1, by simpa using hcondkeys k h1⟩
    · show (Dict.keys st.dims).Nodup
      rw [g4]
      exact (h.nodup.filter _).sublist (keys_margDims d keys d.vals 0)
    · intro k hk
      have hk' : k ∈ Dict.keys st.dims := hk
      show k ∈ Dict.keys st.vals
      rw [g4] at hk'
      rw [hkl]
      exact (keys_margDims d keys d.vals 0).subset hk'
    · intro k v hv hs
      rw [hgv] at hv
      by_cases hk : k ∈ keys
      · simp [hk] at hv
      · simp only [hk, if_false] at hv
        refine ⟨by rw [hjoin]; simp [hk, h.axis_none hv hs], ?_⟩
        rw [hgm]
        simpa [hk] using (h.single k v hv hs).2
    · intro k v hv hs
      rw [hgv] at hv
      by_cases hk : k ∈ keys
      · simp [hk] at hv
      · simp only [hk, if_false] at hv
        obtain ⟨s, data, a, e1, e2, e3, e4⟩ := h.size_ok hpos hv hs
        have ha : d.axis k = some a := join_eq_some.mpr e3
        refine ⟨s, data, a - dropped p a, e1, e2, by rw [hdims]; simp [hk, ha], ?_⟩
        rw [hS, getElem?_dropAxes p _ a (hpk k a hk ha), e4]
    · intro b hb
      obtain ⟨a, h1, h2, h3⟩ := exists_kept p d.shape b hb
      rw [h.rank] at h1
      obtain ⟨k, hk⟩ := h.cover a h1
      refine ⟨k, ?_⟩
      rw [hjoin]
      have hkk : k ∉ keys := by
        intro hc
        rw [(hmem a).mpr ⟨k, hc, hk⟩] at h2
        simp at h2
      simp [hkk, hk, h3]
  -- the sum
  set P : Arr := d.prob.map (fun x => rescaleE x d.pscale (.lin 1)) with hP
  have hr1 : rescaleArr d.prob d.pscale.spec (.flt 1) = .ok P := by
    simp [rescaleArr, h.stable, evalPscale_one, bind, Except.bind, pure, Except.pure, hP]
  have hPs : P.shape = d.shape := h.probShape
  set Q : Arr := ⟨dropAxes (· ∈ st.axes) P.shape,
      fun j => ∑ i ∈ (idx P.shape).filter (fun i => dropAxes (· ∈ st.axes) i = j), P.get i⟩ with hQ
  have hr2 : sumAxes st.axes P = .ok Q := by
    rw [sumAxes, if_pos]
    rw [List.all_eq_true]
    intro a ha
    rw [g5] at ha
    obtain ⟨k, _, hk⟩ := (hmem a).mp (by simpa [hp] using ha)
    simpa [hPs, h.rank] using h.axis_lt hk
  have hr3 : rescaleArr Q (.flt 1) d.pscale.spec = .ok (Q.map fun x => rescaleE x (.lin 1) d.pscale) := by
    simp [rescaleArr, h.stable, evalPscale_one, bind, Except.bind, pure, Except.pure]
  have hQs : Q.shape = S := by rw [hQ, hS, ← hPs, g5]
  obtain ⟨r, b1, b2, b3, b4, b5, b6, b7, b8, b9⟩ := pdInit_ok hbuild
    (Q.map fun x => rescaleE x (.lin 1) d.pscale) hQs d.pscale.spec d.pscale h.stable
  have hrax : ∀ k, r.axis k = if k ∈ keys then none else
      (d.axis k).map fun a => a - dropped p a := fun k => by rw [b6, hjoin]
  have hrkl : r.keylist = d.keylist.filter (· ∉ keys) := by
    rw [← hkl]; show Dict.keys r.vals = _
    rw [b5, Dict.keys_map]
  -- agreement is equality after dropping
  have hagree : ∀ i ∈ idx d.shape, ∀ j ∈ idx r.shape,
      Spec.Agree d r i j ↔ dropAxes p i = j := by
    intro i hi j hj
    rw [b7] at hj
    rw [dropAxes_eq_of_agree hi hj]
    constructor
    · intro hag a ha hpa
      rw [h.rank] at ha
      obtain ⟨k, hk⟩ := h.cover a ha
      have hkk : k ∉ keys := by
        intro hc; rw [(hmem a).mpr ⟨k, hc, hk⟩] at hpa; simp at hpa
      exact hag k a (a - dropped p a) hk (by rw [hrax]; simp [hkk, hk])
    · intro hall k a b ha hb
      rw [hrax] at hb
      by_cases hk : k ∈ keys
      · simp [hk] at hb
      · simp only [hk, if_false, ha, Option.map_some, Option.some.injEq] at hb
        subst hb
        exact hall a (by rw [h.rank]; exact h.axis_lt ha) (hpk k a hk ha)
  have hstored : ∀ j ∈ idx r.shape, r.prob.get j = rescaleE (Spec.sumAt d r j) (.lin 1) d.pscale := by
    intro j hj
    have hsum : Q.get j = Spec.sumAt d r j := by
      classical
      simp only [hQ, hPs, Spec.sumAt, g5]
      apply Finset.sum_congr
      · ext i
        simp only [Finset.mem_filter, and_congr_right_iff]
        intro hi
        exact (hagree i hi j hj).symm
      · intro i hi
        exact rescaleE_to_one _ _ hval h.stable (hread i (Finset.mem_filter.mp hi).1)
    rw [b8, ← hsum]
    rfl
  refine ⟨r, ?_, b2, ⟨hrkl, by rw [b3, g2'], b4, ?_, b9, ?_, ?_, ?_, ?_, ?_, ?_⟩, hstored⟩
  · have hall : keys.all (· ∈ d.marg.keys) = true := by
      rw [List.all_eq_true]; intro k hk; simpa using (hkeys k hk).1
    rw [PD.marginalise, if_pos hall]
    simp only [g1, hr1, hr2, hr3, b1, bind, Except.bind]
  · intro k hk
    rw [hrkl, List.mem_filter] at hk
    rw [hbuild.values b5, hgv]
    have hkk : k ∉ keys := by simpa using hk.2
    simp [hkk, PD.values]
  · intro k hk
    rw [hrkl, List.mem_filter] at hk
    have hkk : k ∉ keys := by simpa using hk.2
    rw [hrax]; simp [hkk]
  · intro k k' a a' b b' ha ha' hb hb'
    rw [hrax] at hb hb'
    by_cases hk : k ∈ keys
    · simp [hk] at hb
    by_cases hk' : k' ∈ keys
    · simp [hk'] at hb'
    simp only [hk, if_false, ha, Option.map_some, Option.some.injEq] at hb
    simp only [hk', if_false, ha', Option.map_some, Option.some.injEq] at hb'
    rw [← hb, ← hb']
    exact kept_lt_iff (hpk k a hk ha) (hpk k' a' hk' ha')
  · intro n hn
    rw [b7] at hn
    exact mem_of_mem_dropAxes hn
  · intro i hi
    have hdi : dropAxes p i ∈ idx r.shape := by rw [b7]; exact dropAxes_mem_idx p hi
    refine ⟨dropAxes p i, ⟨hdi, (hagree i hi _ hdi).mpr rfl⟩, ?_⟩
    rintro j ⟨hj, haj⟩
    exact ((hagree i hi j hj).mp haj).symm
  · intro j hj
    obtain ⟨i, h1, h2⟩ := exists_dropAxes hpos (b7 ▸ hj)
    exact ⟨i, h1, (hagree i h1 j hj).mpr h2⟩
  · intro j hj hw
    rw [PD.at, b9, hstored j hj]
    exact rescaleE_from_one _ _ hval h.stable hw

/-- C15, proved part: the distribution's axes are in key order, and at least one
variable is kept. -/
theorem C15_marginalise_partial (fmt : Val → Str) (d : PD) (keys : List Str) (h : d.WF fmt)
    (hpos : d.Pos) (hread : Spec.Readable d)
    (hkeys : ∀ k ∈ keys, k ∈ d.marg.keys ∧ (d.axis k).isSome)
    (hown : ∀ k ∈ keys, Spec.OwnAxis d k)
    (hord : Spec.Ordered d) (hkeep : ∃ k ∈ d.keylist, k ∉ keys) :
    ∃ r, d.marginalise fmt keys = .ok r ∧ r.WF fmt ∧ Spec.SummedOut d keys r := by
  obtain ⟨r, h1, h2, h3, _⟩ := marginalise_core fmt d keys h hpos hread hkeys hown hord hkeep
  exact ⟨r, h1, h2, h3⟩

/-- C15: on the logarithmic scale a sum below the smallest normal float is lost: what is stored
for its logarithm is the least float. -/
theorem C15_lost (fmt : Val → Str) (d : PD) (keys : List Str) (h : d.WF fmt)
    (hpos : d.Pos) (hread : Spec.Readable d)
    (hkeys : ∀ k ∈ keys, k ∈ d.marg.keys ∧ (d.axis k).isSome)
    (hown : ∀ k ∈ keys, Spec.OwnAxis d k)
    (hord : Spec.Ordered d) (hkeep : ∃ k ∈ d.keylist, k ∉ keys) (hs : d.pscale = .log 0 0) :
    ∃ r, d.marginalise fmt keys = .ok r ∧ Spec.SummedOut d keys r ∧
      ∀ j ∈ idx r.shape, Spec.sumAt d r j < npz → r.prob.get j = nni := by
  obtain ⟨r, h1, h2, h3, h4⟩ := marginalise_core fmt d keys h hpos hread hkeys hown hord hkeep
  refine ⟨r, h1, h3, fun j hj hl => ?_⟩
  rw [h4 j hj, hs]
  simp [rescaleE, logProb, hl.not_ge, logpOffs, npz_pos]


/-! ### mass -/

/-- The total probability. -/
noncomputable def Spec.mass (d : PD) : ℝ := ∑ i ∈ idx d.shape, d.at i

/-- Sums over the entries of the marginal of sums over compatible entries are
sums over all entries. -/
theorem sum_sumAt {d r : PD} (g : List ℕ → Prop) [DecidablePred g]
    (hu : ∀ i ∈ idx d.shape, ∃! j, j ∈ idx r.shape ∧ Spec.Agree d r i j) [DecidablePred fun i =>
      ∃ j ∈ idx r.shape, Spec.Agree d r i j ∧ g j] :
    ∑ j ∈ (idx r.shape).filter g, Spec.sumAt d r j =
      ∑ i ∈ (idx d.shape).filter (fun i => ∃ j ∈ idx r.shape, Spec.Agree d r i j ∧ g j), d.at i := by
  classical
  unfold Spec.sumAt
  rw [← Finset.sum_biUnion]
  · apply Finset.sum_congr
    · ext i
      simp only [Finset.mem_biUnion, Finset.mem_filter]
      constructor
      · rintro ⟨j, ⟨h1, h2⟩, h3, h4⟩; exact ⟨h3, j, h1, h4, h2⟩
      · rintro ⟨h3, j, h1, h4, h2⟩; exact ⟨j, ⟨h1, h2⟩, h3, h4⟩
    · intros; rfl
  · intro j hj j' hj' hne
    rw [Function.onFun, Finset.disjoint_left]
    intro i hi hi'
    simp only [Finset.coe_filter, Set.mem_setOf_eq] at hj hj'
    rw [Finset.mem_filter] at hi hi'
    obtain ⟨j0, _, h0⟩ := hu i hi.1
    exact hne ((h0 j ⟨hj.1, hi.2⟩).trans (h0 j' ⟨hj'.1, hi'.2⟩).symm)

/-- C15: summing out conserves the total probability. -/
theorem C15_mass (d r : PD) (keys : List Str) (h : Spec.SummedOut d keys r)
    (hw : ∀ j ∈ idx r.shape, Spec.Writable d.pscale (Spec.sumAt d r j)) :
    Spec.mass r = Spec.mass d := by
  classical
  have h1 : Spec.mass r = ∑ j ∈ (idx r.shape).filter (fun _ => True), Spec.sumAt d r j := by
    rw [Finset.filter_true]
    exact Finset.sum_congr rfl fun j hj => h.entry j hj (hw j hj)
  rw [h1, sum_sumAt _ h.unique, Spec.mass]
  congr 1
  apply Finset.filter_true_of_mem
  intro i hi
  obtain ⟨j, ⟨h1, h2⟩, _⟩ := h.unique i hi
  exact ⟨j, h1, h2, trivial⟩

/-! ### refusals and failures -/

/-- C15: a key that is not on the marginal side is refused. -/
theorem C15_unknown_refused (fmt : Val → Str) (d : PD) (keys : List Str) (k : Str) (hk : k ∈ keys)
    (h : k ∉ d.marg.keys) : Raises (d.marginalise fmt keys) := by
  refine ⟨.assertion, ?_⟩
  rw [PD.marginalise, if_neg]
  intro hc
  rw [List.all_eq_true] at hc
  exact h (by simpa using hc k hk)

theorem margLoop_scalar (d : PD) (keys : List Str) (l : Dict Str Val) :
    ∀ st : MargState, (∃ kv ∈ l, kv.1 ∈ keys ∧ kv.2.issingleton = true) →
      Raises (l.foldlM (margStep d keys) st) := by
  induction l with
  | nil => intro st h; simp at h
  | cons kv l ih =>
    rintro st ⟨kv', hm, h1, h2⟩
    rw [List.foldlM_cons]
    rcases hs : margStep d keys st kv with e | st'
    · exact ⟨e, rfl⟩
    · rcases List.mem_cons.mp hm with rfl | hm
      · simp [margStep, h1, h2] at hs
      · exact ih st' ⟨kv', hm, h1, h2⟩

/-- C15: a scalar variable cannot be summed out. -/
theorem C15_scalar_refused (fmt : Val → Str) (d : PD) (keys : List Str) (k : Str) (v : Val)
    (hk : k ∈ keys) (hv : Dict.get? d.vals k = some v) (hs : v.issingleton = true) :
    Raises (d.marginalise fmt keys) := by
  unfold PD.marginalise
  split
  · obtain ⟨e, he⟩ := margLoop_scalar d keys d.vals ⟨d.marg, [], [], 0, []⟩
      ⟨(k, v), Dict.get?_mem hv, hk, hs⟩
    exact ⟨e, by rw [he]; rfl⟩
  · exact ⟨_, rfl⟩


end Probayes
