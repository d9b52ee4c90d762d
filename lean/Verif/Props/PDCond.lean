/-
C17 (conditionalisation).
-/
import Verif.Lemmas.PDCondMain
import Verif.Lemmas.PDCondPerm
import Verif.Props.PDMarg2
import Verif.Lemmas.PDCheck
import Mathlib.Algebra.BigOperators.Field

namespace Probayes

open Classical in
/-- The probability of the conditioning values at entry `i`: the sum over all
entries with the same values for the given and for the conditioned variables. -/
noncomputable def Spec.massGiven (d : PD) (keys : List Str) (i : List ℕ) : ℝ :=
  ∑ i' ∈ (idx d.shape).filter (fun i' => ∀ k a, d.axis k = some a →
    (k ∈ keys ∨ k ∈ d.cond.keys) → i'[a]? = i[a]?), d.at i'

/-- `r` has the variables of `d`, with `keys` moved to the conditional side. -/
structure Spec.CondForm (d : PD) (keys : List Str) (r : PD) : Prop where
  marg : r.marg = d.marg.filter fun kv => kv.1 ∉ keys
  /-- the conditions of `d` come first, followed by the moved variables -/
  condFirst : d.cond <+: r.cond
  cond : ∀ kt, kt ∈ r.cond ↔ kt ∈ d.cond ∨ (kt ∈ d.marg ∧ kt.1 ∈ keys)
  keylist : ∀ k, k ∈ r.keylist ↔ k ∈ d.keylist
  values : ∀ k, r.values k = d.values k
  pscale : r.pscale = d.pscale
  arrays : ∀ k, (r.axis k).isSome = (d.axis k).isSome
  own : ∀ k, Spec.OwnAxis r k
  /-- the entries correspond one to one -/
  unique : ∀ i ∈ idx d.shape, ∃! j, j ∈ idx r.shape ∧ Spec.Agree d r i j
  unique' : ∀ j ∈ idx r.shape, ∃! i, i ∈ idx d.shape ∧ Spec.Agree d r i j

/-- Every entry of `r` is the entry of `d` divided by the probability of the
conditioning values. -/
def Spec.CondEntries (d : PD) (keys : List Str) (r : PD) : Prop :=
  ∀ i ∈ idx d.shape, ∀ j ∈ idx r.shape, Spec.Agree d r i j →
    Spec.Writable d.pscale (d.at i / Spec.massGiven d keys i) →
    r.at j = d.at i / Spec.massGiven d keys i

/-- Probabilities for which the divisions reach no clamp: every conditioning
value has at least the smallest normal float as probability; when a conditioned
variable is a scalar, also relative to the total, and a logarithmic scale has an
offset in the range of floats. -/
structure Spec.Divisible (d : PD) (keys : List Str) : Prop where
  readable : Spec.Readable d
  nonneg : ∀ i ∈ idx d.shape, 0 ≤ d.at i
  mass : ∀ i ∈ idx d.shape, npz ≤ Spec.massGiven d keys i
  share : (∃ k ∈ keys, d.axis k = none) → ∀ i ∈ idx d.shape,
    npz * Spec.mass d ≤ Spec.massGiven d keys i
  scale : (∃ k ∈ keys, d.axis k = none) → ∀ re im, d.pscale = .log re im →
    npz ≤ Real.exp (Spec.offset re im) ∧ Spec.offset re im ≤ Real.log npi

/-- C17 as intended: any variables of the marginal side, but not all, can be
conditioned on. -/
def C17_claim : Prop :=
  ∀ (fmt : Val → Str) (d : PD) (keys : List Str), d.WF fmt → d.Pos →
    (∀ k, Spec.OwnAxis d k) → Spec.Ordered d → keys.Nodup →
    (∀ k ∈ keys, k ∈ d.marg.keys) → (∃ k ∈ d.marg.keys, k ∉ keys) → Spec.Divisible d keys →
    ∃ r, d.conditionalise fmt keys = .ok r ∧ r.WF fmt ∧ Spec.CondForm d keys r ∧
      Spec.CondEntries d keys r

section
variable {fmt : Val → Str} {d : PD} {keys : List Str}

open Classical in
/-- The total probability if some conditioned variable is a scalar, otherwise 1. -/
noncomputable def Spec.scalarTotal (d : PD) (keys : List Str) : ℝ :=
  if ∃ k ∈ keys, d.axis k = none then Spec.mass d else 1

theorem mem_condNew (h : d.WF fmt) (hkeys : ∀ k ∈ keys, k ∈ d.marg.keys) (kt : Str × Str) :
    kt ∈ condNew d.marg keys d.vals ↔ kt ∈ d.marg ∧ kt.1 ∈ keys := by
  obtain ⟨k, t⟩ := kt
  simp only [condNew, List.mem_filterMap]
  constructor
  · rintro ⟨⟨k', v⟩, hkv, h1⟩
    split at h1
    · rename_i hk
      simp only [Option.map_eq_some_iff, Prod.mk.injEq] at h1
      obtain ⟨t', ht, rfl, rfl⟩ := h1
      exact ⟨Dict.get?_mem ht, hk⟩
    · simp at h1
  · rintro ⟨h1, h2⟩
    have hg := Dict.get?_of_mem h.margSide.1 h1
    obtain ⟨v, hv⟩ := Dict.get?_of_mem_keys ((h.keys k).mpr (Or.inl (hkeys k h2)))
    exact ⟨(k, v), Dict.get?_mem hv, by simp [h2, hg]⟩

theorem nodup_condNew (marg : Dict Str Str) : ∀ l : Dict Str Val, (Dict.keys l).Nodup →
    (Dict.keys (condNew marg keys l)).Nodup ∧ ∀ k ∈ Dict.keys (condNew marg keys l), k ∈ Dict.keys l := by
  intro l
  induction l with
  | nil => intro _; simp [condNew]
  | cons kv l ih =>
    obtain ⟨k, v⟩ := kv
    intro hn
    simp only [Dict.keys_cons, List.nodup_cons] at hn
    obtain ⟨i1, i2⟩ := ih hn.2
    have hcons : condNew marg keys ((k, v) :: l) = condNew marg keys l ∨
        ∃ t, condNew marg keys ((k, v) :: l) = (k, t) :: condNew marg keys l := by
      by_cases hk : k ∈ keys
      · rcases hg : Dict.get? marg k with _ | t
        · left; simp [condNew, hk, hg]
        · right; exact ⟨t, by simp [condNew, hk, hg]⟩
      · left; simp [condNew, hk]
    rcases hcons with hc | ⟨t, hc⟩
    · rw [hc]
      exact ⟨i1, fun k' hk' => by simp [i2 k' hk']⟩
    · rw [hc]
      simp only [Dict.keys_cons, List.nodup_cons, List.mem_cons]
      refine ⟨⟨fun hkk => hn.1 (i2 k hkk), i1⟩, ?_⟩
      rintro k' (rfl | hk')
      · exact Or.inl rfl
      · exact Or.inr (i2 k' hk')

/-- `conditionalise` succeeds exactly when the new axes are distinct and in
range, and then gives the conditional distribution. -/
theorem conditionalise_core (h : d.WF fmt) (hpos : d.Pos) (hown : ∀ k, Spec.OwnAxis d k)
    (hkeys : ∀ k ∈ keys, k ∈ d.marg.keys) :
    ∃ D low top klow, CondPlan d keys D low top klow ∧
      (((Dict.vals (movePairs d D d.keylist)).Nodup ∧
          ∀ b ∈ Dict.vals (movePairs d D d.keylist), b < d.ndim) →
        ∃ r, d.conditionalise fmt keys = .ok r ∧ r.WF fmt ∧ Spec.CondForm d keys r ∧
          (∀ k, r.axis k = (Dict.get? D k).join) ∧
          (Spec.Divisible d keys → (∃ k ∈ d.marg.keys, k ∉ keys ∧ (d.axis k).isSome) →
            Spec.CondEntries d keys r) ∧
          (Spec.Divisible d keys → (∀ k ∈ d.marg.keys, k ∉ keys → d.axis k = none) →
            ∀ i ∈ idx d.shape, ∀ j ∈ idx r.shape, Spec.Agree d r i j →
              Spec.Writable d.pscale (d.at i / Spec.scalarTotal d keys) →
              r.at j = d.at i / Spec.scalarTotal d keys)) ∧
      (∀ r, d.conditionalise fmt keys = .ok r →
        (Dict.vals (movePairs d D d.keylist)).Nodup ∧
          ∀ b ∈ Dict.vals (movePairs d D d.keylist), b < d.ndim) := by
  classical
  obtain ⟨st, D0, low, top, klow, g1, g2, g3, g4, g5, plan⟩ := condPlan_ok (keys := keys) h hkeys
  set D : Dict Str (Option ℕ) := D0.map fun kv => (kv.1, kv.2.map Int.toNat) with hD
  set P := movePairs d D d.keylist with hP
  have hall : keys.all (· ∈ d.marg.keys) = true := by simpa [List.all_eq_true] using hkeys
  have haxes := condAxes_ok (keys := keys) D d.keylist ⟨[], [], []⟩ h.nodup
    (fun k hk => mem_dims h hk) (fun k _ a ha => ⟨plan.array ha, by simp⟩) hown
  simp only [List.nil_append] at haxes
  rw [← hP] at haxes
  set sum := condSum d keys D d.keylist with hsum
  have hmemP : ∀ a b, (a, b) ∈ P ↔ ∃ k, d.axis k = some a ∧ Dict.get? D k = some (some b) := by
    intro a b
    rw [hP, mem_movePairs]
    constructor
    · rintro ⟨k, _, h1, h2⟩; exact ⟨k, h1, h2⟩
    · rintro ⟨k, h1, h2⟩; exact ⟨k, (plan.mem k).mp (Dict.mem_keys_of_get? h2), h1, h2⟩
  have hold : (Dict.keys P).Nodup := nodup_movePairs_keys hown h.nodup
  have hcover : ∀ a, a ∈ Dict.keys P ↔ a < d.ndim := by
    intro a
    constructor
    · intro ha
      obtain ⟨⟨a', b⟩, hab, rfl⟩ := List.mem_map.mp ha
      obtain ⟨k, h1, _⟩ := (hmemP _ _).mp hab
      exact h.axis_lt h1
    · intro ha
      obtain ⟨k, hk⟩ := h.cover a ha
      obtain ⟨b, hb⟩ := plan.array hk
      exact List.mem_map.mpr ⟨(a, b), (hmemP _ _).mpr ⟨k, hk, hb⟩, rfl⟩
  have hrank : d.prob.shape.length = d.ndim := by rw [h.probShape, h.rank]
  -- the computation as far as the axes
  have hrun : d.conditionalise fmt keys = (do
      let dist ← distDims (redimVals d D) (some D)
      let prob ← moveaxis d.prob (Dict.keys P) (Dict.vals P)
      let prob ← condProb d.pscale st.normalise sum prob
      pdInit fmt (margcondStr st.marg st.cond) dist.vals (some D) prob d.pscale.spec) := by
    unfold PD.conditionalise
    rw [if_pos hall, g1]
    simp only [bind, Except.bind]
    rw [g5]
    simp only
    rw [plan.vals_ok]
    rcases distDims (redimVals d D) (some D) with e | dist
    · rfl
    · simp only
      rw [haxes]
  refine ⟨D, low, top, klow, plan, ?_, ?_⟩
  · rintro ⟨hnew, hlt⟩
    obtain ⟨q, m1, perm, m3⟩ := moveaxis_ok (A := d.prob) hold (by rw [hrank]; exact hcover) hnew
      (by rw [hrank]; exact hlt)
    rw [h.probShape] at perm m3
    set S := q.shape with hS
    have hSl : S.length = d.ndim := by
      have hp : (Dict.vals P).Perm (List.range S.length) := by
        rw [List.perm_ext_iff_of_nodup hnew List.nodup_range]
        intro b; rw [perm.coverNew, List.mem_range]
      have hp' : (Dict.keys P).Perm (List.range d.ndim) := by
        rw [List.perm_ext_iff_of_nodup hold List.nodup_range]
        intro a; rw [hcover, List.mem_range]
      have e1 := hp.length_eq
      have e2 := hp'.length_eq
      simp only [List.length_range, Dict.vals, Dict.keys, List.length_map] at e1 e2
      omega
    have hSpos : ∀ n ∈ S, 0 < n := by
      intro n hn
      obtain ⟨b, hb⟩ := List.mem_iff_getElem?.mp hn
      have hbl : b < S.length := (List.getElem?_eq_some_iff.mp hb).1
      obtain ⟨ab, hab, rfl⟩ := List.mem_map.mp ((perm.coverNew b).mpr hbl)
      rw [← perm.size ab hab] at hb
      exact hpos n (List.mem_of_getElem? hb)
    -- name
    have hnn := nodup_condNew (keys := keys) d.marg d.vals h.nodup
    have hcn : ∀ k, k ∈ Dict.keys (condNew d.marg keys d.vals) ↔ k ∈ keys := by
      intro k
      constructor
      · intro hk
        obtain ⟨kt, h1, rfl⟩ := List.mem_map.mp hk
        exact ((mem_condNew h hkeys kt).mp h1).2
      · intro hk
        obtain ⟨t, ht⟩ := Dict.get?_of_mem_keys (hkeys k hk)
        exact List.mem_map.mpr ⟨(k, t), (mem_condNew h hkeys _).mpr ⟨Dict.get?_mem ht, hk⟩, rfl⟩
    have hmk : Dict.keys st.marg = (Dict.keys d.marg).filter (· ∉ keys) := by
      rw [g2]; exact Dict.keys_filter (fun k => decide (k ∉ keys)) d.marg
    have hck : ∀ k, k ∈ Dict.keys st.cond ↔ k ∈ Dict.keys d.cond ∨ k ∈ keys := by
      intro k; rw [g3, Dict.keys_append, List.mem_append, hcn]
    have hcnod : (Dict.keys st.cond).Nodup := by
      rw [g3, Dict.keys_append, List.nodup_append]
      refine ⟨h.condSide.1, hnn.1, ?_⟩
      rintro a ha b hb rfl
      exact h.disj a (hkeys a ((hcn a).mp hb)) ha
    have hgm : ∀ k, Dict.get? st.marg k = if k ∈ keys then none else Dict.get? d.marg k := by
      intro k
      rw [g2, Dict.get?_filter (fun k => decide (k ∉ keys)) d.marg k]
      by_cases hk : k ∈ keys <;> simp [hk]
    have hgc : ∀ k t, (Dict.get? d.cond k = some t ∨ (k ∈ keys ∧ Dict.get? d.marg k = some t)) →
        Dict.get? st.cond k = some t := by
      intro k t ht
      apply Dict.get?_of_mem hcnod
      rw [g3]
      apply List.mem_append.mpr
      rcases ht with ht | ⟨h1, h2⟩
      · exact Or.inl (Dict.get?_mem ht)
      · exact Or.inr ((mem_condNew h hkeys _).mpr ⟨Dict.get?_mem h2, h1⟩)
    have hjoin : ∀ k, ((Dict.get? D k).join).isSome = (d.axis k).isSome := by
      intro k
      rcases ha : d.axis k with _ | a
      · by_cases hk : k ∈ d.keylist
        · rw [plan.scalar k hk ha]; rfl
        · rw [Dict.get?_eq_none.mpr (fun hc => hk ((plan.mem k).mp hc))]; rfl
      · obtain ⟨b, hb⟩ := plan.array ha
        rw [hb]; rfl
    have hkv : Dict.keys (redimVals d D) = Dict.keys D := keys_redimVals D
    have hgv := get?_redimVals plan.nodup plan.mem
    have hbuild : BuildArgs fmt st.marg st.cond (redimVals d D) D S := by
      refine ⟨?_, ?_, ?_, ?_, ?_, ?_, ?_, plan.nodup, ?_, ?_, ?_, ?_⟩
      · intro hc
        have : Dict.keys (redimVals d D) = [] := by rw [hc]; rfl
        rw [hkv] at this
        apply h.ne
        rcases hv : d.vals with _ | ⟨kv, l⟩
        · rfl
        · have := (plan.mem kv.1).mpr (by simp [PD.keylist, hv])
          rw [‹Dict.keys D = []›] at this; simp at this
      · show (Dict.keys _).Nodup; rw [hkv]; exact plan.nodup
      · intro k hk
        have hk' : k ∈ Dict.keys (redimVals d D) := hk
        rw [hkv, plan.mem] at hk'
        exact h.allowed k hk'
      · refine ⟨?_, ?_⟩
        · show (Dict.keys st.marg).Nodup; rw [hmk]; exact h.margSide.1.filter _
        · intro kv hkv
          rw [g2] at hkv
          exact h.margSide.2 kv (List.mem_filter.mp hkv).1
      · refine ⟨hcnod, ?_⟩
        intro kv hkv
        rw [g3, List.mem_append] at hkv
        rcases hkv with hkv | hkv
        · exact h.condSide.2 kv hkv
        · exact h.margSide.2 kv ((mem_condNew h hkeys kv).mp hkv).1
      · intro k hk hc
        have hk' : k ∈ Dict.keys st.marg := hk
        rw [hmk, List.mem_filter] at hk'
        rcases (hck k).mp hc with hc | hc
        · exact h.disj k hk'.1 hc
        · simp [hc] at hk'
      · intro k
        show k ∈ Dict.keys (redimVals d D) ↔ k ∈ Dict.keys st.marg ∨ k ∈ Dict.keys st.cond
        rw [hkv, plan.mem, hck, hmk, List.mem_filter]
        show k ∈ Dict.keys d.vals ↔ _
        rw [h.keys k]
        by_cases hk : k ∈ keys
        · simp [hk, hkeys k hk]
        · simp [hk]
      · intro k hk
        show k ∈ Dict.keys (redimVals d D)
        rw [hkv]; exact hk
      · intro k v hv hs
        rw [hgv] at hv
        have hax := h.axis_none hv hs
        refine ⟨?_, ?_⟩
        · have := hjoin k
          rw [hax] at this
          simpa using this
        · rcases (h.single k v hv hs).2 with ht | ht
          · by_cases hk : k ∈ keys
            · exact Or.inr (hgc k _ (Or.inr ⟨hk, ht⟩))
            · left; rw [hgm]; simpa [hk] using ht
          · exact Or.inr (hgc k _ (Or.inl ht))
      · intro k v hv hs
        rw [hgv] at hv
        obtain ⟨s, data, a, e1, e2, e3, e4⟩ := h.size_ok hpos hv hs
        have ha : d.axis k = some a := join_eq_some.mpr e3
        obtain ⟨b, hb⟩ := plan.array ha
        refine ⟨s, data, b, e1, e2, hb, ?_⟩
        rw [← perm.size (a, b) ((hmemP _ _).mpr ⟨k, ha, hb⟩), e4]
      · intro b hb
        obtain ⟨⟨a, b'⟩, hab, rfl⟩ := List.mem_map.mp ((perm.coverNew b).mpr hb)
        obtain ⟨k, _, hk⟩ := (hmemP _ _).mp hab
        exact ⟨k, by simp [hk]⟩
    obtain ⟨dist, w1, w2, -⟩ := distDims_ok hbuild.distReady
    rw [hbuild.noNone, hbuild.maxDim] at w2
    -- probabilities
    have hne : (idx S).Nonempty := by
      refine ⟨List.replicate S.length 0, ?_⟩
      rw [mem_idx_iff]
      refine ⟨by simp, ?_⟩
      intro n x m hx hm
      have : x = 0 := List.eq_of_mem_replicate (List.mem_of_getElem? hx)
      rw [this]
      exact hSpos m (List.mem_of_getElem? hm)
    have hmemsum : ∀ b, b ∈ sum ↔ ∃ k a, d.axis k = some a ∧ k ∉ keys ∧ k ∈ d.marg.keys ∧
        Dict.get? D k = some (some b) := by
      intro b
      rw [hsum, condSum, List.mem_filterMap]
      constructor
      · rintro ⟨k, hk, hb⟩
        by_cases hc : k ∉ keys ∧ k ∈ d.marg.keys
        · rw [if_pos hc] at hb
          rcases ha : d.axis k with _ | a
          · rw [ha] at hb; simp at hb
          · rw [ha] at hb
            exact ⟨k, a, ha, hc.1, hc.2, join_eq_some.mp hb⟩
        · rw [if_neg hc] at hb; simp at hb
      · rintro ⟨k, a, ha, h1, h2, h3⟩
        refine ⟨k, (plan.mem k).mp (Dict.mem_keys_of_get? h3), ?_⟩
        rw [if_pos ⟨h1, h2⟩, ha]
        simp [h3]
    have hsumlt : ∀ b ∈ sum, b < S.length := by
      intro b hb
      obtain ⟨k, a, ha, _, _, h3⟩ := (hmemsum b).mp hb
      exact (perm.coverNew b).mp (List.mem_map.mpr ⟨(a, b), (hmemP _ _).mpr ⟨k, ha, h3⟩, rfl⟩)
    obtain ⟨R, c1, c2, c3, c4⟩ := condProb_ok h.stable st.normalise (sum := sum) (q := q) hne hsumlt
    obtain ⟨r, b1, b2, b3, b4, b5, b6, b7, b8, b9⟩ := pdInit_ok (hbuild.again hSpos) R c2
      d.pscale.spec d.pscale h.stable
    -- agreement is agreement along the pairs
    have hagree : ∀ i j, Spec.Agree d r i j ↔ ∀ ab ∈ P, i[ab.1]? = j[ab.2]? := by
      intro i j
      constructor
      · rintro hag ⟨a, b⟩ hab
        obtain ⟨k, h1, h2⟩ := (hmemP _ _).mp hab
        exact hag k a b h1 (by rw [b6]; simp [h2])
      · intro hab k a b ha hb
        rw [b6] at hb
        exact hab (a, b) ((hmemP _ _).mpr ⟨k, ha, join_eq_some.mp hb⟩)
    have hval : ∀ i ∈ idx d.shape, ∀ j, (∀ ab ∈ P, i[ab.1]? = j[ab.2]?) →
        q.get j = d.prob.get i := fun i hi j hij => m3 i j (length_of_mem_idx hi) hij
    have hpair : ∀ {a b b' : ℕ}, (a, b) ∈ P → (a, b') ∈ P → b = b' := by
      intro a b b' h1 h2
      have e1 := Dict.get?_of_mem hold h1
      rw [Dict.get?_of_mem hold h2] at e1
      simpa using e1.symm
    have hpair' : ∀ {a a' b : ℕ}, (a, b) ∈ P → (a', b) ∈ P → a = a' := by
      intro a a' b h1 h2
      have e1 := Dict.get?_of_mem perm.swap.old (mem_swapPairs.mpr h1)
      rw [Dict.get?_of_mem perm.swap.old (mem_swapPairs.mpr h2)] at e1
      simpa using e1.symm
    -- the groups
    have hgroup : ∀ i ∈ idx d.shape, ∀ j ∈ idx S, (∀ ab ∈ P, i[ab.1]? = j[ab.2]?) →
        groupSum d.pscale sum q j = Spec.massGiven d keys i := by
      intro i hi j hj hij
      unfold groupSum Spec.massGiven
      symm
      apply perm.sum_eq
      intro i' hi' j' hj' hij'
      refine ⟨by rw [hval i' hi' j' hij']; rfl, ?_⟩
      constructor
      · intro hall b hb
        by_cases hbl : b < S.length
        · obtain ⟨⟨a, b'⟩, hab, hbe⟩ := List.mem_map.mp ((perm.coverNew b).mpr hbl)
          simp only at hbe; subst hbe
          obtain ⟨k, h1, h2⟩ := (hmemP _ _).mp hab
          rw [← hij (a, b') hab, ← hij' (a, b') hab]
          apply hall k a h1
          by_contra hc
          rw [not_or] at hc
          apply hb
          rw [hmemsum]
          refine ⟨k, a, h1, hc.1, ?_, h2⟩
          have hkk : k ∈ d.keylist := (plan.mem k).mp (Dict.mem_keys_of_get? h2)
          exact ((h.keys k).mp hkk).resolve_right hc.2
        · rw [List.getElem?_eq_none (by rw [length_of_mem_idx hj']; omega),
            List.getElem?_eq_none (by rw [length_of_mem_idx hj]; omega)]
      · intro hall k a ha hk
        obtain ⟨b, hb⟩ := plan.array ha
        have hab : (a, b) ∈ P := (hmemP _ _).mpr ⟨k, ha, hb⟩
        rw [hij (a, b) hab, hij' (a, b) hab]
        apply hall
        intro hc
        obtain ⟨k', a', ha', h1, h2, h3⟩ := (hmemsum b).mp hc
        have := hpair' hab ((hmemP a' b).mpr ⟨k', ha', h3⟩)
        subst this
        have := hown k k' a ha ha'
        subst this
        rcases hk with hk | hk
        · exact h1 hk
        · exact h.disj _ h2 hk
    have hback : ∀ j ∈ idx S, ∃ i ∈ idx d.shape, ∀ ab ∈ P, i[ab.1]? = j[ab.2]? := by
      intro j hj
      refine ⟨moveIx (swapPairs P) d.shape.length j, perm.swap.mem_moveIx hj, ?_⟩
      rintro ⟨a, b⟩ hab
      exact (perm.swap.getElem?_moveIx (length_of_mem_idx hj) (mem_swapPairs.mpr hab)).symm
    have htotal : ∑ j' ∈ idx S, Spec.value d.pscale (q.get j') = Spec.mass d := by
      have := perm.sum_eq (fun i => d.at i) (fun j => Spec.value d.pscale (q.get j)) (fun _ => True)
        (fun _ => True) (fun i hi j hj hij => ⟨by rw [hval i hi j hij]; rfl, by simp⟩)
      simpa [Spec.mass] using this.symm
    have hnorm : st.normalise = true → ∃ k ∈ keys, d.axis k = none := by
      intro hn
      rw [g4, List.any_eq_true] at hn
      obtain ⟨⟨k, v⟩, hkv, hn⟩ := hn
      simp only [Bool.and_eq_true, decide_eq_true_eq] at hn
      exact ⟨k, hn.2, h.axis_none (Dict.get?_of_mem h.nodup hkv) hn.1⟩
    have hrange : Spec.Divisible d keys → CondRange d.pscale st.normalise sum q := by
      intro hdiv
      refine ⟨hdiv.readable.1, ?_, ?_, ?_, ?_, fun hn => hdiv.scale (hnorm hn)⟩
      · intro j hj
        obtain ⟨i, h1, h2⟩ := hback j hj
        rw [hval i h1 j h2]; exact hdiv.readable.2 i h1
      · intro j hj
        obtain ⟨i, h1, h2⟩ := hback j hj
        rw [hval i h1 j h2]; exact hdiv.nonneg i h1
      · intro j hj
        obtain ⟨i, h1, h2⟩ := hback j hj
        rw [hgroup i h1 j hj h2]; exact hdiv.mass i h1
      · intro hn j hj
        obtain ⟨i, h1, h2⟩ := hback j hj
        rw [hgroup i h1 j hj h2]
        refine le_of_eq_of_le ?_ (hdiv.share (hnorm hn) i h1)
        rw [← htotal]
    have hnorm' : (∃ k ∈ keys, d.axis k = none) → st.normalise = true := by
      rintro ⟨k, hk, ha⟩
      rw [g4, List.any_eq_true]
      obtain ⟨v, hv⟩ := Dict.get?_of_mem_keys ((h.keys k).mpr (Or.inl (hkeys k hk)))
      refine ⟨(k, v), Dict.get?_mem hv, ?_⟩
      have := axis_isSome_iff h (k, v) (Dict.get?_mem hv)
      rw [ha] at this
      simp only [Bool.and_eq_true, decide_eq_true_eq]
      exact ⟨by simpa using this.symm, hk⟩
    refine ⟨r, ?_, b2, ?_, b6, ?_, ?_⟩
    · rw [hrun, w1]
      simp only [bind, Except.bind, m1, c1]
      rw [w2]; exact b1
    · refine ⟨b3.trans g2, ?_, ?_, ?_, ?_, b9, ?_, ?_, ?_, ?_⟩
      · rw [b4, g3]; exact List.prefix_append _ _
      · intro kt
        rw [b4, g3, List.mem_append, mem_condNew h hkeys]
      · intro k
        have : Dict.keys r.vals = Dict.keys D := by
          rw [b5]
          have : Dict.keys (List.map (fun kv : Str × Val => (kv.1, placeVal D S.length kv.1 kv.2))
              (List.map (fun kv : Str × Val => (kv.1, placeVal D S.length kv.1 kv.2)) (redimVals d D))) =
              Dict.keys (redimVals d D) := by simp [Dict.keys]
          rw [this, hkv]
        show k ∈ Dict.keys r.vals ↔ _
        rw [this, plan.mem]
      · intro k
        rw [(hbuild.again hSpos).values b5, Dict.get?_map, hgv]
        unfold PD.values
        rcases Dict.get? d.vals k with _ | v
        · rfl
        · simp only [Option.map_some]
          rw [flat_placeVal k v (fun a ha => by rw [← hbuild.maxDim]; exact lt_maxDim ha)]
      · intro k; rw [b6]; exact hjoin k
      · intro k k' b hb hb'
        rw [b6, join_eq_some] at hb hb'
        have hx : ∀ k b, Dict.get? D k = some (some b) → ∃ a, d.axis k = some a := by
          intro k b hb
          apply Option.isSome_iff_exists.mp
          rw [← hjoin k, hb]; rfl
        obtain ⟨a, ha⟩ := hx k b hb
        obtain ⟨a', ha'⟩ := hx k' b hb'
        have := hpair' ((hmemP a b).mpr ⟨k, ha, hb⟩) ((hmemP a' b).mpr ⟨k', ha', hb'⟩)
        subst this
        exact hown k k' a ha ha'
      · intro i hi
        rw [b7]
        have := perm.existsUnique hi
        simpa only [hagree] using this
      · intro j hj
        rw [b7] at hj
        obtain ⟨i, ⟨h1, h2⟩, h3⟩ := perm.swap.existsUnique hj
        have hsw : ∀ i : List ℕ, (∀ ab ∈ swapPairs P, j[ab.1]? = i[ab.2]?) ↔
            ∀ ab ∈ P, i[ab.1]? = j[ab.2]? := by
          intro i
          constructor
          · rintro hx ⟨a, b⟩ hab; exact (hx (b, a) (mem_swapPairs.mpr hab)).symm
          · rintro hx ⟨b, a⟩ hab; exact (hx (a, b) (mem_swapPairs.mp hab)).symm
        refine ⟨i, ⟨h1, (hagree i j).mpr ((hsw i).mp h2)⟩, ?_⟩
        rintro i' ⟨h4, h5⟩
        exact h3 i' ⟨h4, (hsw i').mpr ((hagree i' j).mp h5)⟩
    · intro hdiv hrem i hi j hj hij hw
      rw [b7] at hj
      have hij' := (hagree i j).mp hij
      have hsne : sum ≠ [] := by
        obtain ⟨k, h1, h2, h3⟩ := hrem
        obtain ⟨a, ha⟩ := Option.isSome_iff_exists.mp h3
        obtain ⟨b, hb⟩ := plan.array ha
        intro hc
        have : b ∈ sum := (hmemsum b).mpr ⟨k, a, ha, h2, h1, hb⟩
        rw [hc] at this; simp at this
      have hfin := c3 (hrange hdiv) hsne j hj
      rw [hgroup i hi j hj hij', hval i hi j hij'] at hfin
      show Spec.value r.pscale (r.prob.get j) = _
      rw [b9, b8]
      exact hfin hw
    · intro hdiv hrem i hi j hj hij hw
      rw [b7] at hj
      have hij' := (hagree i j).mp hij
      have hse : sum = [] := by
        rw [List.eq_nil_iff_forall_not_mem]
        intro b hb
        obtain ⟨k, a, ha, x, y, _⟩ := (hmemsum b).mp hb
        rw [hrem k y x] at ha; simp at ha
      have htot : condTotal d.pscale st.normalise q = Spec.scalarTotal d keys := by
        unfold condTotal Spec.scalarTotal
        rw [htotal]
        have : (st.normalise = true) ↔ ∃ k ∈ keys, d.axis k = none := ⟨hnorm, hnorm'⟩
        by_cases hx : ∃ k ∈ keys, d.axis k = none
        · rw [if_pos (this.mpr hx), if_pos hx]
        · rw [if_neg (fun hc => hx (this.mp hc)), if_neg hx]
      have hfin := c4 (hrange hdiv) hse j hj
      rw [htot, hval i hi j hij'] at hfin
      show Spec.value r.pscale (r.prob.get j) = _
      rw [b9, b8]
      exact hfin hw
  · intro r hr
    rw [hrun] at hr
    rcases hd : distDims (redimVals d D) (some D) with e | dist
    · rw [hd] at hr; simp [bind, Except.bind] at hr
    · rw [hd] at hr
      simp only [bind, Except.bind] at hr
      rcases hm : moveaxis d.prob (Dict.keys P) (Dict.vals P) with e | q
      · rw [hm] at hr; simp at hr
      · unfold moveaxis at hm
        dsimp only at hm
        split at hm
        · rename_i hc
          simp only [Bool.and_eq_true, List.all_eq_true, decide_eq_true_eq, beq_iff_eq, hrank] at hc
          exact ⟨hc.1.2, hc.1.1.1.2⟩
        · simp at hm


/-- C17: whatever `conditionalise` returns is right.  The arguments must have
axes of their own, be in the range of floats, and some array variable must
remain marginal. -/
theorem C17_correct_partial (h : d.WF fmt) (hpos : d.Pos) (hown : ∀ k, Spec.OwnAxis d k)
    (hkeys : ∀ k ∈ keys, k ∈ d.marg.keys) {r : PD} (hr : d.conditionalise fmt keys = .ok r) :
    r.WF fmt ∧ Spec.CondForm d keys r ∧ (Spec.Divisible d keys →
      (∃ k ∈ d.marg.keys, k ∉ keys ∧ (d.axis k).isSome) → Spec.CondEntries d keys r) := by
  obtain ⟨D, low, top, klow, plan, h1, h2⟩ := conditionalise_core (keys := keys) h hpos hown hkeys
  obtain ⟨r', e1, e2, e3, -, e4, -⟩ := h1 (h2 r hr)
  rw [hr] at e1
  obtain rfl : r = r' := by simpa using e1
  exact ⟨e2, e3, e4⟩

/-- All marginal arrays come before all conditional arrays. -/
def Spec.MargFirst (d : PD) : Prop :=
  ∀ k a k' a', k ∈ d.marg.keys → k' ∈ d.cond.keys → d.axis k = some a → d.axis k' = some a' → a < a'

/-- The conditioned arrays are the last marginal arrays, or the first; in the
latter case there are no conditional arrays, or as many arrays are conditioned
as not.  At least one array is left. -/
def Spec.Movable (d : PD) (keys : List Str) : Prop :=
  (∀ k ∈ keys, d.axis k = none) ∨
  ((∃ k, k ∉ keys ∧ (d.axis k).isSome) ∧
    ((∀ k a k' a', k ∈ d.marg.keys → k ∉ keys → k' ∈ keys → d.axis k = some a →
        d.axis k' = some a' → a < a') ∨
     ((∀ k a k' a', k ∈ d.marg.keys → k ∉ keys → k' ∈ keys → d.axis k = some a →
        d.axis k' = some a' → a' < a) ∧
      ((∀ k ∈ d.cond.keys, d.axis k = none) ∨
        2 * (keys.filter fun k => (d.axis k).isSome).length = d.ndim))))

theorem card_axes {l : List Str} (hl : l.Nodup) (hown : ∀ k, Spec.OwnAxis d k) (B : Finset ℕ)
    (hs : ∀ k ∈ l, (d.axis k).isSome)
    (hB : ∀ a, a ∈ B ↔ ∃ k ∈ l, d.axis k = some a) : B.card = l.length := by
  have : B = (l.map fun k => (d.axis k).getD 0).toFinset := by
    ext a
    rw [hB, List.mem_toFinset, List.mem_map]
    constructor
    · rintro ⟨k, h1, h2⟩; exact ⟨k, h1, by simp [h2]⟩
    · rintro ⟨k, h1, h2⟩
      obtain ⟨b, hb⟩ := Option.isSome_iff_exists.mp (hs k h1)
      rw [hb] at h2
      exact ⟨k, h1, by rw [hb, ← h2]; rfl⟩
  rw [this, List.toFinset_card_of_nodup, List.length_map]
  rw [List.nodup_map_iff_inj_on hl]
  intro k hk k' hk' he
  obtain ⟨b, hb⟩ := Option.isSome_iff_exists.mp (hs k hk)
  obtain ⟨b', hb'⟩ := Option.isSome_iff_exists.mp (hs k' hk')
  rw [hb, hb'] at he
  simp only [Option.getD_some] at he
  subst he
  exact hown k' k b hb' hb

theorem conditionalise_iff (h : d.WF fmt) (hpos : d.Pos) (hown : ∀ k, Spec.OwnAxis d k)
    (hord : Spec.Ordered d) (hfirst : Spec.MargFirst d) (hnd : keys.Nodup)
    (hkeys : ∀ k ∈ keys, k ∈ d.marg.keys) :
    (∃ r, d.conditionalise fmt keys = .ok r) ↔ Spec.Movable d keys := by
  classical
  obtain ⟨D, low, top, klow, plan, h1, h2⟩ := conditionalise_core (keys := keys) h hpos hown hkeys
  set P := movePairs d D d.keylist with hP
  set n := d.ndim with hn
  set B : Finset ℕ := (Finset.range n).filter fun a => ∃ k ∈ keys, d.axis k = some a with hB
  set M : Finset ℕ := (Finset.range n).filter fun a =>
    ∃ k ∈ Dict.keys d.marg, k ∉ keys ∧ d.axis k = some a with hM
  set C : Finset ℕ := (Finset.range n).filter fun a => ∃ k ∈ Dict.keys d.cond, d.axis k = some a with hC
  have mB : ∀ a, a ∈ B ↔ ∃ k ∈ keys, d.axis k = some a := by
    intro a
    rw [hB, Finset.mem_filter, Finset.mem_range]
    exact ⟨fun x => x.2, fun ⟨k, x, y⟩ => ⟨h.axis_lt y, k, x, y⟩⟩
  have mM : ∀ a, a ∈ M ↔ ∃ k ∈ Dict.keys d.marg, k ∉ keys ∧ d.axis k = some a := by
    intro a
    rw [hM, Finset.mem_filter, Finset.mem_range]
    exact ⟨fun x => x.2, fun ⟨k, x, y⟩ => ⟨h.axis_lt y.2, k, x, y⟩⟩
  have mC : ∀ a, a ∈ C ↔ ∃ k ∈ Dict.keys d.cond, d.axis k = some a := by
    intro a
    rw [hC, Finset.mem_filter, Finset.mem_range]
    exact ⟨fun x => x.2, fun ⟨k, x, y⟩ => ⟨h.axis_lt y, k, x, y⟩⟩
  have hmemP : ∀ a b, (a, b) ∈ P ↔ ∃ k, d.axis k = some a ∧ Dict.get? D k = some (some b) := by
    intro a b
    rw [hP, mem_movePairs]
    constructor
    · rintro ⟨k, _, h1, h2⟩; exact ⟨k, h1, h2⟩
    · rintro ⟨k, h1, h2⟩; exact ⟨k, (plan.mem k).mp (Dict.mem_keys_of_get? h2), h1, h2⟩
  have hold : (Dict.keys P).Nodup := nodup_movePairs_keys hown h.nodup
  have hcover : ∀ a, a ∈ Dict.keys P ↔ a < n := by
    intro a
    constructor
    · intro ha
      obtain ⟨⟨a', b⟩, hab, rfl⟩ := List.mem_map.mp ha
      obtain ⟨k, h1, _⟩ := (hmemP _ _).mp hab
      exact h.axis_lt h1
    · intro ha
      obtain ⟨k, hk⟩ := h.cover a ha
      obtain ⟨b, hb⟩ := plan.array hk
      exact List.mem_map.mpr ⟨(a, b), (hmemP _ _).mpr ⟨k, hk, hb⟩, rfl⟩
  set N : ℕ → ℕ := fun a => (Dict.get? P a).getD 0 with hN
  have hNat : ∀ {k a b}, d.axis k = some a → Dict.get? D k = some (some b) → N a = b := by
    intro k a b ha hb
    simp [hN, Dict.get?_of_mem hold ((hmemP a b).mpr ⟨k, ha, hb⟩)]
  have hvals : Dict.vals P = (Dict.keys P).map N := by
    simp only [Dict.vals, Dict.keys, List.map_map]
    apply List.map_congr_left
    rintro ⟨a, b⟩ hab
    simp [hN, Dict.get?_of_mem hold hab]
  have hperm : ((Dict.vals P).Nodup ∧ ∀ b ∈ Dict.vals P, b < n) ↔
      ((∀ a < n, ∀ b < n, N a = N b → a = b) ∧ ∀ a < n, N a < n) := by
    rw [hvals, List.nodup_map_iff_inj_on hold]
    constructor
    · rintro ⟨x, y⟩
      exact ⟨fun a ha b hb hab => x a ((hcover a).mpr ha) b ((hcover b).mpr hb) hab,
        fun a ha => y _ (List.mem_map.mpr ⟨a, (hcover a).mpr ha, rfl⟩)⟩
    · rintro ⟨x, y⟩
      refine ⟨fun a ha b hb hab => x a ((hcover a).mp ha) b ((hcover b).mp hb) hab, ?_⟩
      intro b hb
      obtain ⟨a, ha, rfl⟩ := List.mem_map.mp hb
      exact y a ((hcover a).mp ha)
  have hside : ∀ {k a}, d.axis k = some a → k ∈ Dict.keys d.marg ∨ k ∈ Dict.keys d.cond := by
    intro k a ha
    exact (h.keys k).mp (h.dimKeys k (Dict.mem_keys_of_get? (join_eq_some.mp ha)))
  have hcardB : B.card = (arrayKeys d keys).length := by
    apply card_axes (hnd.filter _) hown
    · intro k hk; exact (mem_arrayKeys.mp hk).2
    · intro a
      rw [mB]
      constructor
      · rintro ⟨k, x, y⟩; exact ⟨k, mem_arrayKeys.mpr ⟨x, by simp [y]⟩, y⟩
      · rintro ⟨k, x, y⟩; exact ⟨k, (mem_arrayKeys.mp x).1, y⟩
  have hrem : ∀ {k a}, k ∈ Dict.keys d.cond → d.axis k = some a →
      remainAxis d keys d.vals 0 k a = (a : ℤ) - B.card := by
    intro k a hk ha
    have hkm : k ∉ Dict.keys d.marg := fun hc => h.disj k hc hk
    unfold remainAxis
    rw [if_neg hkm, Nat.zero_add]
    have hkv : k ∈ Dict.keys d.vals := h.dimKeys k (Dict.mem_keys_of_get? (join_eq_some.mp ha))
    obtain ⟨p1, p2, p3⟩ := mem_preceding (keys := arrayKeys d keys) (k := k) h.nodup hord hkv
    have : (preceding (arrayKeys d keys) k d.vals).length = B.card := by
      symm
      apply card_axes p3 hown
      · intro k' hk'; exact (mem_arrayKeys.mp (p1 k' hk').1).2
      · intro b
        rw [mB]
        constructor
        · rintro ⟨k', x, y⟩
          refine ⟨k', ?_, y⟩
          by_contra hc
          have hk'v : k' ∈ Dict.keys d.vals :=
            h.dimKeys k' (Dict.mem_keys_of_get? (join_eq_some.mp y))
          have := p2 k' (mem_arrayKeys.mpr ⟨x, by simp [y]⟩) hk'v
            (fun he => hkm (he ▸ hkeys k' x)) hc a b ha y
          have := hfirst k' b k a (hkeys k' x) hk y ha
          omega
        · rintro ⟨k', x, y⟩
          exact ⟨k', (mem_arrayKeys.mp (p1 k' x).1).1, y⟩
    rw [this]
  have hremM : ∀ {k a}, k ∈ Dict.keys d.marg → remainAxis d keys d.vals 0 k a = (a : ℤ) := by
    intro k a hk; unfold remainAxis; rw [if_pos hk]
  have hcondkey : ∀ {k}, k ∈ Dict.keys d.cond → k ∉ keys := fun hk hc => h.disj _ (hkeys _ hc) hk
  have hsplit : ∀ {x : ℤ} {k : Str} {a : ℕ}, d.axis k = some a → k ∉ keys →
      remainAxis d keys d.vals 0 k a = x →
      (a ∈ M ∧ (a : ℤ) = x) ∨ (a ∈ C ∧ (a : ℤ) - B.card = x) := by
    intro x k a ha hk hx
    rcases hside ha with hm | hc
    · left; rw [hremM hm] at hx; exact ⟨(mM a).mpr ⟨k, hm, hk, ha⟩, hx⟩
    · right; rw [hrem hc ha] at hx; exact ⟨(mC a).mpr ⟨k, hc, ha⟩, hx⟩
  have hap : AxisPlan n B M C N low top klow := by
    refine ⟨?_, ?_, ?_, ?_, ?_, ?_, ?_, ?_, ?_, ?_, ?_, ?_⟩
    · intro a
      constructor
      · intro ha
        obtain ⟨k, hk⟩ := h.cover a ha
        by_cases hkk : k ∈ keys
        · exact Or.inl ((mB a).mpr ⟨k, hkk, hk⟩)
        · rcases hside hk with hm | hc
          · exact Or.inr (Or.inl ((mM a).mpr ⟨k, hm, hkk, hk⟩))
          · exact Or.inr (Or.inr ((mC a).mpr ⟨k, hc, hk⟩))
      · rintro (ha | ha | ha)
        · exact Finset.mem_range.mp (Finset.mem_filter.mp ha).1
        · exact Finset.mem_range.mp (Finset.mem_filter.mp ha).1
        · exact Finset.mem_range.mp (Finset.mem_filter.mp ha).1
    · intro a ha hc
      obtain ⟨k, x, y⟩ := (mB a).mp ha
      obtain ⟨k', x', y', z'⟩ := (mM a).mp hc
      exact y' (hown k k' a y z' ▸ x)
    · intro a ha c hc
      obtain ⟨k, x, y⟩ := (mB a).mp ha
      obtain ⟨k', x', y'⟩ := (mC c).mp hc
      exact hfirst k a k' c (hkeys k x) x' y y'
    · intro a ha c hc
      obtain ⟨k, x, _, y⟩ := (mM a).mp ha
      obtain ⟨k', x', y'⟩ := (mC c).mp hc
      exact hfirst k a k' c x x' y y'
    · rintro ⟨a, ha⟩
      obtain ⟨k, x, y⟩ := (mB a).mp ha
      exact (mB _).mpr (plan.klowest ⟨k, x, a, y⟩)
    · intro b hb
      obtain ⟨k, x, y⟩ := (mB b).mp hb
      exact (plan.key k b y x).1
    · intro b hb
      obtain ⟨k, x, y⟩ := (mB b).mp hb
      exact hNat y (plan.key k b y x).2
    · intro a ha
      obtain ⟨k, x, x', y⟩ := (mM a).mp ha
      obtain ⟨b, e1, e2, e3⟩ := plan.rest k a y x'
      rw [hNat y e1, e2, hremM x]
    · intro a ha
      obtain ⟨k, x, y⟩ := (mC a).mp ha
      obtain ⟨b, e1, e2, e3⟩ := plan.rest k a y (hcondkey x)
      rw [hNat y e1, e2, hrem x y]
    · rintro a (ha | ha)
      · obtain ⟨k, x, x', y⟩ := (mM a).mp ha
        obtain ⟨b, e1, e2, e3⟩ := plan.rest k a y x'
        rw [hNat y e1]; exact e3
      · obtain ⟨k, x, y⟩ := (mC a).mp ha
        obtain ⟨b, e1, e2, e3⟩ := plan.rest k a y (hcondkey x)
        rw [hNat y e1]; exact e3
    · intro hne
      have : ∃ k a, d.axis k = some a ∧ k ∉ keys := by
        rcases hne with ⟨a, ha⟩ | ⟨a, ha⟩
        · obtain ⟨k, x, x', y⟩ := (mM a).mp ha
          exact ⟨k, a, y, x'⟩
        · obtain ⟨k, x, y⟩ := (mC a).mp ha
          exact ⟨k, a, y, hcondkey x⟩
      obtain ⟨k, a, e1, e2, e3⟩ := plan.lowest this
      exact ⟨a, hsplit e1 e2 e3⟩
    · rcases plan.highest with ht | ⟨k, a, e1, e2, e3⟩
      · exact Or.inl ht
      · exact Or.inr ⟨a, hsplit e1 e2 e3⟩
  have hgood : AxisPlan.Good n B M C ↔ Spec.Movable d keys := by
    have g0 : B = ∅ ↔ ∀ k ∈ keys, d.axis k = none := by
      rw [Finset.eq_empty_iff_forall_notMem]
      constructor
      · intro hx k hk
        rcases ha : d.axis k with _ | a
        · rfl
        · exact absurd ((mB a).mpr ⟨k, hk, ha⟩) (hx a)
      · rintro hx a ha
        obtain ⟨k, x, y⟩ := (mB a).mp ha
        rw [hx k x] at y; simp at y
    have g1 : (M.Nonempty ∨ C.Nonempty) ↔ ∃ k, k ∉ keys ∧ (d.axis k).isSome := by
      constructor
      · rintro (⟨a, ha⟩ | ⟨a, ha⟩)
        · obtain ⟨k, x, x', y⟩ := (mM a).mp ha
          exact ⟨k, x', by simp [y]⟩
        · obtain ⟨k, x, y⟩ := (mC a).mp ha
          exact ⟨k, hcondkey x, by simp [y]⟩
      · rintro ⟨k, x, y⟩
        obtain ⟨a, ha⟩ := Option.isSome_iff_exists.mp y
        rcases hside ha with hm | hc
        · exact Or.inl ⟨a, (mM a).mpr ⟨k, hm, x, ha⟩⟩
        · exact Or.inr ⟨a, (mC a).mpr ⟨k, hc, ha⟩⟩
    have g2 : ∀ R : ℕ → ℕ → Prop, (∀ x ∈ M, ∀ b ∈ B, R x b) ↔
        ∀ k a k' a', k ∈ d.marg.keys → k ∉ keys → k' ∈ keys → d.axis k = some a →
          d.axis k' = some a' → R a a' := by
      intro R
      constructor
      · intro hx k a k' a' e1 e2 e3 e4 e5
        exact hx a ((mM a).mpr ⟨k, e1, e2, e4⟩) a' ((mB a').mpr ⟨k', e3, e5⟩)
      · intro hx a ha a' ha'
        obtain ⟨k, e1, e2, e4⟩ := (mM a).mp ha
        obtain ⟨k', e3, e5⟩ := (mB a').mp ha'
        exact hx k a k' a' e1 e2 e3 e4 e5
    have g3 : C = ∅ ↔ ∀ k ∈ d.cond.keys, d.axis k = none := by
      rw [Finset.eq_empty_iff_forall_notMem]
      constructor
      · intro hx k hk
        rcases ha : d.axis k with _ | a
        · rfl
        · exact absurd ((mC a).mpr ⟨k, hk, ha⟩) (hx a)
      · rintro hx a ha
        obtain ⟨k, x, y⟩ := (mC a).mp ha
        rw [hx k x] at y; simp at y
    unfold AxisPlan.Good Spec.Movable
    rw [g0, g1, g2 (fun x b => x < b), g2 (fun x b => b < x), g3, hcardB]
    rfl
  rw [← hgood]
  constructor
  · rintro ⟨r, hr⟩
    have := hperm.mp (h2 r hr)
    exact hap.good_of_perm this.1 this.2
  · intro hg
    obtain ⟨r, hr, -⟩ := h1 (hperm.mpr (hap.perm_of_good hg))
    exact ⟨r, hr⟩

/-- C17: exactly when conditioning succeeds, for a distribution whose marginal
arrays come first. -/
theorem C17_succeeds_iff_partial (h : d.WF fmt) (hpos : d.Pos) (hown : ∀ k, Spec.OwnAxis d k)
    (hord : Spec.Ordered d) (hfirst : Spec.MargFirst d) (hnd : keys.Nodup)
    (hkeys : ∀ k ∈ keys, k ∈ d.marg.keys) :
    (∃ r, d.conditionalise fmt keys = .ok r) ↔ Spec.Movable d keys :=
  conditionalise_iff h hpos hown hord hfirst hnd hkeys

/-- C17 where it holds: conditioning on the last marginal variables. -/
theorem C17_last_partial (h : d.WF fmt) (hpos : d.Pos) (hown : ∀ k, Spec.OwnAxis d k)
    (hord : Spec.Ordered d) (hfirst : Spec.MargFirst d) (hnd : keys.Nodup)
    (hkeys : ∀ k ∈ keys, k ∈ d.marg.keys)
    (hlast : ∀ k a k' a', k ∈ d.marg.keys → k ∉ keys → k' ∈ keys → d.axis k = some a →
      d.axis k' = some a' → a < a')
    (hrem : ∃ k ∈ d.marg.keys, k ∉ keys ∧ (d.axis k).isSome) (hdiv : Spec.Divisible d keys) :
    ∃ r, d.conditionalise fmt keys = .ok r ∧ r.WF fmt ∧ Spec.CondForm d keys r ∧
      Spec.CondEntries d keys r := by
  obtain ⟨k, k1, k2, k3⟩ := hrem
  obtain ⟨r, hr⟩ := (conditionalise_iff (fmt := fmt) h hpos hown hord hfirst hnd hkeys).mpr
    (Or.inr ⟨⟨k, k2, k3⟩, Or.inl hlast⟩)
  obtain ⟨e1, e2, e3⟩ := C17_correct_partial h hpos hown hkeys hr
  exact ⟨r, hr, e1, e2, e3 hdiv ⟨k, k1, k2, k3⟩⟩

/-- C17: conditioning on the first variables of an unconditional distribution. -/
theorem C17_first_partial (h : d.WF fmt) (hpos : d.Pos) (hown : ∀ k, Spec.OwnAxis d k)
    (hord : Spec.Ordered d) (hnd : keys.Nodup) (hkeys : ∀ k ∈ keys, k ∈ d.marg.keys)
    (hcond : d.cond = [])
    (hf : ∀ k a k' a', k ∈ d.marg.keys → k ∉ keys → k' ∈ keys → d.axis k = some a →
      d.axis k' = some a' → a' < a)
    (hrem : ∃ k ∈ d.marg.keys, k ∉ keys ∧ (d.axis k).isSome) (hdiv : Spec.Divisible d keys) :
    ∃ r, d.conditionalise fmt keys = .ok r ∧ r.WF fmt ∧ Spec.CondForm d keys r ∧
      Spec.CondEntries d keys r := by
  obtain ⟨k, k1, k2, k3⟩ := hrem
  have hfirst : Spec.MargFirst d := by
    intro k a k' a' _ hk'
    rw [hcond] at hk'; simp at hk'
  obtain ⟨r, hr⟩ := (conditionalise_iff (fmt := fmt) h hpos hown hord hfirst hnd hkeys).mpr
    (Or.inr ⟨⟨k, k2, k3⟩, Or.inr ⟨hf, Or.inl (by rw [hcond]; simp)⟩⟩)
  obtain ⟨e1, e2, e3⟩ := C17_correct_partial h hpos hown hkeys hr
  exact ⟨r, hr, e1, e2, e3 hdiv ⟨k, k1, k2, k3⟩⟩

/-- Variables that are not marginal cannot be conditioned on. -/
theorem C17_unknown_refused (hk : ∃ k ∈ keys, k ∉ d.marg.keys) :
    d.conditionalise fmt keys = .error .assertion := by
  obtain ⟨k, h1, h2⟩ := hk
  unfold PD.conditionalise
  rw [if_neg]
  intro hc
  exact h2 (by simpa using List.all_eq_true.mp hc k h1)

open Classical in
/-- C17: over the values of the variables left, the conditional probabilities
sum to one for every combination of conditioning values. -/
theorem C17_normalised_partial (hmass : ∀ i ∈ idx d.shape, 0 < Spec.massGiven d keys i) {r : PD} (hd : d.WF fmt)
    (hkeys : ∀ k ∈ keys, k ∈ d.marg.keys)
    (hform : Spec.CondForm d keys r) (hent : Spec.CondEntries d keys r)
    (hw : ∀ i ∈ idx d.shape, Spec.Writable d.pscale (d.at i / Spec.massGiven d keys i)) :
    ∀ j ∈ idx r.shape, ∑ j' ∈ (idx r.shape).filter (fun j' => ∀ k a, r.axis k = some a →
      k ∈ r.cond.keys → j'[a]? = j[a]?), r.at j' = 1 := by
  intro j hj
  obtain ⟨i, ⟨hi, hij⟩, -⟩ := hform.unique' j hj
  choose! f hf hf' using hform.unique
  have hck : ∀ k, k ∈ r.cond.keys ↔ k ∈ keys ∨ k ∈ d.cond.keys := by
    intro k
    constructor
    · intro hk
      obtain ⟨kt, h1, rfl⟩ := List.mem_map.mp hk
      rcases (hform.cond kt).mp h1 with h | h
      · exact Or.inr (List.mem_map.mpr ⟨kt, h, rfl⟩)
      · exact Or.inl h.2
    · rintro (hk | hk)
      · obtain ⟨t, ht⟩ := Dict.get?_of_mem_keys (hkeys k hk)
        exact List.mem_map.mpr ⟨(k, t), (hform.cond _).mpr (Or.inr ⟨Dict.get?_mem ht, hk⟩), rfl⟩
      · obtain ⟨kt, h1, rfl⟩ := List.mem_map.mp hk
        exact List.mem_map.mpr ⟨kt, (hform.cond _).mpr (Or.inl h1), rfl⟩
  have hsame : ∀ i' ∈ idx d.shape, ∀ j', Spec.Agree d r i' j' →
      ((∀ k a, d.axis k = some a → (k ∈ keys ∨ k ∈ d.cond.keys) → i'[a]? = i[a]?) ↔
        ∀ k a, r.axis k = some a → k ∈ r.cond.keys → j'[a]? = j[a]?) := by
    intro i' _ j' hij'
    constructor
    · intro h k b hb hk
      obtain ⟨a, ha⟩ := Option.isSome_iff_exists.mp (by rw [← hform.arrays k, hb]; rfl : (d.axis k).isSome)
      rw [← hij k a b ha hb, ← hij' k a b ha hb]
      exact h k a ha ((hck k).mp hk)
    · intro h k a ha hk
      obtain ⟨b, hb⟩ := Option.isSome_iff_exists.mp (by rw [hform.arrays k, ha]; rfl : (r.axis k).isSome)
      rw [hij k a b ha hb, hij' k a b ha hb]
      exact h k b hb ((hck k).mpr hk)
  have hpos := hmass i hi
  have hmass : ∀ i', (∀ k a, d.axis k = some a → (k ∈ keys ∨ k ∈ d.cond.keys) → i'[a]? = i[a]?) →
      Spec.massGiven d keys i' = Spec.massGiven d keys i := by
    intro i' h
    unfold Spec.massGiven
    refine Finset.sum_congr ?_ fun _ _ => rfl
    ext i''
    simp only [Finset.mem_filter, and_congr_right_iff]
    intro _
    constructor
    · intro h' k a ha hk; rw [h' k a ha hk, h k a ha hk]
    · intro h' k a ha hk; rw [h' k a ha hk, h k a ha hk]
  have hsum : ∑ i' ∈ (idx d.shape).filter (fun i' => ∀ k a, d.axis k = some a →
      (k ∈ keys ∨ k ∈ d.cond.keys) → i'[a]? = i[a]?), d.at i' / Spec.massGiven d keys i = 1 := by
    rw [← Finset.sum_div]
    exact div_self hpos.ne'
  rw [← hsum]
  symm
  refine Finset.sum_bij (fun i' _ => f i') ?_ ?_ ?_ ?_
  · intro i' hi'
    rw [Finset.mem_filter] at hi' ⊢
    have hfi := hf i' hi'.1
    exact ⟨hfi.1, (hsame i' hi'.1 _ hfi.2).mp hi'.2⟩
  · intro i1 h1 i2 h2 he
    rw [Finset.mem_filter] at h1 h2
    have hf1 := hf i1 h1.1
    have hf2 := hf i2 h2.1
    rw [← he] at hf2
    exact (hform.unique' _ hf1.1).unique ⟨h1.1, hf1.2⟩ ⟨h2.1, hf2.2⟩
  · intro j' hj'
    rw [Finset.mem_filter] at hj'
    obtain ⟨i', ⟨h1, h2⟩, -⟩ := hform.unique' j' hj'.1
    exact ⟨i', Finset.mem_filter.mpr ⟨h1, (hsame i' h1 j' h2).mpr hj'.2⟩,
      (hf' i' h1 j' ⟨hj'.1, h2⟩).symm⟩
  · intro i' hi'
    rw [Finset.mem_filter] at hi'
    have hfi := hf i' hi'.1
    have he := hent i' hi'.1 (f i') hfi.1 hfi.2 (hw i' hi'.1)
    rw [hmass i' hi'.2] at he
    exact he.symm

/-- When no array variable remains marginal the probabilities are divided by
their total over everything, conditions included, if a scalar is conditioned,
and by nothing otherwise. -/
theorem C17_scalars_partial (h : d.WF fmt) (hpos : d.Pos) (hown : ∀ k, Spec.OwnAxis d k)
    (hkeys : ∀ k ∈ keys, k ∈ d.marg.keys) {r : PD} (hr : d.conditionalise fmt keys = .ok r)
    (hdiv : Spec.Divisible d keys) (hrem : ∀ k ∈ d.marg.keys, k ∉ keys → d.axis k = none) :
    ∀ i ∈ idx d.shape, ∀ j ∈ idx r.shape, Spec.Agree d r i j →
      Spec.Writable d.pscale (d.at i / Spec.scalarTotal d keys) →
      r.at j = d.at i / Spec.scalarTotal d keys := by
  obtain ⟨D, low, top, klow, plan, h1, h2⟩ := conditionalise_core (keys := keys) h hpos hown hkeys
  obtain ⟨r', e1, e2, e3, -, -, e5⟩ := h1 (h2 r hr)
  rw [hr] at e1
  obtain rfl : r = r' := by simpa using e1
  exact e5 hdiv hrem

theorem divisible_lin (hs : d.pscale = .lin 1) (c : ℝ) (hc : ∀ i ∈ idx d.shape, d.at i = c)
    (h1 : npz ≤ c) (h2 : npz * ((idx d.shape).card * c) ≤ c) : Spec.Divisible d keys := by
  classical
  have h0 : 0 ≤ c := le_trans npz_pos.le h1
  have hm : ∀ i ∈ idx d.shape, c ≤ Spec.massGiven d keys i := by
    intro i hi
    rw [← hc i hi]
    unfold Spec.massGiven
    refine Finset.single_le_sum (f := d.at) (s := (idx d.shape).filter _) ?_ ?_
    · intro i' hi'; rw [hc i' (Finset.mem_filter.mp hi').1]; exact h0
    · exact Finset.mem_filter.mpr ⟨hi, fun _ _ _ _ => rfl⟩
  have ht : Spec.mass d = (idx d.shape).card * c := by
    unfold Spec.mass
    rw [Finset.sum_congr rfl hc, Finset.sum_const, nsmul_eq_mul]
  refine ⟨readable_lin hs one_pos, fun i hi => by rw [hc i hi]; exact h0,
    fun i hi => le_trans h1 (hm i hi), ?_, ?_⟩
  · intro _ i hi
    rw [ht]; exact le_trans h2 (hm i hi)
  · intro _ re im he
    rw [hs] at he; simp at he

end

/-- p(x, y, z), three variables of two values. -/
noncomputable def cubePD : PD :=
  ⟨['x', ',', 'y', ',', 'z'], [(['x'], ['x']), (['y'], ['y']), (['z'], ['z'])], [],
   ⟨[(['x'], .arr [2, 1, 1] [1, 2]), (['y'], .arr [1, 2, 1] [1, 2]), (['z'], .arr [1, 1, 2] [1, 2])],
    [(['x'], some 0), (['y'], some 1), (['z'], some 2)],
    3, [2, 2, 2], [2, 2, 2], 8, [false, false, false], false⟩,
   ⟨[2, 2, 2], fun _ => 1 / 8⟩, .lin 1⟩

theorem lin1_stable : evalPscale (PScale.lin 1).spec = .ok (.lin 1) := by
  simp [PScale.spec, evalPscale]

theorem cubePD_wf : cubePD.WF (fun _ => []) := PD.wf_of_check (by decide) rfl lin1_stable

theorem cubePD_own : ∀ k, Spec.OwnAxis cubePD k := own_of_check cubePD_wf (by decide)

theorem cubePD_ordered : Spec.Ordered cubePD := ordered_of_check (by decide)

theorem cubePD_pos : cubePD.Pos := by
  show ∀ n ∈ [2, 2, 2], 0 < n
  decide

theorem npz_le_inv : npz ≤ 1 / 12 := by unfold npz; norm_num

theorem cubePD_divisible (keys : List Str) : Spec.Divisible cubePD keys := by
  have hc : (idx [2, 2, 2]).card = 8 := by decide
  refine divisible_lin rfl (1 / 8) (fun i _ => ?_) ?_ ?_
  · show Spec.value (.lin 1) (1 / 8) = _
    simp [Spec.value, Spec.factor]
  · linarith [npz_le_inv]
  · show npz * (((idx [2, 2, 2]).card : ℝ) * (1 / 8)) ≤ 1 / 8
    rw [hc]
    push_cast
    linarith [npz_le_inv]

/-- C17 as intended does not hold: p(x, y, z) cannot be conditioned on y, as its
axis lies between the others. -/
theorem C17_claim_fails : ¬ C17_claim := by
  intro hc
  obtain ⟨r, hr, -⟩ := hc (fun _ => []) cubePD [['y']] cubePD_wf cubePD_pos cubePD_own cubePD_ordered
    (by decide) (by decide) ⟨['x'], by decide, by decide⟩ (cubePD_divisible _)
  have hm := (C17_succeeds_iff_partial (fmt := fun _ => []) cubePD_wf cubePD_pos cubePD_own cubePD_ordered
    (by intro k a k' a' _ h; simp [cubePD] at h) (by decide) (by decide)).mp ⟨r, hr⟩
  rcases hm with hm | ⟨-, hm | ⟨hm, -⟩⟩
  · have := hm ['y'] (by decide)
    simp [PD.axis, cubePD, Dict.get?] at this
  · have := hm ['z'] 2 ['y'] 1 (by decide) (by decide) (by decide) rfl rfl
    omega
  · have := hm ['x'] 0 ['y'] 1 (by decide) (by decide) (by decide) rfl rfl
    omega

/-- Non-vacuity of `C17_last_partial`: p(x, y, z) conditioned on y and z. -/
example : ∃ r, cubePD.conditionalise (fun _ => []) [['z'], ['y']] = .ok r ∧ r.WF (fun _ => []) ∧
    Spec.CondForm cubePD [['z'], ['y']] r ∧ Spec.CondEntries cubePD [['z'], ['y']] r := by
  refine C17_last_partial cubePD_wf cubePD_pos cubePD_own cubePD_ordered
    (by intro k a k' a' _ h; simp [cubePD] at h) (by decide) (by decide) ?_ ⟨['x'], by decide, by decide, by decide⟩
    (cubePD_divisible _)
  intro k a k' a' h1 h2 h3 h4 h5
  obtain rfl : k = ['x'] := by
    simp only [cubePD, Dict.keys, List.map_cons, List.map_nil, List.mem_cons, List.not_mem_nil, or_false] at h1 h2
    tauto
  simp only [List.mem_cons, List.not_mem_nil, or_false] at h3
  obtain rfl : 0 = a := by simpa [PD.axis, cubePD, Dict.get?] using h4
  rcases h3 with rfl | rfl
  · obtain rfl : 2 = a' := by simpa [PD.axis, cubePD, Dict.get?] using h5
    omega
  · obtain rfl : 1 = a' := by simpa [PD.axis, cubePD, Dict.get?] using h5
    omega

/-- Non-vacuity of `C17_first_partial` and `C17_normalised_partial`: p(x, y, z)
conditioned on x. -/
example : ∃ r, cubePD.conditionalise (fun _ => []) [['x']] = .ok r ∧ r.WF (fun _ => []) ∧
    Spec.CondForm cubePD [['x']] r ∧ Spec.CondEntries cubePD [['x']] r := by
  refine C17_first_partial cubePD_wf cubePD_pos cubePD_own cubePD_ordered
    (by decide) (by decide) rfl ?_ ⟨['z'], by decide, by decide, by decide⟩
    (cubePD_divisible _)
  intro k a k' a' h1 h2 h3 h4 h5
  simp only [List.mem_cons, List.not_mem_nil, or_false] at h3
  subst h3
  obtain rfl : 0 = a' := by simpa [PD.axis, cubePD, Dict.get?] using h5
  rcases Nat.eq_zero_or_pos a with rfl | ha
  · exact absurd (cubePD_own ['x'] k 0 rfl h4) (by simpa using h2)
  · exact ha

/-- p(x=1, y=1 | z). -/
noncomputable def pointPD : PD :=
  ⟨['x', '=', '1', ',', 'y', '=', '1', '|', 'z'], [(['x'], ['x', '=', '1']), (['y'], ['y', '=', '1'])],
   [(['z'], ['z'])],
   ⟨[(['x'], .scalar 1), (['y'], .scalar 1), (['z'], .arr [2] [1, 2])],
    [(['x'], none), (['y'], none), (['z'], some 0)],
    1, [2], [2], 2, [true, true, false], false⟩,
   ⟨[2], fun _ => 1 / 4⟩, .lin 1⟩

/-- C17 fails for scalars even when conditioning succeeds: from p(x=1, y=1 | z),
which is 1/4 for both values of z, the only value y=1 given x=1 and z gets
probability 1/2. -/
theorem C17_point_fails :
    pointPD.WF (fun _ => ['1']) ∧ Spec.Divisible pointPD [['x']] ∧
    ∃ r, pointPD.conditionalise (fun _ => ['1']) [['x']] = .ok r ∧ Spec.CondForm pointPD [['x']] r ∧
      ¬ Spec.CondEntries pointPD [['x']] r := by
  classical
  have hwf : pointPD.WF (fun _ => ['1']) := PD.wf_of_check (by decide) rfl lin1_stable
  have hown := own_of_check hwf (by decide)
  have hpos : pointPD.Pos := by
    show ∀ n ∈ [2], 0 < n
    decide
  have hat : ∀ i, pointPD.at i = 1 / 4 := by
    intro i
    show Spec.value (.lin 1) (1 / 4) = _
    simp [Spec.value, Spec.factor]
  have hcard : (idx pointPD.shape).card = 2 := by
    show (idx [2]).card = 2
    decide
  have hdiv : Spec.Divisible pointPD [['x']] := by
    refine divisible_lin rfl (1 / 4) (fun i _ => hat i) ?_ ?_
    · linarith [npz_le_inv]
    · rw [hcard]; push_cast; linarith [npz_le_inv]
  have hkeys : ∀ k ∈ [['x']], k ∈ pointPD.marg.keys := by decide
  refine ⟨hwf, hdiv, ?_⟩
  obtain ⟨r, hr⟩ := (C17_succeeds_iff_partial (fmt := fun _ => ['1']) hwf hpos hown
    (ordered_of_check (by decide)) (by
      intro k a k' a' hk _ ha _
      simp only [pointPD, Dict.keys, List.map_cons, List.map_nil, List.mem_cons, List.not_mem_nil, or_false] at hk
      rcases hk with rfl | rfl <;> simp [PD.axis, pointPD, Dict.get?] at ha) (by decide) hkeys).mpr
    (Or.inl (by
      intro k hk
      simp only [List.mem_cons, List.not_mem_nil, or_false] at hk
      subst hk; rfl))
  obtain ⟨e1, e2, -⟩ := C17_correct_partial hwf hpos hown hkeys hr
  have hval := C17_scalars_partial hwf hpos hown hkeys hr hdiv (by
    intro k hk _
    simp only [pointPD, Dict.keys, List.map_cons, List.map_nil, List.mem_cons, List.not_mem_nil, or_false] at hk
    rcases hk with rfl | rfl <;> rfl)
  refine ⟨r, hr, e2, ?_⟩
  intro hent
  have hi : [0] ∈ idx pointPD.shape := by
    show [0] ∈ idx [2]
    decide
  obtain ⟨j, ⟨hj, hij⟩, -⟩ := e2.unique [0] hi
  have h1 := hval [0] hi j hj hij (writable_lin _)
  have h2 := hent [0] hi j hj hij (writable_lin _)
  rw [h1] at h2
  have ht : Spec.scalarTotal pointPD [['x']] = 1 / 2 := by
    unfold Spec.scalarTotal
    rw [if_pos ⟨['x'], by simp, rfl⟩]
    unfold Spec.mass
    rw [Finset.sum_congr rfl fun i _ => hat i, Finset.sum_const, hcard]
    norm_num
  have hm : Spec.massGiven pointPD [['x']] [0] = 1 / 4 := by
    unfold Spec.massGiven
    rw [Finset.sum_eq_single_of_mem [0]]
    · exact hat _
    · exact Finset.mem_filter.mpr ⟨hi, fun _ _ _ _ => rfl⟩
    · intro i hi' hne
      exfalso
      apply hne
      rw [Finset.mem_filter] at hi'
      have hz := hi'.2 ['z'] 0 rfl (Or.inr (by decide))
      have hl : i.length = 1 := length_of_mem_idx hi'.1
      match i, hl with
      | [x], _ => simpa using hz
  rw [hat, ht, hm] at h2
  norm_num at h2

end Probayes
