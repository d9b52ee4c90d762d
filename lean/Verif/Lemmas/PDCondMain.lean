/-
`conditionalise` put together: the axes, the values and the name of the result.
-/
import Verif.Lemmas.PDCond
import Verif.Lemmas.PDCondProb
import Verif.Lemmas.PDOps

namespace Probayes

variable {fmt : Val → Str} {d : PD} {keys : List Str}

/-- The axes given to the variables by `conditionalise`. -/
structure CondPlan (d : PD) (keys : List Str) (D : Dict Str (Option ℕ)) (low : ℤ) (top klow : ℕ) :
    Prop where
  nodup : (Dict.keys D).Nodup
  mem : ∀ k, k ∈ Dict.keys D ↔ k ∈ d.keylist
  scalar : ∀ k ∈ d.keylist, d.axis k = none → Dict.get? D k = some none
  key : ∀ k a, d.axis k = some a → k ∈ keys → klow ≤ a ∧
    Dict.get? D k = some (some (a - klow + top + 1))
  rest : ∀ k a, d.axis k = some a → k ∉ keys → ∃ b : ℕ, Dict.get? D k = some (some b) ∧
    (b : ℤ) = remainAxis d keys d.vals 0 k a - low ∧ b ≤ top
  lowest : (∃ k a, d.axis k = some a ∧ k ∉ keys) → ∃ k a, d.axis k = some a ∧ k ∉ keys ∧
    remainAxis d keys d.vals 0 k a = low
  highest : top = 0 ∨ ∃ k a, d.axis k = some a ∧ k ∉ keys ∧
    remainAxis d keys d.vals 0 k a = low + top
  klowest : (∃ k ∈ keys, ∃ a, d.axis k = some a) → ∃ k ∈ keys, d.axis k = some klow

theorem CondPlan.array {D : Dict Str (Option ℕ)} {low : ℤ} {top klow : ℕ}
    (p : CondPlan d keys D low top klow) {k : Str} {a : ℕ} (ha : d.axis k = some a) :
    ∃ b, Dict.get? D k = some (some b) := by
  by_cases hk : k ∈ keys
  · exact ⟨_, (p.key k a ha hk).2⟩
  · obtain ⟨b, hb, _⟩ := p.rest k a ha hk
    exact ⟨b, hb⟩

theorem axis_isSome_iff (h : d.WF fmt) : ∀ kv ∈ d.vals, (d.axis kv.1).isSome = !kv.2.issingleton := by
  rintro ⟨k, v⟩ hkv
  have hg := Dict.get?_of_mem h.nodup hkv
  rcases hs : v.issingleton with _ | _
  · obtain ⟨a, ha⟩ := h.axis_isSome hg hs
    simp [ha]
  · simp [h.axis_none hg hs]

theorem mem_dims (h : d.WF fmt) {k : Str} (hk : k ∈ d.keylist) : k ∈ Dict.keys d.dims := by
  obtain ⟨v, hv⟩ := Dict.get?_of_mem_keys hk
  rcases hs : v.issingleton with _ | _
  · obtain ⟨a, s, data, _, _, h2, _⟩ := h.array k v hv hs
    exact Dict.mem_keys_of_get? h2
  · exact Dict.mem_keys_of_get? (h.single k v hv hs).1

/-- The loops up to the new axes. -/
theorem condPlan_ok (h : d.WF fmt) (hkeys : ∀ k ∈ keys, k ∈ d.marg.keys) :
    ∃ st D0 low top klow,
      d.vals.foldlM (condStep d keys) ⟨d.marg, d.cond, [], false, 0⟩ = .ok st ∧
      st.marg = d.marg.filter (fun kv => kv.1 ∉ keys) ∧
      st.cond = d.cond ++ condNew d.marg keys d.vals ∧
      st.normalise = (d.vals.any fun kv => kv.2.issingleton && decide (kv.1 ∈ keys)) ∧
      condRaise d keys (condLower st.dims).1 (condLower st.dims).2 = .ok D0 ∧
      CondPlan d keys (D0.map fun kv => (kv.1, kv.2.map Int.toNat)) low top klow := by
  have harr := axis_isSome_iff h
  have hsub : ∀ k ∈ keys, k ∈ d.keylist := fun k hk => (h.keys k).mpr (Or.inl (hkeys k hk))
  obtain ⟨st, g1, g2, g3, g4, g5⟩ := condLoop_ok d keys d.vals ⟨d.marg, d.cond, [], false, 0⟩ h.nodup
    h.margSide.1 (by simp) (fun k _ hk => ⟨hkeys k hk, hkeys k hk, h.disj k (hkeys k hk)⟩)
    (by
      rintro ⟨k, v⟩ hkv hs
      exact h.axis_isSome (Dict.get?_of_mem h.nodup hkv) hs)
  simp only [List.nil_append, Bool.false_or] at g3 g4 g5
  have g2' : st.marg = d.marg.filter (fun kv => kv.1 ∉ keys) := by
    rw [g2]
    apply List.filter_congr
    rintro ⟨k, t⟩ hkt
    have : k ∈ Dict.keys d.vals := (h.keys k).mpr (Or.inl (List.mem_map.mpr ⟨_, hkt, rfl⟩))
    simp [this]
  -- the dimensions of the remaining variables
  have hdn : (Dict.keys st.dims).Nodup := by
    rw [g4]; exact h.nodup.sublist (keys_condDims d keys d.vals 0)
  have hget : ∀ k, Dict.get? st.dims k = match Dict.get? d.vals k with
        | some v => if v.issingleton then some none else if k ∈ keys then none
            else some ((d.axis k).map (remainAxis d keys d.vals 0 k))
        | none => none := by
    intro k; rw [g4]; exact get?_condDims d keys k d.vals 0 h.nodup harr
  have hrest : ∀ k a, d.axis k = some a → k ∉ keys →
      Dict.get? st.dims k = some (some (remainAxis d keys d.vals 0 k a)) := by
    intro k a ha hk
    obtain ⟨s, data, hv, hs, _⟩ := h.axis_some ha
    have hs' : (Val.arr s data).issingleton = false := by simpa [Val.issingleton] using hs
    rw [hget, hv]
    simp [hs', hk, ha]
  have hrest' : ∀ k z, Dict.get? st.dims k = some (some z) → ∃ a, d.axis k = some a ∧ k ∉ keys ∧
      remainAxis d keys d.vals 0 k a = z := by
    intro k z hz
    rw [hget] at hz
    rcases hv : Dict.get? d.vals k with _ | v
    · rw [hv] at hz; simp at hz
    · rw [hv] at hz
      simp only at hz
      split at hz
      · simp at hz
      · split at hz
        · simp at hz
        · rename_i hs hk
          obtain ⟨a, ha⟩ := h.axis_isSome hv (by simpa using hs)
          rw [ha] at hz
          simp only [Option.map_some, Option.some.injEq] at hz
          exact ⟨a, ha, hk, hz⟩
  obtain ⟨low, top, l1, l2, l3, l4, l5, l6⟩ := condLower_spec st.dims hdn
  -- raised keys
  have hdk : ∀ k ∈ keys, k ∈ Dict.keys d.dims := fun k hk => mem_dims h (hsub k hk)
  obtain ⟨klow, m1, m2, m3, m4⟩ := condMin_ok d keys hdk d.ndim
  obtain ⟨D0, r1, r2, r3, r4⟩ := condSet_ok d (fun a => (a : ℤ) - klow + (condLower st.dims).2 + 1) keys hdk
    (condLower st.dims).1 (by rw [l2]; exact hdn)
  have hraise : condRaise d keys (condLower st.dims).1 (condLower st.dims).2 = .ok D0 := by
    unfold condRaise
    rw [m1]
    exact r1
  have hD : ∀ k, Dict.get? (D0.map fun kv => (kv.1, kv.2.map Int.toNat)) k =
      (Dict.get? D0 k).map (Option.map Int.toNat) := by
    intro k
    exact Dict.get?_map (fun _ o => Option.map Int.toNat o) D0 k
  have hDk : Dict.keys (D0.map fun kv => (kv.1, kv.2.map Int.toNat)) = Dict.keys D0 := by
    simp [Dict.keys]
  refine ⟨st, D0, low, top, klow, g1, g2', g3, g5, hraise, ?_⟩
  constructor
  · rw [hDk]; exact r2
  · intro k
    rw [hDk, r3, l2, mem_arrayKeys]
    constructor
    · rintro (hk | ⟨hk, _⟩)
      · rw [g4] at hk
        exact (keys_condDims d keys d.vals 0).subset hk
      · exact hsub k hk
    · intro hk
      by_cases hkk : k ∈ keys ∧ (d.axis k).isSome = true
      · exact Or.inr hkk
      · left
        obtain ⟨v, hv⟩ := Dict.get?_of_mem_keys hk
        have := hget k
        rw [hv] at this
        simp only at this
        rcases hs : v.issingleton with _ | _
        · obtain ⟨a, ha⟩ := h.axis_isSome hv hs
          have hk' : k ∉ keys := fun hc => hkk ⟨hc, by simp [ha]⟩
          exact Dict.mem_keys_of_get? (hrest k a ha hk')
        · rw [hs] at this
          exact Dict.mem_keys_of_get? this
  · intro k hk ha
    obtain ⟨v, hv⟩ := Dict.get?_of_mem_keys hk
    have hs : v.issingleton = true := (h.axis_single hv).mpr ha
    have := hget k
    rw [hv] at this
    simp only [hs, if_true] at this
    rw [hD, r4, l3, this]
    simp [ha]
  · intro k a ha hk
    have hle := m3 k hk a ha
    refine ⟨hle, ?_⟩
    rw [hD, r4, if_pos ⟨hk, by simp [ha]⟩, ha, l1]
    simp only [Option.map_some]
    congr 2
    omega
  · intro k a ha hk
    have hr := hrest k a ha hk
    obtain ⟨q1, q2⟩ := l4 k _ hr
    refine ⟨(remainAxis d keys d.vals 0 k a - low).toNat, ?_, by omega, by omega⟩
    rw [hD, r4, if_neg (fun hc => hk hc.1), l3, hr]
    rfl
  · rintro ⟨k, a, ha, hk⟩
    obtain ⟨k', hk'⟩ := l5 ⟨k, _, hrest k a ha hk⟩
    obtain ⟨a', q1, q2, q3⟩ := hrest' k' _ hk'
    exact ⟨k', a', q1, q2, q3⟩
  · rcases l6 with h6 | ⟨k, hk⟩
    · exact Or.inl h6
    · obtain ⟨a', q1, q2, q3⟩ := hrest' k _ hk
      exact Or.inr ⟨k, a', q1, q2, q3⟩
  · rintro ⟨k, hk, a, ha⟩
    rcases m4 with h4 | h4
    · have h1 := m3 k hk a ha
      have h2 := h.axis_lt ha
      omega
    · exact h4

/-! ### axes to be moved -/

/-- Old and new axis of every array variable. -/
def movePairs (d : PD) (D : Dict Str (Option ℕ)) (l : List Str) : Dict ℕ ℕ :=
  l.filterMap fun k => (d.axis k).bind fun a => (Dict.get? D k).join.map fun b => (a, b)

/-- New axes of the remaining marginal arrays. -/
def condSum (d : PD) (keys : List Str) (D : Dict Str (Option ℕ)) (l : List Str) : List ℕ :=
  l.filterMap fun k => if k ∉ keys ∧ k ∈ d.marg.keys then (d.axis k).bind fun _ => (Dict.get? D k).join
    else none

theorem condAxes_ok (D : Dict Str (Option ℕ)) (l : List Str) :
    ∀ st : CondAxes, l.Nodup → (∀ k ∈ l, k ∈ Dict.keys d.dims) →
      (∀ k ∈ l, ∀ a, d.axis k = some a → (∃ b, Dict.get? D k = some (some b)) ∧ a ∉ st.old) →
      (∀ k, Spec.OwnAxis d k) →
      l.foldlM (condAxesStep d keys D) st = .ok ⟨st.old ++ Dict.keys (movePairs d D l),
        st.new ++ Dict.vals (movePairs d D l), st.sum ++ condSum d keys D l⟩ := by
  induction l with
  | nil => intro st _ _ _ _; simp [movePairs, condSum, Dict.vals, pure, Except.pure]
  | cons k l ih =>
    intro st hn hd hb hown
    rw [List.nodup_cons] at hn
    obtain ⟨o, ho⟩ := Dict.get?_of_mem_keys (hd k (by simp))
    have hax : d.axis k = o := by simp [PD.axis, ho]
    rw [List.foldlM_cons]
    rcases o with _ | a
    · have hstep : condAxesStep d keys D st k = .ok st := by
        simp [condAxesStep, dimOf, ho, bind, Except.bind, pure, Except.pure]
      rw [hstep]
      simp only [bind, Except.bind]
      rw [ih st hn.2 (fun k' h' => hd k' (by simp [h'])) (fun k' h' => hb k' (by simp [h'])) hown]
      simp [movePairs, condSum, hax]
    · obtain ⟨⟨b, hb1⟩, hb2⟩ := hb k (by simp) a hax
      set st' : CondAxes := ⟨st.old ++ [a], st.new ++ [b],
          if k ∉ keys ∧ k ∈ d.marg.keys then st.sum ++ [b] else st.sum⟩ with hst'
      have hstep : condAxesStep d keys D st k = .ok st' := by
        simp only [condAxesStep, dimOf, ho, bind, Except.bind, pure, Except.pure, hb2, if_false, hb1]
        rfl
      rw [hstep]
      simp only [bind, Except.bind]
      rw [ih st' hn.2 (fun k' h' => hd k' (by simp [h'])) ?_ hown]
      · have hp : movePairs d D (k :: l) = (a, b) :: movePairs d D l := by simp [movePairs, hax, hb1]
        have hs : st'.sum ++ condSum d keys D l = st.sum ++ condSum d keys D (k :: l) := by
          by_cases hc : k ∉ keys ∧ k ∈ d.marg.keys
          · have e1 : st'.sum = st.sum ++ [b] := if_pos hc
            have e2 : condSum d keys D (k :: l) = b :: condSum d keys D l := by
              simp only [condSum, List.filterMap_cons, if_pos hc, hax, hb1, Option.bind_some,
                Option.join_some]
            rw [e1, e2]; simp
          · have e1 : st'.sum = st.sum := if_neg hc
            have e2 : condSum d keys D (k :: l) = condSum d keys D l := by
              simp only [condSum, List.filterMap_cons, if_neg hc]
            rw [e1, e2]
        rw [hs, hp]
        simp [hst', Dict.vals]
      · intro k' h' a' ha'
        obtain ⟨q1, q2⟩ := hb k' (by simp [h']) a' ha'
        refine ⟨q1, ?_⟩
        simp only [hst', List.mem_append, List.mem_singleton, not_or]
        refine ⟨q2, ?_⟩
        rintro rfl
        have := hown k k' a' hax ha'
        exact hn.1 (this ▸ h')

theorem mem_movePairs {D : Dict Str (Option ℕ)} {l : List Str} {a b : ℕ} :
    (a, b) ∈ movePairs d D l ↔ ∃ k ∈ l, d.axis k = some a ∧ Dict.get? D k = some (some b) := by
  simp only [movePairs, List.mem_filterMap]
  constructor
  · rintro ⟨k, hk, h1⟩
    rcases ha : d.axis k with _ | a'
    · rw [ha] at h1; simp at h1
    · rw [ha] at h1
      simp only [Option.bind_some, Option.map_eq_some_iff, Prod.mk.injEq] at h1
      obtain ⟨b', hb, rfl, rfl⟩ := h1
      exact ⟨k, hk, ha, join_eq_some.mp hb⟩
  · rintro ⟨k, hk, ha, hb⟩
    exact ⟨k, hk, by simp [ha, hb]⟩

theorem nodup_movePairs_keys {D : Dict Str (Option ℕ)} (hown : ∀ k, Spec.OwnAxis d k) {l : List Str}
    (hl : l.Nodup) : (Dict.keys (movePairs d D l)).Nodup := by
  induction l with
  | nil => simp [movePairs]
  | cons k l ih =>
    rw [List.nodup_cons] at hl
    rcases ha : d.axis k with _ | a
    · have : movePairs d D (k :: l) = movePairs d D l := by simp [movePairs, ha]
      rw [this]; exact ih hl.2
    · rcases hb : (Dict.get? D k).join with _ | b
      · have : movePairs d D (k :: l) = movePairs d D l := by simp [movePairs, ha, hb]
        rw [this]; exact ih hl.2
      · have : movePairs d D (k :: l) = (a, b) :: movePairs d D l := by simp [movePairs, ha, hb]
        rw [this, Dict.keys_cons, List.nodup_cons]
        refine ⟨?_, ih hl.2⟩
        intro hc
        obtain ⟨⟨a', b'⟩, h1, h2⟩ := List.mem_map.mp hc
        simp only at h2; subst h2
        obtain ⟨k', hk', ha', _⟩ := mem_movePairs.mp h1
        exact hl.1 (hown k k' a' ha ha' ▸ hk')

/-! ### the constructor -/

/-- Placing values on their axes twice. -/
theorem BuildArgs.again {marg cond : Dict Str Str} {vals : Dict Str Val} {dims : Dict Str (Option ℕ)}
    {S : List ℕ} (h : BuildArgs fmt marg cond vals dims S) (hpos : ∀ n ∈ S, 0 < n) :
    BuildArgs fmt marg cond (vals.map fun kv => (kv.1, placeVal dims S.length kv.1 kv.2)) dims S := by
  have hk : Dict.keys (vals.map fun kv => (kv.1, placeVal dims S.length kv.1 kv.2)) = Dict.keys vals := by
    simp [Dict.keys]
  have hget : ∀ k, Dict.get? (vals.map fun kv => (kv.1, placeVal dims S.length kv.1 kv.2)) k =
      (Dict.get? vals k).map (placeVal dims S.length k) := fun k => Dict.get?_map _ _ _
  have hsing : ∀ k v, (placeVal dims S.length k v).issingleton = v.issingleton := by
    intro k v
    apply issingleton_placeVal
    intro a ha; rw [← h.maxDim]; exact lt_maxDim ha
  refine ⟨by simpa using h.ne, ?_, ?_, h.margSide, h.condSide, h.disj, ?_, h.dimNodup, ?_, ?_, ?_, h.cover⟩
  · show (Dict.keys _).Nodup; rw [hk]; exact h.nodup
  · show ∀ k ∈ Dict.keys _, _; rw [hk]; exact h.allowed
  · intro k; show k ∈ Dict.keys _ ↔ _; rw [hk]; exact h.keys k
  · intro k hkk; show k ∈ Dict.keys _; rw [hk]; exact h.dimKeys k hkk
  · intro k v hv hs
    rw [hget, Option.map_eq_some_iff] at hv
    obtain ⟨u, hu, rfl⟩ := hv
    rw [hsing] at hs
    have : placeVal dims S.length k u = u := by simp [placeVal, hs]
    rw [this]
    exact h.single k u hu hs
  · intro k v hv hs
    rw [hget, Option.map_eq_some_iff] at hv
    obtain ⟨u, hu, rfl⟩ := hv
    rw [hsing] at hs
    obtain ⟨s, data, a, e1, e2, e3, e4⟩ := h.array k u hu hs
    refine ⟨axisShape S.length a data.length, data, a, ?_, ?_, e3, e4⟩
    · subst e1
      simp [placeVal, hs, e3]
    · have ha : a < S.length := by
        by_contra hc
        rw [List.getElem?_eq_none (by omega)] at e4; simp at e4
      exact (foldl_max_axisShape _ _ _ ha (hpos _ (List.mem_of_getElem? e4))).symm

/-- The values in the order of the new axes. -/
def redimVals (d : PD) (D : Dict Str (Option ℕ)) : Dict Str Val :=
  (Dict.keys D).map fun k => (k, (Dict.get? d.vals k).getD .other)

theorem keys_redimVals (D : Dict Str (Option ℕ)) : Dict.keys (redimVals d D) = Dict.keys D := by
  show List.map Prod.fst (List.map _ (Dict.keys D)) = _
  rw [List.map_map]
  exact List.map_id _

theorem get?_redimVals {D : Dict Str (Option ℕ)} (hn : (Dict.keys D).Nodup) 
    (hm : ∀ k, k ∈ Dict.keys D ↔ k ∈ d.keylist) (k : Str) :
    Dict.get? (redimVals d D) k = Dict.get? d.vals k := by
  by_cases hk : k ∈ Dict.keys D
  · obtain ⟨v, hv⟩ := Dict.get?_of_mem_keys ((hm k).mp hk)
    rw [hv]
    apply Dict.get?_of_mem (by rw [keys_redimVals]; exact hn)
    exact List.mem_map.mpr ⟨k, hk, by simp [hv]⟩
  · rw [Dict.get?_eq_none.mpr (by rw [keys_redimVals]; exact hk),
      Dict.get?_eq_none.mpr (fun hc => hk ((hm k).mpr hc))]

theorem CondPlan.vals_ok {D : Dict Str (Option ℕ)} {low : ℤ} {top klow : ℕ}
    (p : CondPlan d keys D low top klow) :
    d.distRedim D = distDims (redimVals d D) (some D) := by
  have h1 : d.keylist.all (redimOK d D) = true := by
    rw [List.all_eq_true]
    intro k hk
    rcases ha : (Dict.get? d.dims k).join with _ | a
    · simp [redimOK, ha, p.scalar k hk ha]
    · obtain ⟨b, hb⟩ := p.array (show d.axis k = some a from ha)
      simp [redimOK, ha, hb]
  have h2 : (Dict.keys D).mapM (itemOf d) = .ok (redimVals d D) := by
    apply mapM_ok (g := fun k => (k, (Dict.get? d.vals k).getD .other))
    intro k hk
    obtain ⟨v, hv⟩ := Dict.get?_of_mem_keys ((p.mem k).mp hk)
    simp [itemOf, hv]
  unfold PD.distRedim
  rw [if_pos h1, h2]
  rfl

end Probayes
