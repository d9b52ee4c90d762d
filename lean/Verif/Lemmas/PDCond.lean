/-
Lemmas on the loops of `conditionalise`.
-/
import Verif.Model.PDCond
import Verif.Props.PDMarg

namespace Probayes

/-- Axes collected for the remaining variables. -/
def condDims (d : PD) (keys : List Str) : Dict Str Val → ℕ → Dict Str (Option ℤ)
  | [], _ => []
  | (k, v) :: l, δ =>
      if v.issingleton then (k, none) :: condDims d keys l δ
      else if k ∈ keys then condDims d keys l (δ + 1)
      else if k ∈ d.marg.keys then (k, (d.axis k).map Int.ofNat) :: condDims d keys l δ
      else (k, (d.axis k).map fun a => (a : ℤ) - δ) :: condDims d keys l δ

/-- The entries moved to the conditional side. -/
def condNew (marg : Dict Str Str) (keys : List Str) (l : Dict Str Val) : Dict Str Str :=
  l.filterMap fun kv => if kv.1 ∈ keys then (Dict.get? marg kv.1).map fun t => (kv.1, t) else none

theorem condNew_congr {m m' : Dict Str Str} {keys : List Str} {l : Dict Str Val}
    (h : ∀ k ∈ Dict.keys l, Dict.get? m k = Dict.get? m' k) : condNew m keys l = condNew m' keys l := by
  unfold condNew
  apply List.filterMap_congr
  intro kv hkv
  rw [h kv.1 (List.mem_map.mpr ⟨kv, hkv, rfl⟩)]

theorem condMove_ok (keys : List Str) (st : CondState) (k : Str) (hm : (Dict.keys st.marg).Nodup)
    (hmk : k ∈ keys → k ∈ Dict.keys st.marg) (hck : k ∈ keys → k ∉ Dict.keys st.cond) :
    condMove keys st k = .ok { st with
      marg := st.marg.filter (fun kv => !(decide (kv.1 ∈ keys) && decide (kv.1 = k)))
      cond := st.cond ++ (if k ∈ keys then ((Dict.get? st.marg k).map fun t => (k, t)).toList else []) } := by
  unfold condMove
  by_cases hk : k ∈ keys
  · obtain ⟨t, ht⟩ := Dict.get?_of_mem_keys (hmk hk)
    simp only [hk, if_true, ht, Option.map_some, Option.toList_some]
    rw [Dict.erase_eq_filter _ _ hm, Dict.set_of_notMem (hck hk)]
    congr 2
    apply List.filter_congr
    rintro ⟨k', t'⟩ _
    by_cases h : k' = k
    · subst h; simp [hk]
    · simp [h]
  · have : st.marg.filter (fun kv => !(decide (kv.1 ∈ keys) && decide (kv.1 = k))) = st.marg := by
      rw [List.filter_eq_self]
      rintro ⟨k', t'⟩ _
      by_cases h : k' = k
      · subst h; simp [hk]
      · simp [h]
    simp only [hk, if_false, List.append_nil, this]

theorem condLoop_ok (d : PD) (keys : List Str) (l : Dict Str Val) :
    ∀ st : CondState, (Dict.keys l).Nodup → (Dict.keys st.marg).Nodup →
      (∀ k ∈ Dict.keys l, k ∉ Dict.keys st.dims) →
      (∀ k ∈ Dict.keys l, k ∈ keys → k ∈ Dict.keys st.marg ∧ k ∈ Dict.keys d.marg ∧
        k ∉ Dict.keys st.cond) →
      (∀ kv ∈ l, kv.2.issingleton = false → ∃ a, d.axis kv.1 = some a) →
      ∃ st', l.foldlM (condStep d keys) st = .ok st' ∧
        st'.marg = st.marg.filter (fun kv => !(decide (kv.1 ∈ keys) && decide (kv.1 ∈ Dict.keys l))) ∧
        st'.cond = st.cond ++ condNew st.marg keys l ∧
        st'.dims = st.dims ++ condDims d keys l st.delta ∧
        st'.normalise = (st.normalise ||
          l.any fun kv => kv.2.issingleton && decide (kv.1 ∈ keys)) := by
  induction l with
  | nil =>
    intro st _ _ _ _ _
    refine ⟨st, rfl, by simp, by simp [condNew], by simp [condDims], by simp⟩
  | cons kv l ih =>
    obtain ⟨k, v⟩ := kv
    intro st hn hm hd hk harr
    simp only [Dict.keys_cons, List.nodup_cons] at hn
    have hmove := condMove_ok keys st k hm (fun h => (hk k (by simp) h).1)
      (fun h => (hk k (by simp) h).2.2)
    set M := st.marg.filter (fun kv => !(decide (kv.1 ∈ keys) && decide (kv.1 = k))) with hM
    set C := st.cond ++ (if k ∈ keys then ((Dict.get? st.marg k).map fun t => (k, t)).toList else []) with hC
    have hMk : Dict.keys M = (Dict.keys st.marg).filter (fun x => !(decide (x ∈ keys) && decide (x = k))) := by
      rw [hM]
      exact Dict.keys_filter (fun x => !(decide (x ∈ keys) && decide (x = k))) st.marg
    have hMn : (Dict.keys M).Nodup := by rw [hMk]; exact hm.filter _
    have hMg : ∀ k' ∈ Dict.keys l, Dict.get? M k' = Dict.get? st.marg k' := by
      intro k' hk'
      rw [hM, Dict.get?_filter (fun x => !(decide (x ∈ keys) && decide (x = k))) st.marg k']
      have : k' ≠ k := by rintro rfl; exact hn.1 hk'
      simp [this]
    have hnext : ∀ k' ∈ Dict.keys l, k' ∈ keys →
        k' ∈ Dict.keys M ∧ k' ∈ Dict.keys d.marg ∧ k' ∉ Dict.keys C := by
      intro k' h1 h2
      obtain ⟨e1, e2, e3⟩ := hk k' (by simp [h1]) h2
      have hne : k' ≠ k := by rintro rfl; exact hn.1 h1
      refine ⟨by rw [hMk, List.mem_filter]; exact ⟨e1, by simp [hne]⟩, e2, ?_⟩
      rw [hC, Dict.keys_append, List.mem_append, not_or]
      refine ⟨e3, ?_⟩
      split
      · rcases Dict.get? st.marg k with _ | t
        · simp
        · simpa using hne
      · simp
    -- the state after this step
    have hfin : ∀ (D : Dict Str (Option ℤ)) (nb : Bool) (δ : ℕ),
        (condStep d keys st (k, v) = .ok ⟨M, C, D, nb, δ⟩) →
        (∀ k' ∈ Dict.keys l, k' ∉ Dict.keys D) →
        (D ++ condDims d keys l δ = st.dims ++ condDims d keys ((k, v) :: l) st.delta) →
        (nb = (st.normalise || (v.issingleton && decide (k ∈ keys)))) →
        ∃ st', ((k, v) :: l).foldlM (condStep d keys) st = .ok st' ∧
          st'.marg = st.marg.filter (fun kv => !(decide (kv.1 ∈ keys) &&
            decide (kv.1 ∈ Dict.keys ((k, v) :: l)))) ∧
          st'.cond = st.cond ++ condNew st.marg keys ((k, v) :: l) ∧
          st'.dims = st.dims ++ condDims d keys ((k, v) :: l) st.delta ∧
          st'.normalise = (st.normalise ||
            ((k, v) :: l).any fun kv => kv.2.issingleton && decide (kv.1 ∈ keys)) := by
      intro D nb δ hstep hD hdims hnb
      obtain ⟨st', g1, g2, g3, g4, g5⟩ := ih ⟨M, C, D, nb, δ⟩ hn.2 hMn hD hnext
        (fun kv hkv => harr kv (by simp [hkv]))
      refine ⟨st', by rw [List.foldlM_cons, hstep]; exact g1, ?_, ?_, ?_, ?_⟩
      · rw [g2]
        show M.filter _ = _
        rw [hM, List.filter_filter]
        apply List.filter_congr
        rintro ⟨k', t⟩ _
        by_cases hkk : k' = k
        · subst hkk
          by_cases hc : k' ∈ keys <;> simp [hc]
        · simp [hkk]
      · rw [g3]
        show C ++ condNew M keys l = _
        rw [condNew_congr hMg, hC, List.append_assoc]
        congr 1
        by_cases hkk : k ∈ keys
        · rcases hg : Dict.get? st.marg k with _ | t
          · simp [condNew, hkk, hg]
          · simp [condNew, hkk, hg]
        · simp [condNew, hkk]
      · rw [g4]; exact hdims
      · rw [g5]
        show (nb || _) = _
        rw [hnb, List.any_cons, Bool.or_assoc]
    have hdk : k ∉ Dict.keys st.dims := hd k (by simp)
    have hD1 : ∀ o : Option ℤ, ∀ k' ∈ Dict.keys l, k' ∉ Dict.keys (st.dims ++ [(k, o)]) := by
      intro o k' h'
      rw [Dict.keys_append, List.mem_append, not_or]
      refine ⟨hd k' (by simp [h']), ?_⟩
      simp only [Dict.keys_cons, Dict.keys_nil, List.mem_singleton]
      rintro rfl; exact hn.1 h'
    by_cases hs : v.issingleton = true
    · refine hfin (st.dims ++ [(k, none)]) _ st.delta ?_ (hD1 none) ?_ rfl
      · simp [condStep, hmove, hs, bind, Except.bind, pure, Except.pure, Dict.set_of_notMem hdk]
      · simp [condDims, hs]
    · have hs' : v.issingleton = false := by simpa using hs
      obtain ⟨a, ha⟩ := harr (k, v) (by simp) hs'
      simp only at ha
      have hg : Dict.get? d.dims k = some (some a) := join_eq_some.mp ha
      by_cases hmk : k ∈ Dict.keys d.marg
      · by_cases hkk : k ∈ keys
        · refine hfin st.dims st.normalise (st.delta + 1) ?_ (fun k' h' => hd k' (by simp [h'])) ?_
            (by simp [hs'])
          · simp [condStep, hmove, hs', hmk, hkk, bind, Except.bind, pure, Except.pure]
          · simp [condDims, hs', hkk]
        · refine hfin (st.dims ++ [(k, some (a : ℤ))]) st.normalise st.delta ?_ (hD1 _) ?_
            (by simp [hs'])
          · simp [condStep, hmove, hs', hmk, hkk, bind, Except.bind, pure, Except.pure, dimOf, hg,
              Dict.set_of_notMem hdk]
          · simp [condDims, hs', hkk, hmk, ha]
      · have hkk : k ∉ keys := fun h => hmk (hk k (by simp) h).2.1
        refine hfin (st.dims ++ [(k, some ((a : ℤ) - st.delta))]) st.normalise st.delta ?_ (hD1 _) ?_
          (by simp [hs'])
        · simp [condStep, hmove, hs', hmk, bind, Except.bind, pure, Except.pure, dimOf, hg,
            Dict.set_of_notMem hdk]
        · simp [condDims, hs', hkk, hmk, ha]

/-- The array variables among `keys`. -/
def arrayKeys (d : PD) (keys : List Str) : List Str := keys.filter fun k => (d.axis k).isSome

theorem mem_arrayKeys {d : PD} {keys : List Str} {k : Str} :
    k ∈ arrayKeys d keys ↔ k ∈ keys ∧ (d.axis k).isSome := by
  simp [arrayKeys]

/-- The axis computed for a remaining array before lowering. -/
def remainAxis (d : PD) (keys : List Str) (l : Dict Str Val) (δ : ℕ) (k : Str) (a : ℕ) : ℤ :=
  if k ∈ Dict.keys d.marg then (a : ℤ)
  else (a : ℤ) - (δ + (preceding (arrayKeys d keys) k l).length : ℕ)

theorem get?_condDims (d : PD) (keys : List Str) (k : Str) :
    ∀ (l : Dict Str Val) (δ : ℕ), (Dict.keys l).Nodup →
      (∀ kv ∈ l, (d.axis kv.1).isSome = !kv.2.issingleton) →
      Dict.get? (condDims d keys l δ) k =
        match Dict.get? l k with
        | some v => if v.issingleton then some none else if k ∈ keys then none
            else some ((d.axis k).map (remainAxis d keys l δ k))
        | none => none := by
  intro l
  induction l with
  | nil => intro δ _ _; simp [condDims, Dict.get?]
  | cons kv l ih =>
    obtain ⟨k', v⟩ := kv
    intro δ hn harr
    simp only [Dict.keys_cons, List.nodup_cons] at hn
    have harr' : ∀ kv ∈ l, (d.axis kv.1).isSome = !kv.2.issingleton :=
      fun kv hkv => harr kv (by simp [hkv])
    have hv := harr (k', v) (by simp)
    simp only at hv
    by_cases h1 : k' = k
    · subst h1
      have hnone : Dict.get? l k' = none := Dict.get?_eq_none.mpr hn.1
      by_cases h3 : v.issingleton = true
      · simp [condDims, h3, Dict.get?]
      · have h3' : v.issingleton = false := by simpa using h3
        by_cases h2 : k' ∈ keys
        · simp [condDims, h3', h2, ih _ hn.2 harr', hnone, Dict.get?]
        · by_cases h4 : k' ∈ Dict.keys d.marg
          · simp only [condDims, h3', h2, h4, Dict.get?]
            cases d.axis k' <;> simp [remainAxis, h4, Dict.get?, h3']
          · simp only [condDims, h3', h2, h4, Dict.get?]
            cases d.axis k' <;> simp [remainAxis, h4, preceding, Dict.get?, h3']
    · have hrem : ∀ δ', δ' = δ + (if k' ∈ arrayKeys d keys then 1 else 0) →
          remainAxis d keys l δ' k = remainAxis d keys ((k', v) :: l) δ k := by
        rintro δ' rfl
        funext a
        unfold remainAxis
        by_cases hA : k' ∈ arrayKeys d keys
        · simp only [preceding, h1, if_false, hA, if_true, List.length_cons]
          congr 2; congr 1; omega
        · simp [preceding, h1, hA]
      by_cases h3 : v.issingleton = true
      · have hA : k' ∉ arrayKeys d keys := by rw [mem_arrayKeys, hv]; simp [h3]
        simp only [condDims, h3, if_true, Dict.get?, h1, if_false]
        rw [ih _ hn.2 harr', hrem δ (by simp [hA])]
      · have h3' : v.issingleton = false := by simpa using h3
        by_cases h2 : k' ∈ keys
        · have hA : k' ∈ arrayKeys d keys := by rw [mem_arrayKeys, hv]; simp [h3', h2]
          simp only [condDims, h3', h2, if_true, Dict.get?, h1, if_false, Bool.false_eq_true]
          rw [ih _ hn.2 harr', hrem (δ + 1) (by simp [hA])]
        · have hA : k' ∉ arrayKeys d keys := by rw [mem_arrayKeys]; simp [h2]
          by_cases h4 : k' ∈ Dict.keys d.marg
          · simp only [condDims, h3', h2, if_true, Dict.get?, h1, if_false, Bool.false_eq_true, h4]
            rw [ih _ hn.2 harr', hrem δ (by simp [hA])]
          · simp only [condDims, h3', h2, Dict.get?, h1, if_false, Bool.false_eq_true, h4]
            rw [ih _ hn.2 harr', hrem δ (by simp [hA])]

theorem keys_condDims (d : PD) (keys : List Str) :
    ∀ (l : Dict Str Val) (δ : ℕ), List.Sublist (Dict.keys (condDims d keys l δ)) (Dict.keys l) := by
  intro l
  induction l with
  | nil => intro δ; simp [condDims]
  | cons kv l ih =>
    obtain ⟨k', v⟩ := kv
    intro δ
    by_cases h3 : v.issingleton = true
    · simp only [condDims, h3, if_true, Dict.keys_cons]; exact (ih _).cons_cons _
    · have h3' : v.issingleton = false := by simpa using h3
      by_cases h2 : k' ∈ keys
      · simp only [condDims, h3', h2, if_true, Dict.keys_cons, Bool.false_eq_true, if_false]
        exact (ih _).cons _
      · by_cases h4 : k' ∈ Dict.keys d.marg
        · simp only [condDims, h3', h2, if_true, Dict.keys_cons, Bool.false_eq_true, if_false, h4]
          exact (ih _).cons_cons _
        · simp only [condDims, h3', h2, Dict.keys_cons, Bool.false_eq_true, if_false, h4]
          exact (ih _).cons_cons _

/-! ### lowering and raising -/

theorem condMin_int (l : List ℤ) : ∀ m, l.foldl min m ≤ m ∧ (∀ x ∈ l, l.foldl min m ≤ x) ∧
    (l.foldl min m = m ∨ l.foldl min m ∈ l) := by
  induction l with
  | nil => intro m; simp
  | cons y l ih =>
    intro m
    obtain ⟨h1, h2, h3⟩ := ih (min m y)
    simp only [List.foldl_cons, List.mem_cons]
    refine ⟨by omega, ?_, ?_⟩
    · rintro x (rfl | hx)
      · omega
      · exact h2 x hx
    · rcases h3 with h3 | h3
      · rcases le_total m y with h | h
        · left; rw [h3]; omega
        · right; left; rw [h3]; omega
      · exact Or.inr (Or.inr h3)

theorem condMax_int (l : List ℤ) : ∀ m, m ≤ l.foldl max m ∧ (∀ x ∈ l, x ≤ l.foldl max m) ∧
    (l.foldl max m = m ∨ l.foldl max m ∈ l) := by
  induction l with
  | nil => intro m; simp
  | cons y l ih =>
    intro m
    obtain ⟨h1, h2, h3⟩ := ih (max m y)
    simp only [List.foldl_cons, List.mem_cons]
    refine ⟨by omega, ?_, ?_⟩
    · rintro x (rfl | hx)
      · omega
      · exact h2 x hx
    · rcases h3 with h3 | h3
      · rcases le_total m y with h | h
        · right; left; rw [h3]; omega
        · left; rw [h3]; omega
      · exact Or.inr (Or.inr h3)

/-- The lowered axes: shifted by the lowest, with their highest. -/
theorem condLower_spec (D : Dict Str (Option ℤ)) (hn : (Dict.keys D).Nodup) :
    ∃ (low : ℤ) (top : ℕ), (condLower D).2 = (top : ℤ) ∧
      Dict.keys (condLower D).1 = Dict.keys D ∧
      (∀ k, Dict.get? (condLower D).1 k = (Dict.get? D k).map (Option.map (· - low))) ∧
      (∀ k z, Dict.get? D k = some (some z) → low ≤ z ∧ z - low ≤ top) ∧
      ((∃ k z, Dict.get? D k = some (some z)) → ∃ k, Dict.get? D k = some (some low)) ∧
      (top = 0 ∨ ∃ k, Dict.get? D k = some (some (low + top))) := by
  have hmem : ∀ z, z ∈ D.filterMap Prod.snd ↔ ∃ k, Dict.get? D k = some (some z) := by
    intro z
    rw [List.mem_filterMap]
    constructor
    · rintro ⟨⟨k, o⟩, h1, h2⟩
      simp only at h2; subst h2
      exact ⟨k, Dict.get?_of_mem hn h1⟩
    · rintro ⟨k, hk⟩
      exact ⟨(k, some z), Dict.get?_mem hk, rfl⟩
  unfold condLower
  rcases hx : D.filterMap Prod.snd with _ | ⟨x, xs⟩
  · have hno : ∀ k z, Dict.get? D k ≠ some (some z) := by
      intro k z hk
      have := (hmem z).mpr ⟨k, hk⟩
      rw [hx] at this; simp at this
    refine ⟨0, 0, rfl, rfl, ?_, fun k z hk => absurd hk (hno k z), ?_, Or.inl rfl⟩
    · intro k
      rcases Dict.get? D k with _ | (_ | z) <;> simp
    · rintro ⟨k, z, hk⟩; exact absurd hk (hno k z)
  · simp only
    set low := xs.foldl min x with hlow
    obtain ⟨l1, l2, l3⟩ := condMin_int xs x
    have hle : ∀ z ∈ D.filterMap Prod.snd, low ≤ z := by
      intro z hz
      rw [hx] at hz
      rcases List.mem_cons.mp hz with rfl | hz
      · exact l1
      · exact l2 z hz
    have hlowm : low ∈ D.filterMap Prod.snd := by
      rw [hx]
      rcases l3 with h | h
      · rw [hlow, h]; simp
      · exact List.mem_cons_of_mem _ h
    set D' : Dict Str (Option ℤ) := D.map fun kv => (kv.1, kv.2.map (· - low)) with hD'
    have hfm : D'.filterMap Prod.snd = (D.filterMap Prod.snd).map (· - low) := by
      rw [hD', List.filterMap_map, List.map_filterMap]
      rfl
    obtain ⟨m1, m2, m3⟩ := condMax_int (D'.filterMap Prod.snd) 0
    set top := (D'.filterMap Prod.snd).foldl max 0 with htop
    have hget : ∀ k, Dict.get? D' k = (Dict.get? D k).map (Option.map (· - low)) := by
      intro k
      rw [hD', Dict.get?_map (fun _ o => Option.map (· - low) o)]
    refine ⟨low, top.toNat, by omega, by simp [hD', Dict.keys], hget, ?_, ?_, ?_⟩
    · intro k z hk
      have hz := (hmem z).mpr ⟨k, hk⟩
      refine ⟨hle z hz, ?_⟩
      have := m2 (z - low) (by rw [hfm]; exact List.mem_map.mpr ⟨z, hz, rfl⟩)
      omega
    · intro _
      exact (hmem low).mp hlowm
    · rcases m3 with h | h
      · left; rw [h]; rfl
      · right
        rw [hfm, List.mem_map] at h
        obtain ⟨z, hz, hzt⟩ := h
        obtain ⟨k, hk⟩ := (hmem z).mp hz
        refine ⟨k, ?_⟩
        rw [hk]
        congr 2; omega

/-- The lowest axis of the conditioned arrays. -/
theorem condMin_ok (d : PD) (keys : List Str) (h : ∀ k ∈ keys, k ∈ Dict.keys d.dims) (m : ℕ) :
    ∃ low, keys.foldlM (condMinStep d) m = .ok low ∧ low ≤ m ∧
      (∀ k ∈ keys, ∀ a, d.axis k = some a → low ≤ a) ∧
      (low = m ∨ ∃ k ∈ keys, d.axis k = some low) := by
  induction keys generalizing m with
  | nil => exact ⟨m, rfl, le_refl _, by simp, Or.inl rfl⟩
  | cons k keys ih =>
    obtain ⟨o, ho⟩ := Dict.get?_of_mem_keys (h k (by simp))
    have hax : d.axis k = o := by simp [PD.axis, ho]
    rcases o with _ | a
    · obtain ⟨low, e1, e2, e3, e4⟩ := ih (fun k' h' => h k' (by simp [h'])) m
      refine ⟨low, ?_, e2, ?_, ?_⟩
      · simp only [List.foldlM_cons, condMinStep, condSetStep, dimOf, ho, bind, Except.bind, pure, Except.pure] at e1 ⊢
        exact e1
      · intro k' hk' b hb
        rcases List.mem_cons.mp hk' with rfl | hk'
        · rw [hax] at hb; simp at hb
        · exact e3 k' hk' b hb
      · rcases e4 with e4 | ⟨k', h1, h2⟩
        · exact Or.inl e4
        · exact Or.inr ⟨k', by simp [h1], h2⟩
    · obtain ⟨low, e1, e2, e3, e4⟩ := ih (fun k' h' => h k' (by simp [h'])) (min m a)
      refine ⟨low, ?_, by omega, ?_, ?_⟩
      · simp only [List.foldlM_cons, condMinStep, condSetStep, dimOf, ho, bind, Except.bind, pure, Except.pure] at e1 ⊢
        exact e1
      · intro k' hk' b hb
        rcases List.mem_cons.mp hk' with rfl | hk'
        · rw [hax] at hb
          simp only [Option.some.injEq] at hb
          omega
        · exact e3 k' hk' b hb
      · rcases e4 with e4 | ⟨k', h1, h2⟩
        · rcases le_total m a with hma | hma
          · left; omega
          · right; exact ⟨k, by simp, by rw [hax, e4, min_eq_right hma]⟩
        · exact Or.inr ⟨k', by simp [h1], h2⟩

theorem condSet_ok (d : PD) (c : ℕ → ℤ) (keys : List Str) (h : ∀ k ∈ keys, k ∈ Dict.keys d.dims) :
    ∀ D : Dict Str (Option ℤ), (Dict.keys D).Nodup → ∃ D',
      keys.foldlM (condSetStep d c) D = .ok D' ∧
      (Dict.keys D').Nodup ∧
      (∀ k, k ∈ Dict.keys D' ↔ k ∈ Dict.keys D ∨ k ∈ arrayKeys d keys) ∧
      (∀ k, Dict.get? D' k = if k ∈ keys ∧ (d.axis k).isSome then some ((d.axis k).map c)
        else Dict.get? D k) := by
  induction keys with
  | nil => intro D hD; exact ⟨D, rfl, hD, by simp [arrayKeys], by simp⟩
  | cons k keys ih =>
    intro D hD
    obtain ⟨o, ho⟩ := Dict.get?_of_mem_keys (h k (by simp))
    have hax : d.axis k = o := by simp [PD.axis, ho]
    rcases o with _ | a
    · obtain ⟨D', e1, e2, e3, e4⟩ := ih (fun k' h' => h k' (by simp [h'])) D hD
      refine ⟨D', ?_, e2, ?_, ?_⟩
      · simp only [List.foldlM_cons, condMinStep, condSetStep, dimOf, ho, bind, Except.bind, pure, Except.pure] at e1 ⊢
        exact e1
      · intro k'
        rw [e3, mem_arrayKeys, mem_arrayKeys]
        by_cases hk : k' = k
        · subst hk; simp [hax]
        · simp [hk]
      · intro k'
        rw [e4]
        by_cases hk : k' = k
        · subst hk; simp [hax]
        · simp [hk]
    · obtain ⟨D', e1, e2, e3, e4⟩ := ih (fun k' h' => h k' (by simp [h']))
        (Dict.set D k (some (c a))) (Dict.nodup_set hD)
      refine ⟨D', ?_, e2, ?_, ?_⟩
      · simp only [List.foldlM_cons, condMinStep, condSetStep, dimOf, ho, bind, Except.bind, pure, Except.pure] at e1 ⊢
        exact e1
      · intro k'
        rw [e3, mem_arrayKeys, mem_arrayKeys]
        have hks : k' ∈ Dict.keys (Dict.set D k (some (c a))) ↔ k' ∈ Dict.keys D ∨ k' = k := by
          rw [Dict.keys_set]
          split
          · rename_i hkD
            constructor
            · exact Or.inl
            · rintro (h | rfl)
              · exact h
              · exact hkD
          · simp
        rw [hks]
        by_cases hk : k' = k
        · subst hk; simp [hax]
        · simp [hk]
      · intro k'
        rw [e4, Dict.get?_set]
        by_cases hk : k = k'
        · subst hk; simp [hax]
        · simp [hk, Ne.symm hk]

end Probayes
