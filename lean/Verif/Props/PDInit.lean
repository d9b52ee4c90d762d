/-
Property C13: distributions that are built successfully are consistent.
-/
import Verif.Spec.PD
import Verif.Lemmas.PDInit

namespace Probayes

/-- numpy arrays hold as many entries as their shape says. -/
def Spec.RealArrays (l : Dict Str Val) : Prop :=
  ∀ kv ∈ l, ∀ s data, kv.2 = .arr s data → data.length = s.prod

/-- C13 full claim. -/
def C13_claim : Prop :=
  ∀ (fmt : Val → Str) (name : Str) (vals : Dict Str Val) (dims : Option (Dict Str (Option ℕ)))
    (prob : Arr) (ps : PSpec) (d : PD), (Dict.keys vals).Nodup → Spec.RealArrays vals →
    pdInit fmt name vals dims prob ps = .ok d →
    Spec.Consistent d.dist ∧ d.prob = prob ∧ prob.shape = d.dist.shape

theorem axisShape_oneAxis (n a m : ℕ) (h : a < n) : Spec.OneAxis n a m (axisShape n a m) := by
  refine ⟨by simp [axisShape], ?_, ?_⟩
  · rw [axisShape, List.getElem?_set_self (by simpa using h)]
  · intro b hb hba
    rw [axisShape, List.getElem?_set_ne (Ne.symm hba), List.getElem?_replicate_of_lt hb]

theorem pdInit_inv {fmt : Val → Str} {name : Str} {vals : Dict Str Val}
    {dims : Option (Dict Str (Option ℕ))} {prob : Arr} {ps : PSpec} {d : PD}
    (h : pdInit fmt name vals dims prob ps = .ok d) :
    distDims vals dims = .ok d.dist ∧ probOK d.dist prob = true ∧ d.prob = prob ∧
      evalPscale ps = .ok d.pscale := by
  simp only [pdInit, bind, Except.bind] at h
  rcases h1 : strMargcond name with e | mc <;> simp only [h1] at h
  · simp at h
  rcases h2 : distDims vals dims with e | dist <;> simp only [h2] at h
  · simp at h
  rcases h3 : dist.vals.foldlM (nameStep fmt) mc with e | mc' <;> simp only [h3] at h
  · simp at h
  rcases h4 : evalPscale ps with e | p <;> simp only [h4] at h
  · simp at h
  by_cases h5 : probOK dist prob = true
  · rw [if_pos h5] at h
    simp only [pure, Except.pure, Except.ok.injEq] at h
    subst h
    exact ⟨rfl, h5, rfl, rfl⟩
  · rw [if_neg h5] at h; simp at h

/-- Sizes agree between keys sharing an axis. -/
def Spec.SharedAgree (vals : Dict Str Val) (dims : Dict Str (Option ℕ)) : Prop :=
  ∀ kv ∈ vals, ∀ kv' ∈ vals, ∀ a s data s' data', kv.2 = .arr s data → kv'.2 = .arr s' data' →
    Dict.get? dims kv.1 = some (some a) → Dict.get? dims kv'.1 = some (some a) →
    data.length = data'.length

theorem mem_fixVals_arr {l : Dict Str Val} {k : Str} {s : List ℕ} {data : List ℚ} :
    (k, Val.arr s data) ∈ fixVals l ↔ (k, Val.arr s data) ∈ l := by
  simp only [fixVals, List.mem_map, Prod.mk.injEq, Prod.exists]
  constructor
  · rintro ⟨k', v, h, rfl, hv⟩
    rcases v with x | x | x | _ | ⟨s', d'⟩ | _ <;> simp [Val.fixNone] at hv
    obtain ⟨rfl, rfl⟩ := hv; exact h
  · intro h; exact ⟨k, _, h, rfl, rfl⟩

theorem issingleton_placeVal (dims : Dict Str (Option ℕ)) (k : Str) (v : Val) (n : ℕ)
    (hn : ∀ a, Dict.get? dims k = some (some a) → a < n) :
    (placeVal dims n k v).issingleton = v.issingleton := by
  unfold placeVal
  split
  · rfl
  · rename_i hs
    split
    · rename_i s data a hg
      have := hn a hg
      rcases n with _ | n
      · omega
      · have h0 : (axisShape (n + 1) a data.length).isEmpty = false := by
          rcases a with _ | a <;> simp [axisShape, List.replicate_succ]
        simp only [Val.issingleton, h0] at hs ⊢
        exact (Bool.eq_false_iff.mpr hs).symm
    · rfl

/-- C13 for given dimensions: if keys sharing an axis agree in size (which the
code does not check), a distribution that is built is consistent and its
probability has its shape. -/
theorem C13_given_partial (fmt : Val → Str) (name : Str) (vals : Dict Str Val)
    (dims : Dict Str (Option ℕ)) (prob : Arr) (ps : PSpec) (d : PD)
    (hn : (Dict.keys vals).Nodup) (hne : vals ≠ []) (hsh : Spec.SharedAgree vals dims)
    (h : pdInit fmt name vals (some dims) prob ps = .ok d) :
    Spec.Consistent d.dist ∧ d.prob = prob ∧ prob.shape = d.dist.shape := by
  obtain ⟨h1, h2, h3, h4⟩ := pdInit_inv h
  obtain ⟨hal, hent, hv, hd, hnd, hs, hsz, ha, hi⟩ := distDims_inv hn hne h1
  have hnf : (Dict.keys (fixVals vals)).Nodup := by rw [keys_fixVals]; exact hn
  have hlen : d.dist.shape.length = maxDim dims := by
    have := congrArg List.length hs
    simpa [length_foldl_shapeAfter] using this
  have hdims : ∀ k, Dict.get? d.dist.dims k = (Dict.get? dims k).or
        (match Dict.get? (fixVals vals) k with
         | some v => if v.issingleton then some none else none
         | none => none) := by
    intro k; rw [hd]; exact get?_foldl_dimsAfter (fixVals vals) dims hnf k
  have hvals : ∀ k, Dict.get? d.dist.vals k =
      (Dict.get? (fixVals vals) k).map (placeVal dims (maxDim dims) k) := by
    intro k; rw [hv]; exact Dict.get?_map _ _ _
  have hget : ∀ k v, Dict.get? d.dist.vals k = some v → ∃ u, (k, u) ∈ fixVals vals ∧
      Dict.get? (fixVals vals) k = some u ∧ v = placeVal dims (maxDim dims) k u := by
    intro k v hkv
    rw [hvals] at hkv
    rcases hg : Dict.get? (fixVals vals) k with _ | u
    · rw [hg] at hkv; simp at hkv
    · rw [hg] at hkv; exact ⟨u, Dict.get?_mem hg, rfl, by simpa using hkv.symm⟩
  have hcover : ∀ a < maxDim dims, ∃ kv ∈ fixVals vals, ∃ s data, kv.2.issingleton = false ∧
      kv.2 = .arr s data ∧ Dict.get? dims kv.1 = some (some a) ∧
      d.dist.shape[a]? = some data.length := by
    intro a ha
    have hx : d.dist.shape[a]? = some (d.dist.shape[a]'(by omega)) := List.getElem?_eq_getElem _
    have h5 : ((fixVals vals).foldl (shapeAfter dims) (List.replicate (maxDim dims) none))[a]?
        = some (some (d.dist.shape[a]'(by omega))) := by
      rw [← hs, List.getElem?_map, hx]; rfl
    rcases foldl_shapeAfter_inv dims (fixVals vals) _ a _ h5 with h6 | ⟨kv, h6, s, data, h7, h8, h9, h10⟩
    · rw [List.getElem?_replicate_of_lt ha] at h6; simp at h6
    · exact ⟨kv, h6, s, data, h7, h8, h9, by rw [hx, h10]⟩
  refine ⟨⟨?_, ?_, ?_, by rw [hlen, hnd], ?_, hsz⟩, h3, ?_⟩
  · rw [hv, Dict.keys_map]; exact hnf
  · intro k v hkv
    obtain ⟨u, hu, hgu, rfl⟩ := hget k v hkv
    rw [hdims, issingleton_placeVal _ _ _ _ (fun a ha => lt_maxDim ha), hgu]
    rcases hent _ hu with ⟨hs1, hs2⟩ | ⟨hs1, s, data, a, _, _, hs2⟩
    · simp only at hs1 hs2
      simp only [hs1, if_true]
      rcases hg : Dict.get? dims k with _ | _ | b
      · exact ⟨none, by simp, by simp⟩
      · exact ⟨none, by simp, by simp⟩
      · rw [hg] at hs2; simp at hs2
    · simp only at hs1 hs2
      exact ⟨some a, by simp [hs2], by simp [hs1]⟩
  · intro k v a hkv hka
    obtain ⟨u, hu, hgu, rfl⟩ := hget k v hkv
    rw [hdims, hgu] at hka
    rcases hent _ hu with ⟨hs1, hs2⟩ | ⟨hs1, s, data, b, hub, _, hs2⟩
    · simp only at hs1 hs2
      rcases hg : Dict.get? dims k with _ | _ | b
      · rw [hg] at hka; simp [hs1] at hka
      · rw [hg] at hka; simp at hka
      · rw [hg] at hs2; simp at hs2
    · simp only at hs1 hs2 hub
      have hab : b = a := by rw [hs2] at hka; simpa using hka
      subst hab hub
      have hlt := lt_maxDim hs2
      refine ⟨axisShape (maxDim dims) b data.length, data, ?_, ?_, ?_⟩
      · simp only [placeVal, hs1, Bool.false_eq_true, if_false, hs2]
      · rw [hnd]; exact axisShape_oneAxis _ _ _ hlt
      · obtain ⟨kv', hm', s', data', _, hv', hd', hsz'⟩ := hcover b hlt
        obtain ⟨k', v'⟩ := kv'
        simp only at hv' hd'
        subst hv'
        have := hsh _ (mem_fixVals_arr.mp hu) _ (mem_fixVals_arr.mp hm') b s data s' data' rfl rfl
          hs2 hd'
        rw [hsz', this]
  · intro a ha
    rw [hnd] at ha
    obtain ⟨kv, hm, s, data, h7, h8, h9, _⟩ := hcover a ha
    obtain ⟨k, v⟩ := kv
    have hg := Dict.get?_of_mem hnf hm
    refine ⟨k, placeVal dims (maxDim dims) k v, by rw [hvals, hg]; rfl, ?_⟩
    rw [hdims, h9]; rfl
  · unfold probOK at h2
    by_cases hsg : d.dist.issingleton = true
    · rw [if_pos hsg] at h2
      have hp : prob.shape = [] := by simpa [Arr.isscalar] using h2
      rw [hp]
      have h0 : maxDim dims = 0 := by
        by_contra hc
        obtain ⟨kv, hm, s, data, h7, h8, h9, _⟩ := hcover 0 (by omega)
        rw [hi, List.all_eq_true] at hsg
        rw [hsg kv hm] at h7; simp at h7
      rw [h0] at hlen
      exact (List.length_eq_zero_iff.mp hlen).symm
    · rw [if_neg hsg] at h2
      simp only [Bool.and_eq_true, beq_iff_eq] at h2
      exact h2.2.symm

/-- C13 fails (1): two variables sharing an axis with different sizes are
accepted; the axis takes the size of the last one. -/
theorem C13_claim_fails : ¬ C13_claim := by
  intro h
  have hok : ∃ d, pdInit (fun _ => []) "x,y".toList
      [("x".toList, .arr [3] [1, 2, 3]), ("y".toList, .arr [2] [4, 5])]
      (some [("x".toList, some 0), ("y".toList, some 0)]) ⟨[2], fun _ => 1⟩ .none = .ok d ∧
      d.dist.vals = [("x".toList, .arr [3] [1, 2, 3]), ("y".toList, .arr [2] [4, 5])] ∧
      d.dist.dims = [("x".toList, some 0), ("y".toList, some 0)] ∧ d.dist.shape = [2] :=
    ⟨_, rfl, rfl, rfl, rfl⟩
  obtain ⟨d, hd, hv, hdm, hs⟩ := hok
  obtain ⟨hc, _, _⟩ := h _ _ _ _ _ _ d (by decide) (by
    intro kv hkv s data hv
    simp only [List.mem_cons, List.not_mem_nil, or_false] at hkv
    rcases hkv with rfl | rfl <;> (simp only [Val.arr.injEq] at hv; obtain ⟨rfl, rfl⟩ := hv; rfl)) hd
  obtain ⟨s, data, h1, _, h2⟩ := hc.array "x".toList (.arr [3] [1, 2, 3]) 0
    (by rw [hv]; rfl) (by rw [hdm]; rfl)
  simp only [Val.arr.injEq] at h1
  rw [hs, ← h1.2] at h2
  simp at h2

/-- C13 fails (2): without given dimensions the values of all but the last array
are left with too few axes: in a two-variable distribution the values of the
first have shape (3,) rather than (3, 1). -/
theorem C13_default_shape_fails : ∃ d, pdInit (fun _ => []) "x,y".toList
      [("x".toList, .arr [3] [1, 2, 3]), ("y".toList, .arr [2] [4, 5])] none
      ⟨[3, 2], fun _ => 1⟩ .none = .ok d ∧ d.dist.ndim = 2 ∧
      Dict.get? d.dist.vals "x".toList = some (.arr [3] [1, 2, 3]) ∧
      ¬ Spec.OneAxis 2 0 3 [3] := by
  refine ⟨_, rfl, rfl, rfl, ?_⟩
  intro h
  simp [Spec.OneAxis] at h

/-! ### default dimensions -/

/-- Consecutive axes for the arrays, in key order, starting from `c`. -/
def Spec.defaultDims : Dict Str Val → ℕ → Dict Str (Option ℕ)
  | [], _ => []
  | (k, v) :: l, c =>
      if v.issingleton then (k, none) :: defaultDims l c else (k, some c) :: defaultDims l (c + 1)

/-- Sizes of the arrays in key order. -/
def Spec.arraySizes (l : Dict Str Val) : List ℕ :=
  l.filterMap fun kv => if kv.2.issingleton then none else
    match kv.2 with | .arr _ data => some data.length | _ => none

theorem dimsLoop_default (l : Dict Str Val) :
    ∀ st st' : AxState, (Dict.keys st.dims ++ Dict.keys l).Nodup → st.shape.length = st.count →
      st.ndim = st.count →
      l.foldlM (dimsStep true) st = .ok st' →
      st'.dims = st.dims ++ Spec.defaultDims l st.count ∧
      st'.shape = st.shape ++ (Spec.arraySizes l).map some ∧
      st'.ndim = st'.shape.length ∧ Dict.keys st'.vals = Dict.keys st.vals ++ Dict.keys l := by
  induction l with
  | nil =>
    intro st st' _ h1 h2 h
    simp only [List.foldlM_nil, pure, Except.pure, Except.ok.injEq] at h
    subst h
    simp [Spec.defaultDims, Spec.arraySizes, h1, h2]
  | cons kv l ih =>
    intro st st' hn h1 h2 h
    obtain ⟨k, v⟩ := kv
    rw [List.foldlM_cons] at h
    have hk : k ∉ Dict.keys st.dims := by
      intro hc
      rw [List.nodup_append] at hn
      exact hn.2.2 _ hc _ (by simp) rfl
    rcases hs : v.issingleton with _ | _
    · simp only [dimsStep, hs, Bool.false_eq_true, if_false, dimsArray] at h
      rcases v with x | x | x | _ | ⟨s, data⟩ | _ <;> simp only [bind, Except.bind] at h
      all_goals try (simp at h; done)
      by_cases hl : data.length = s.foldl max 0
      · simp only [ne_eq, hl, not_true_eq_false, if_false, if_true, h1] at h
        obtain ⟨g1, g2, g3, g4⟩ := ih _ st' (by
          simp only [dimsPlace, Dict.set_of_notMem hk, Dict.keys_append]
          simpa [Dict.keys] using hn) (by simp [dimsPlace, h1])
          (by simp [dimsPlace]) h
        refine ⟨?_, ?_, g3, ?_⟩
        · rw [g1]; simp [dimsPlace, Dict.set_of_notMem hk, Spec.defaultDims, hs]
        · rw [g2]
          simp only [dimsPlace, Spec.arraySizes, List.filterMap_cons, hs]
          rw [show st.count = st.shape.length from h1.symm]
          simp
        · rw [g4]; simp [dimsPlace, Dict.keys]
      · simp [hl] at h
    · simp only [dimsStep, hs, if_true, dimsScalar, bind, Except.bind] at h
      obtain ⟨g1, g2, g3, g4⟩ := ih _ st' (by
        simp only [Dict.set_of_notMem hk, Dict.keys_append]
        simpa [Dict.keys] using hn) (by simp [h1]) (by simp [h2]) h
      refine ⟨?_, ?_, g3, ?_⟩
      · rw [g1]; simp [Dict.set_of_notMem hk, Spec.defaultDims, hs]
      · rw [g2]; simp [Spec.arraySizes, hs]
      · rw [g4]; simp [Dict.keys]

/-- C13 for default dimensions, what holds: arrays get consecutive axes in key
order, scalars none; the shape lists the array sizes in that order; rank, size
and the probability's shape agree with it. -/
theorem C13_default_partial (fmt : Val → Str) (name : Str) (vals : Dict Str Val)
    (prob : Arr) (ps : PSpec) (d : PD) (hn : (Dict.keys vals).Nodup) (hne : vals ≠ [])
    (h : pdInit fmt name vals none prob ps = .ok d) :
    d.dist.dims = Spec.defaultDims (fixVals vals) 0 ∧
    d.dist.shape = Spec.arraySizes (fixVals vals) ∧ d.dist.ndim = d.dist.shape.length ∧
    d.dist.size = d.dist.shape.prod ∧ Dict.keys d.dist.vals = Dict.keys vals ∧
    d.prob = prob ∧ (prob.shape = d.dist.shape) := by
  obtain ⟨h1, h2, h3, h4⟩ := pdInit_inv h
  have hne' : vals.isEmpty = false := by simpa using hne
  unfold distDims at h1
  simp only [hne', Option.isNone_none, Option.getD_none, Bool.false_eq_true, if_false] at h1
  by_cases hal : (Dict.keys vals).any (· ∈ disallowed) = true
  · rw [if_pos hal] at h1; simp at h1
  rw [if_neg hal] at h1
  have h0 : maxDim [] = 0 := rfl
  rw [h0] at h1
  rcases hf : List.foldlM (dimsStep true) ⟨[], [], List.replicate 0 none, 0, 0, []⟩
      (vals.map fun kv => (kv.1, kv.2.fixNone)) with e | st
  · simp only [hf, bind, Except.bind] at h1; simp at h1
  obtain ⟨g1, g2, g3, g4⟩ := dimsLoop_default (fixVals vals) _ st
    (by simpa [keys_fixVals] using hn) rfl rfl hf
  simp only [hf, bind, Except.bind] at h1
  rcases hm : st.shape.mapM id with _ | S
  · simp only [hm] at h1; simp at h1
  · simp only [hm, pure, Except.pure, Except.ok.injEq] at h1
    have hS := mapM_id_inv hm
    have hS' : S = Spec.arraySizes (fixVals vals) := by
      have : S.map some = (Spec.arraySizes (fixVals vals)).map some := by
        rw [← hS, g2]; simp
      exact List.map_injective_iff.mpr (Option.some_injective _) this
    rw [← h1] at h2 ⊢
    refine ⟨by simpa using g1, hS', by simp [g3, hS], rfl, by simpa [keys_fixVals] using g4, h3, ?_⟩
    unfold probOK at h2
    simp only at h2
    by_cases hsg : (vals.map fun kv => (kv.1, kv.2.fixNone)).all (fun kv => kv.2.issingleton) = true
    · rw [if_pos hsg] at h2
      have hp : prob.shape = [] := by simpa [Arr.isscalar] using h2
      rw [hp, hS']
      symm
      rw [Spec.arraySizes, List.filterMap_eq_nil_iff]
      intro kv hkv
      rw [List.all_eq_true] at hsg
      simp [hsg kv hkv]
    · rw [if_neg hsg] at h2
      simp only [Bool.and_eq_true, beq_iff_eq] at h2
      exact h2.2.symm

/-- Non-vacuity of `C13_given_partial` (a shared axis, a scalar and another axis)
and of `C13_default_partial`. -/
example : (∃ d, pdInit (fun _ => "1".toList) "x,y|z,w".toList
      [("x".toList, .arr [3] [1, 2, 3]), ("y".toList, .arr [2] [4, 5]), ("z".toList, .scalar 1),
       ("w".toList, .arr [3] [7, 8, 9])]
      (some [("x".toList, some 1), ("y".toList, some 0), ("w".toList, some 1)])
      ⟨[2, 3], fun _ => 1⟩ .none = .ok d ∧ d.name = "x,y|z=1,w".toList ∧
      d.dist.vals = [("x".toList, .arr [1, 3] [1, 2, 3]), ("y".toList, .arr [2, 1] [4, 5]),
        ("z".toList, .scalar 1), ("w".toList, .arr [1, 3] [7, 8, 9])]) ∧
    ∃ d, pdInit (fun _ => "1".toList) "x,y|z,w".toList
      [("x".toList, .arr [3] [1, 2, 3]), ("y".toList, .arr [2] [4, 5]), ("z".toList, .scalar 1),
       ("w".toList, .arr [3] [7, 8, 9])] none
      ⟨[3, 2, 3], fun _ => 1⟩ .none = .ok d :=
  ⟨⟨_, rfl, by rfl, rfl⟩, ⟨_, rfl⟩⟩

end Probayes
