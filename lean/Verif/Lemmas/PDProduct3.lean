/-
Lemmas on the probabilities placed and the distribution built by `product`.
-/
import Verif.Lemmas.PDProduct2

namespace Probayes

variable {fmt : Val → Str} {args : List PD}

/-- The array variables of the product in order. -/
def arrKeys (args : List PD) : List Str := (prodKeys args).filter fun k => !singleKey args k

/-- The dimensions of the product. -/
def arrDims (args : List PD) : Dict Str (Option ℕ) :=
  (arrKeys args).zipIdx.map fun ki => (ki.1, some ki.2)

/-- The shape of the product. -/
def arrShape (args : List PD) : List ℕ := (arrKeys args).map fun k => (dataOf args k).length

theorem get?_arrDims (F : Spec.Factors fmt args) (G : Spec.Plainly args) (k : Str) :
    Dict.get? (arrDims args) k =
      if k ∈ arrKeys args then some (some ((arrKeys args).idxOf k)) else none :=
  get?_zipIdx _ (nodup_arrays F G) k

theorem arr_axis (F : Spec.Factors fmt args) {a : PD} (ha : a ∈ args) {k : Str} {α : ℕ}
    (hk : a.axis k = some α) :
    k ∈ arrKeys args ∧ ∃ s, Dict.get? a.vals k = some (.arr s (dataOf args k)) ∧
      a.shape[α]? = some (dataOf args k).length ∧ 0 < (dataOf args k).length := by
  have hwf := F.wf a ha
  have hd := join_eq_some.mp hk
  have hkl : k ∈ a.keylist := hwf.dimKeys k (Dict.mem_keys_of_get? hd)
  obtain ⟨v, hv⟩ := Dict.get?_of_mem_keys hkl
  have hkp := (mem_prodKeys F k).mpr ⟨a, ha, hkl⟩
  have hns : v.issingleton = false := by
    by_contra hc
    have := (hwf.single k v hv (by simpa using hc)).1
    rw [hd] at this; simp at this
  obtain ⟨β, s, data, rfl, _, hβ, hsz⟩ := hwf.array k v hv hns
  rw [hd] at hβ
  simp only [Option.some.injEq] at hβ
  subst hβ
  have hfl := valOf_flat F ha hv
  obtain ⟨s', hs', _⟩ := flat_arr hfl.symm
  have hdat : dataOf args k = data := by simp [dataOf, hs']
  refine ⟨?_, s, by rw [hdat]; exact hv, by rw [hdat]; exact hsz, ?_⟩
  · refine List.mem_filter.mpr ⟨hkp, ?_⟩
    rw [singleKey_eq F hkp, valOf_single F ha hv, hns]; rfl
  · rw [hdat]
    exact F.pos a ha _ (List.mem_of_getElem? hsz)

theorem arrShape_get {k : Str} (hk : k ∈ arrKeys args) :
    (arrShape args)[(arrKeys args).idxOf k]? = some (dataOf args k).length := by
  have := List.idxOf_lt_length_iff.mpr hk
  simp [arrShape, List.getElem?_map, List.getElem?_eq_getElem this, List.getElem_idxOf this]

/-- The axis changes of a factor. -/
def axisPairs (args : List PD) (a : PD) : Dict ℕ ℕ :=
  a.dims.filterMap fun kv => kv.2.map fun α => (α, (arrKeys args).idxOf kv.1)

theorem mem_axisPairs (F : Spec.Factors fmt args) {a : PD} (ha : a ∈ args) (ab : ℕ × ℕ) :
    ab ∈ axisPairs args a ↔
      ∃ k, a.axis k = some ab.1 ∧ ab.2 = (arrKeys args).idxOf k := by
  have hn := (F.wf a ha).dimNodup
  constructor
  · intro h
    obtain ⟨kv, h1, h2⟩ := List.mem_filterMap.mp h
    obtain ⟨α, h3, h4⟩ := Option.map_eq_some_iff.mp h2
    refine ⟨kv.1, ?_, by rw [← h4]⟩
    rw [PD.axis, Dict.get?_of_mem hn (show (kv.1, kv.2) ∈ _ from h1), h3, ← h4]; rfl
  · rintro ⟨k, h1, h2⟩
    refine List.mem_filterMap.mpr ⟨(k, some ab.1), Dict.get?_mem (join_eq_some.mp h1), ?_⟩
    simp [← h2]

theorem axisMap_ok (F : Spec.Factors fmt args) (G : Spec.Plainly args) {a : PD} (ha : a ∈ args) :
    axisMap (arrDims args) a.dims = .ok (axisPairs args a) := by
  have key : ∀ (l : Dict Str (Option ℕ)) (d : Dict ℕ ℕ),
      (Dict.keys d ++ l.filterMap Prod.snd).Nodup →
      (∀ k α, (k, some α) ∈ l → k ∈ arrKeys args) →
      l.foldlM (fun (d : Dict ℕ ℕ) (kv : Str × Option ℕ) => match kv.2 with
        | none => (.ok d : Py (Dict ℕ ℕ))
        | some a => match (Dict.get? (arrDims args) kv.1).join with
          | none => .error .key
          | some b => .ok (Dict.set d a b)) d =
        .ok (d ++ l.filterMap fun kv => kv.2.map fun α => (α, (arrKeys args).idxOf kv.1)) := by
    intro l
    induction l with
    | nil => intro d _ _; simp [pure, Except.pure]
    | cons kv l ih =>
      intro d hn hk
      obtain ⟨k, o⟩ := kv
      rw [List.foldlM_cons]
      rcases o with _ | α
      · simp only [bind, Except.bind, List.filterMap_cons, Option.map_none]
        exact ih d (by simpa using hn) (fun x β h => hk x β (by simp [h]))
      · have hkm := hk k α (by simp)
        have hj : (Dict.get? (arrDims args) k).join = some ((arrKeys args).idxOf k) := by
          rw [get?_arrDims F G, if_pos hkm]; rfl
        have hα : α ∉ Dict.keys d := by
          intro hc
          simp only [List.filterMap_cons, List.nodup_append] at hn
          exact hn.2.2 α hc α (by simp) rfl
        simp only [hj, bind, Except.bind, Dict.set_of_notMem hα]
        rw [ih (d ++ [(α, (arrKeys args).idxOf k)]) (by
            simpa [Dict.keys_append, Dict.keys] using hn) (fun x β h => hk x β (by simp [h]))]
        simp
  have hn : (a.dims.filterMap Prod.snd).Nodup := by
    have := dimsShared_false F G
    rw [dimsShared, List.any_eq_false] at this
    simpa using this a ha
  have := key a.dims [] (by simpa using hn) (by
    intro k α h
    exact (arr_axis F ha (by
      rw [PD.axis, Dict.get?_of_mem (F.wf a ha).dimNodup h]; rfl)).1)
  rw [axisMap]
  exact this

theorem axisChange (F : Spec.Factors fmt args) (G : Spec.Plainly args) {a : PD} (ha : a ∈ args)
    (hne : a.shape ≠ []) : AxisChange (arrShape args) a.shape (axisPairs args a) where
  pos := hne
  old := by
    have := dimsShared_false F G
    rw [dimsShared, List.any_eq_false] at this
    have hn : (a.dims.filterMap Prod.snd).Nodup := by simpa using this a ha
    have e : Dict.keys (axisPairs args a) = a.dims.filterMap Prod.snd := by
      unfold axisPairs Dict.keys
      rw [List.map_filterMap]
      apply List.filterMap_congr
      intro kv _
      rcases kv.2 with _ | α <;> rfl
    rw [e]; exact hn
  cover := by
    intro α
    constructor
    · intro h
      obtain ⟨ab, h1, rfl⟩ := List.mem_map.mp h
      obtain ⟨k, h2, _⟩ := (mem_axisPairs F ha ab).mp h1
      obtain ⟨_, _, _, h3, _⟩ := arr_axis F ha h2
      by_contra hc
      rw [List.getElem?_eq_none (by omega)] at h3
      simp at h3
    · intro h
      obtain ⟨k, hk⟩ := (F.wf a ha).cover α (by rw [← (F.wf a ha).rank]; exact h)
      exact List.mem_map.mpr ⟨(α, (arrKeys args).idxOf k),
        (mem_axisPairs F ha _).mpr ⟨k, hk, rfl⟩, rfl⟩
  new := by
    have hn := (F.wf a ha).dimNodup
    have key : ∀ l : Dict Str (Option ℕ), (Dict.keys l).Nodup →
        (∀ k α, (k, some α) ∈ l → k ∈ arrKeys args) →
        (Dict.vals (l.filterMap fun kv => kv.2.map fun α => (α, (arrKeys args).idxOf kv.1))).Nodup := by
      intro l
      induction l with
      | nil => intro _ _; simp [Dict.vals]
      | cons kv l ih =>
        intro hn hk
        obtain ⟨k, o⟩ := kv
        obtain ⟨h1, h2⟩ := List.nodup_cons.mp hn
        have := ih h2 (fun x β h => hk x β (by simp [h]))
        rcases o with _ | α
        · simpa using this
        · simp only [List.filterMap_cons, Option.map_some, Dict.vals, List.map_cons,
            List.nodup_cons]
          refine ⟨?_, this⟩
          intro hm
          obtain ⟨ab, h3, h4⟩ := List.mem_map.mp hm
          obtain ⟨kv', h5, h6⟩ := List.mem_filterMap.mp h3
          obtain ⟨β, h7, h8⟩ := Option.map_eq_some_iff.mp h6
          rw [← h8] at h4
          have hk' : kv'.1 ∈ arrKeys args := hk kv'.1 β (by
            rw [← h7]; exact List.mem_cons_of_mem _ h5)
          have := (List.idxOf_inj hk').mp h4
          apply h1
          rw [show (k, some α).1 = k from rfl, ← this]
          exact List.mem_map.mpr ⟨kv', h5, rfl⟩
    exact key a.dims hn (by
      intro k α h
      exact (arr_axis F ha (by
        rw [PD.axis, Dict.get?_of_mem (F.wf a ha).dimNodup h]; rfl)).1)
  size := by
    intro ab h
    obtain ⟨k, h1, h2⟩ := (mem_axisPairs F ha ab).mp h
    obtain ⟨h3, _, _, h4, _⟩ := arr_axis F ha h1
    exact ⟨_, by rw [h2]; exact arrShape_get h3, h4⟩

theorem fits_placedShape (S new : List ℕ) : Fits (placedShape S new) S := by
  obtain ⟨h1, h2⟩ := placedShape_spec S new
  rw [Fits, List.forall₂_iff_get]
  refine ⟨h1, ?_⟩
  intro b hb1 hb2
  have := h2 b hb2
  rw [List.getElem?_eq_getElem hb1] at this
  split at this
  · left
    rw [List.getElem?_eq_getElem hb2] at this
    simpa using this
  · right; simpa using this

/-- One factor on the axes of the product. -/
theorem placeProb_ok (F : Spec.Factors fmt args) (G : Spec.Plainly args) {a : PD} (ha : a ∈ args) :
    ∃ q, placeProb (arrDims args) (arrShape args) a = .ok q ∧ FitsR q.shape (arrShape args) ∧
      (∀ k α, a.axis k = some α → Covers q.shape (arrShape args) ((arrKeys args).idxOf k)) ∧
      ∀ j ∈ idx (arrShape args), ∀ i ∈ idx a.shape,
        (∀ k α, a.axis k = some α → i[α]? = j[(arrKeys args).idxOf k]?) →
        q.bget j = a.prob.get i := by
  have hps := (F.wf a ha).probShape
  by_cases hne : a.shape = []
  · refine ⟨a.prob, ?_, Or.inl (by rw [hps, hne]), ?_, ?_⟩
    · simp [placeProb, Arr.isscalar, hps, hne]
    · intro k α hk
      obtain ⟨_, _, _, h, _⟩ := arr_axis F ha hk
      rw [hne] at h; simp at h
    · intro j _ i hi _
      rw [bget_scalar (by rw [hps, hne])]
      have := length_of_mem_idx hi
      rw [hne] at this
      rw [List.length_eq_zero_iff.mp this]
  · have hch := axisChange F G ha hne
    rw [← hps] at hch
    obtain ⟨q, h1, h2, h3⟩ := moveTo_ok hch
    refine ⟨q, ?_, Or.inr (by rw [h2]; exact fits_placedShape _ _), ?_, ?_⟩
    · have : a.prob.isscalar = false := by
        rw [Arr.isscalar, hps]
        rcases hx : a.shape with _ | _
        · exact absurd hx hne
        · rfl
      rw [placeProb, this]
      simp only [Bool.false_eq_true, if_false, axisMap_ok F G ha, bind, Except.bind]
      exact h1
    · intro k α hk
      have hm : (α, (arrKeys args).idxOf k) ∈ axisPairs args a :=
        (mem_axisPairs F ha _).mpr ⟨k, hk, rfl⟩
      have hv : (arrKeys args).idxOf k ∈ Dict.vals (axisPairs args a) :=
        List.mem_map.mpr ⟨_, hm, rfl⟩
      rw [Covers, h2, (placedShape_spec _ _).2 _ (hch.lt hv), if_pos hv]
    · intro j hj i hi hij
      have hl : j.length = q.shape.length := by
        rw [length_of_mem_idx hj, h2, (placedShape_spec _ _).1]
      rw [bget_eq hl, h2]
      refine h3 _ (clip_mem (fits_placedShape _ _) hj) i
        (by rw [length_of_mem_idx hi, hps]) ?_
      intro ab hab
      obtain ⟨k, h4, h5⟩ := (mem_axisPairs F ha ab).mp hab
      rw [hij k ab.1 h4, h5]
      have hv : (arrKeys args).idxOf k ∈ Dict.vals (axisPairs args a) := by
        rw [← h5]; exact List.mem_map.mpr ⟨_, hab, rfl⟩
      have hT := (placedShape_spec (arrShape args) (Dict.vals (axisPairs args a))).2 _ (hch.lt hv)
      rw [if_pos hv] at hT
      have hlt := hch.lt hv
      have hjl : (arrKeys args).idxOf k < j.length := by rw [length_of_mem_idx hj]; exact hlt
      rw [clip, List.getElem?_zipWith, hT, List.getElem?_eq_getElem hjl,
        List.getElem?_eq_getElem hlt]
      simp only
      split
      · rename_i h1
        have := getElem?_lt_of_mem_idx hj (List.getElem?_eq_getElem hjl)
          (List.getElem?_eq_getElem hlt)
        rw [h1] at this
        simp; omega
      · rfl

theorem mapM_forall₂ {α β : Type _} {f : α → Py β} {P : α → β → Prop} (l : List α)
    (h : ∀ x ∈ l, ∃ y, f x = .ok y ∧ P x y) : ∃ ys, l.mapM f = .ok ys ∧ List.Forall₂ P l ys := by
  induction l with
  | nil => exact ⟨[], rfl, .nil⟩
  | cons x l ih =>
    obtain ⟨y, h1, h2⟩ := h x (by simp)
    obtain ⟨ys, h3, h4⟩ := ih fun z hz => h z (by simp [hz])
    exact ⟨y :: ys, by rw [List.mapM_cons, h1, h3]; rfl, .cons h2 h4⟩

/-! ### The distribution built -/

/-- The values of the product. -/
structure ProductVals (args : List PD) (vals : Dict Str Val) : Prop where
  keys : Dict.keys vals =
    (prodKeys args).foldl (fun ks k => if k ∈ ks then ks else ks ++ [k]) []
  array : ∀ k ∈ arrKeys args, Dict.get? vals k =
    some (.arr (axisShape (arrKeys args).length ((arrKeys args).idxOf k) (dataOf args k).length)
      (dataOf args k))
  other : ∀ k ∈ prodKeys args, k ∉ arrKeys args → Dict.get? vals k = some (valOf args k)

theorem firstKeys (K : List Str) : ∀ (ks : List Str), ks.Nodup →
    (K.foldl (fun ks k => if k ∈ ks then ks else ks ++ [k]) ks).Nodup ∧
    (∀ k, k ∈ K.foldl (fun ks k => if k ∈ ks then ks else ks ++ [k]) ks ↔ k ∈ ks ∨ k ∈ K) ∧
    ∀ q : Str → Bool, (ks.filter q ++ K.filter q).Nodup →
      (K.foldl (fun ks k => if k ∈ ks then ks else ks ++ [k]) ks).filter q =
        ks.filter q ++ K.filter q := by
  induction K with
  | nil => intro ks h; simp [h]
  | cons k K ih =>
    intro ks h
    rw [List.foldl_cons]
    by_cases hk : k ∈ ks
    · simp only [hk, if_true]
      obtain ⟨h1, h2, h3⟩ := ih ks h
      refine ⟨h1, ?_, ?_⟩
      · intro x
        rw [h2 x, List.mem_cons]
        constructor
        · rintro (h | h)
          · exact Or.inl h
          · exact Or.inr (Or.inr h)
        · rintro (h | rfl | h)
          · exact Or.inl h
          · exact Or.inl hk
          · exact Or.inr h
      · intro q hn
        have hq : q k = false := by
          by_contra hc
          have hc : q k = true := by simpa using hc
          rw [List.filter_cons, if_pos hc, List.nodup_append] at hn
          exact hn.2.2 k (List.mem_filter.mpr ⟨hk, hc⟩) k (by simp) rfl
        rw [List.filter_cons, if_neg (by simp [hq])] at hn ⊢
        exact h3 q hn
    · simp only [hk, if_false]
      obtain ⟨h1, h2, h3⟩ := ih (ks ++ [k]) (by
        rw [List.nodup_append]
        refine ⟨h, by simp, ?_⟩
        intro a ha b hb
        simp only [List.mem_singleton] at hb
        subst hb; rintro rfl; exact hk ha)
      refine ⟨h1, ?_, ?_⟩
      · intro x
        rw [h2 x]
        simp only [List.mem_append, List.mem_cons, List.not_mem_nil, or_false]
        tauto
      · intro q hn
        have e : (ks ++ [k]).filter q ++ K.filter q = ks.filter q ++ (k :: K).filter q := by
          rw [List.filter_append, List.append_assoc, ← List.filter_append]; rfl
        rw [h3 q (by rw [e]; exact hn), e]

theorem ProductVals.nodup {vals : Dict Str Val} (h : ProductVals args vals) :
    (Dict.keys vals).Nodup := by
  rw [h.keys]; exact (firstKeys _ [] (by simp)).1

theorem ProductVals.mem {vals : Dict Str Val} (h : ProductVals args vals) (k : Str) :
    k ∈ Dict.keys vals ↔ k ∈ prodKeys args := by
  rw [h.keys, (firstKeys _ [] (by simp)).2.1]; simp

theorem length_arrShape : (arrShape args).length = (arrKeys args).length := by simp [arrShape]

theorem arr_source (F : Spec.Factors fmt args) {k : Str} (hk : k ∈ arrKeys args) :
    ∃ a ∈ args, ∃ α, a.axis k = some α := by
  obtain ⟨hkp, hq⟩ := List.mem_filter.mp hk
  obtain ⟨_, a, ha, hv⟩ := firstVal_some ((mem_prodKeys F k).mp hkp)
  have hns : (valOf args k).issingleton = false := by
    rw [← singleKey_eq F hkp]; simpa using hq
  obtain ⟨α, s, data, _, _, hd, _⟩ := (F.wf a ha).array k _ hv hns
  exact ⟨a, ha, α, by rw [PD.axis, hd]; rfl⟩

theorem arr_valOf (F : Spec.Factors fmt args) {k : Str} (hk : k ∈ arrKeys args) :
    ∃ s, valOf args k = .arr s (dataOf args k) ∧ s ≠ [] := by
  obtain ⟨a, ha, α, hα⟩ := arr_source F hk
  obtain ⟨_, s, hv, _, _⟩ := arr_axis F ha hα
  obtain ⟨s', hs', _⟩ := flat_arr (valOf_flat F ha hv).symm
  refine ⟨s', hs', ?_⟩
  rintro rfl
  obtain ⟨hkp, hq⟩ := List.mem_filter.mp hk
  rw [singleKey_eq F hkp, hs'] at hq
  simp [Val.issingleton] at hq

/-- The arguments of the construction are consistent. -/
theorem productBuild (F : Spec.Factors fmt args) (G : Spec.Plainly args) {vals : Dict Str Val}
    (h : ProductVals args vals) :
    BuildArgs fmt (margPairs args) (Dict.ofUpdates (condPairs args)) vals (arrDims args)
      (arrShape args) where
  ne := by
    intro he
    rcases args with _ | ⟨a, rest⟩
    · have := F.two; simp at this
    · obtain ⟨k, v⟩ := List.exists_mem_of_ne_nil _ (F.margNe a (by simp))
      have hk : k.1 ∈ prodKeys (a :: rest) := (mem_prodKeys F k.1).mpr
        ⟨a, by simp, ((F.wf a (by simp)).keys _).mpr (Or.inl (List.mem_map_of_mem v))⟩
      rw [← h.mem, he] at hk
      simp at hk
  nodup := h.nodup
  allowed := by
    intro k hk
    obtain ⟨a, ha, hka⟩ := (mem_prodKeys F k).mp ((h.mem k).mp hk)
    exact (F.wf a ha).allowed k hka
  margSide := margPairs_side F
  condSide := condDict_side F
  disj := by
    intro k h1 h2
    obtain ⟨t, ht⟩ := Dict.get?_of_mem_keys h2
    have := (mem_condDict F (k, t)).mp (Dict.get?_mem ht)
    obtain ⟨a, ha, h4⟩ := List.mem_flatMap.mp this
    have hu : Spec.Unmet args k := by simpa using (List.mem_filter.mp h4).2
    obtain ⟨kv, h5, rfl⟩ := List.mem_map.mp h1
    obtain ⟨b, hb, h7⟩ := List.mem_flatMap.mp h5
    exact hu b hb (List.mem_map_of_mem h7)
  keys := by
    intro k
    rw [h.mem, prodKeys_eq F, List.map_append, List.mem_append]
    have : k ∈ Dict.keys (Dict.ofUpdates (condPairs args)) ↔ k ∈ (condPairs args).map Prod.fst := by
      rw [Dict.ofUpdates, mem_keys_foldl_set]; simp
    rw [this]; rfl
  dimNodup := by
    rw [arrDims, keys_zipIdx]; exact nodup_arrays F G
  dimKeys := by
    intro k hk
    rw [arrDims, keys_zipIdx] at hk
    exact (h.mem k).mpr (List.mem_filter.mp hk).1
  single := by
    intro k v hv hs
    have hkp := (h.mem k).mp (Dict.mem_keys_of_get? hv)
    have hna : k ∉ arrKeys args := by
      intro hk
      rw [h.array k hk] at hv
      simp only [Option.some.injEq] at hv
      subst hv
      have := List.idxOf_lt_length_iff.mpr hk
      simp only [Val.issingleton, List.isEmpty_iff] at hs
      have := congrArg List.length hs
      rw [length_axisShape] at this
      simp only [List.length_nil] at this
      omega
    rw [h.other k hkp hna] at hv
    simp only [Option.some.injEq] at hv
    subst hv
    refine ⟨by rw [get?_arrDims F G, if_neg hna]; rfl, ?_⟩
    obtain ⟨_, a, ha, hva⟩ := firstVal_some ((mem_prodKeys F k).mp hkp)
    rcases ((F.wf a ha).single k _ hva hs).2 with hm | hc
    · left
      exact Dict.get?_of_mem (margPairs_side F).1
        (List.mem_flatMap.mpr ⟨a, ha, Dict.get?_mem hm⟩)
    · by_cases hu : Spec.Unmet args k
      · right
        exact get?_condDict F (List.mem_flatMap.mpr ⟨a, ha,
          List.mem_filter.mpr ⟨Dict.get?_mem hc, by simpa using hu⟩⟩)
      · left
        simp only [Spec.Unmet, not_forall, not_not] at hu
        obtain ⟨b, hb, hkb⟩ := hu
        have := F.met a ha b hb k (Dict.mem_keys_of_get? hc) hkb
        rw [hc] at this
        exact Dict.get?_of_mem (margPairs_side F).1
          (List.mem_flatMap.mpr ⟨b, hb, Dict.get?_mem this.symm⟩)
  array := by
    intro k v hv hs
    have hkp := (h.mem k).mp (Dict.mem_keys_of_get? hv)
    have ha : k ∈ arrKeys args := by
      by_contra hna
      rw [h.other k hkp hna] at hv
      simp only [Option.some.injEq] at hv
      subst hv
      apply hna
      exact List.mem_filter.mpr ⟨hkp, by rw [singleKey_eq F hkp, hs]; rfl⟩
    rw [h.array k ha] at hv
    simp only [Option.some.injEq] at hv
    subst hv
    obtain ⟨a, haa, α, hα⟩ := arr_source F ha
    obtain ⟨_, _, _, _, hpos⟩ := arr_axis F haa hα
    refine ⟨_, _, _, rfl, ?_, by rw [get?_arrDims F G, if_pos ha], arrShape_get ha⟩
    rw [foldl_max_axisShape _ _ _ (List.idxOf_lt_length_iff.mpr ha) hpos]
  cover := by
    intro b hb
    rw [length_arrShape] at hb
    refine ⟨(arrKeys args)[b], ?_⟩
    rw [get?_arrDims F G, if_pos (List.getElem_mem hb)]
    have := (nodup_arrays F G).idxOf_getElem b hb
    show (some (some _)).join = _
    simp only [Option.join_some, Option.some.injEq]
    exact this

end Probayes
