/-
When the constructor is called with consistent arguments it succeeds and gives a
well-formed distribution.
-/
import Verif.Props.PDInit

namespace Probayes

/-- Consistent constructor arguments. -/
structure BuildArgs (fmt : Val → Str) (marg cond : Dict Str Str) (vals : Dict Str Val)
    (dims : Dict Str (Option ℕ)) (S : List ℕ) : Prop where
  ne : vals ≠ []
  nodup : vals.keys.Nodup
  allowed : ∀ k ∈ vals.keys, k ∉ disallowed
  margSide : Spec.Side marg
  condSide : Spec.Side cond
  disj : ∀ k ∈ marg.keys, k ∉ cond.keys
  keys : ∀ k, k ∈ vals.keys ↔ k ∈ marg.keys ∨ k ∈ cond.keys
  dimNodup : dims.keys.Nodup
  dimKeys : ∀ k ∈ dims.keys, k ∈ vals.keys
  single : ∀ k v, Dict.get? vals k = some v → v.issingleton = true →
    (Dict.get? dims k).join = none ∧
    (Dict.get? marg k = some (eqText fmt k v) ∨ Dict.get? cond k = some (eqText fmt k v))
  array : ∀ k v, Dict.get? vals k = some v → v.issingleton = false →
    ∃ s data a, v = .arr s data ∧ data.length = s.foldl max 0 ∧
      Dict.get? dims k = some (some a) ∧ S[a]? = some data.length
  cover : ∀ a < S.length, ∃ k, (Dict.get? dims k).join = some a

theorem foldl_max_le (l : List ℕ) : ∀ m, m ≤ l.foldl max m ∧ ∀ x ∈ l, x ≤ l.foldl max m := by
  induction l with
  | nil => simp
  | cons y l ih =>
    intro m
    obtain ⟨h1, h2⟩ := ih (max m y)
    refine ⟨by simp only [List.foldl_cons]; omega, ?_⟩
    intro x hx
    simp only [List.foldl_cons]
    rcases List.mem_cons.mp hx with rfl | hx
    · omega
    · exact h2 x hx

theorem foldl_max_bound (l : List ℕ) (b : ℕ) (h : ∀ x ∈ l, x ≤ b) :
    ∀ m ≤ b, l.foldl max m ≤ b := by
  induction l with
  | nil => intro m hm; simpa using hm
  | cons y l ih =>
    intro m hm
    simp only [List.foldl_cons]
    exact ih (fun x hx => h x (by simp [hx])) _ (by have := h y (by simp); omega)

theorem foldl_max_axisShape (n a m : ℕ) (ha : a < n) (hm : 0 < m) :
    (axisShape n a m).foldl max 0 = m := by
  apply le_antisymm
  · apply foldl_max_bound _ _ _ _ (Nat.zero_le _)
    intro x hx
    rw [axisShape] at hx
    rcases List.mem_or_eq_of_mem_set hx with h | h
    · have := List.eq_of_mem_replicate h; omega
    · omega
  · apply (foldl_max_le _ 0).2
    rw [axisShape, List.mem_iff_getElem?]
    exact ⟨a, List.getElem?_set_self (by simpa using ha)⟩

theorem fixVals_id {vals : Dict Str Val} (h : ∀ kv ∈ vals, kv.2 ≠ .setnone) : fixVals vals = vals := by
  unfold fixVals
  conv_rhs => rw [← List.map_id vals]
  apply List.map_congr_left
  intro kv hkv
  obtain ⟨k, v⟩ := kv
  have := h _ hkv
  rcases v with x | x | x | _ | ⟨s, d⟩ | _ <;> simp_all [Val.fixNone]

theorem nameLoop_id (fmt : Val → Str) (marg cond : Dict Str Str)
    (hdisj : ∀ k ∈ marg.keys, k ∉ cond.keys) (l : Dict Str Val)
    (h : ∀ kv ∈ l, kv.2.issingleton = true →
      Dict.get? marg kv.1 = some (eqText fmt kv.1 kv.2) ∨
      Dict.get? cond kv.1 = some (eqText fmt kv.1 kv.2)) :
    l.foldlM (nameStep fmt) (marg, cond) = .ok (marg, cond) := by
  induction l with
  | nil => rfl
  | cons kv l ih =>
    have : nameStep fmt (marg, cond) kv = .ok (marg, cond) := by
      unfold nameStep
      rcases hs : kv.2.issingleton with _ | _
      · simp
      · simp only [if_true]
        rcases h kv (by simp) hs with hm | hc
        · have hk : kv.1 ∈ marg.keys := Dict.get?_isSome.mp (by rw [hm]; rfl)
          rw [if_pos hk, Dict.set_of_get? hm]
        · have hk : kv.1 ∈ cond.keys := Dict.get?_isSome.mp (by rw [hc]; rfl)
          have hnk : kv.1 ∉ marg.keys := fun hm => hdisj _ hm hk
          rw [if_neg hnk, if_pos hk, Dict.set_of_get? hc]
    rw [List.foldlM_cons, this]
    exact ih (fun kv' h' => h kv' (by simp [h']))

theorem Dict.get?_of_mem_keys {K V : Type _} [DecidableEq K] {d : Dict K V} {k : K}
    (h : k ∈ Dict.keys d) : ∃ v, Dict.get? d k = some v :=
  Option.isSome_iff_exists.mp (Dict.get?_isSome.mpr h)

theorem Dict.mem_keys_of_get? {K V : Type _} [DecidableEq K] {d : Dict K V} {k : K} {v : V}
    (h : Dict.get? d k = some v) : k ∈ Dict.keys d :=
  Dict.get?_isSome.mp (by rw [h]; rfl)

theorem join_eq_some {o : Option (Option ℕ)} {a : ℕ} : o.join = some a ↔ o = some (some a) := by
  rcases o with _ | _ | b <;> simp

variable {fmt : Val → Str} {marg cond : Dict Str Str} {vals : Dict Str Val}
  {dims : Dict Str (Option ℕ)} {S : List ℕ}

theorem BuildArgs.axisArray (h : BuildArgs fmt marg cond vals dims S) {k : Str} {a : ℕ}
    (hk : (Dict.get? dims k).join = some a) :
    ∃ v s data, Dict.get? vals k = some v ∧ v.issingleton = false ∧ v = .arr s data ∧
      data.length = s.foldl max 0 ∧ S[a]? = some data.length := by
  rw [join_eq_some] at hk
  obtain ⟨v, hv⟩ := Dict.get?_of_mem_keys (h.dimKeys k (Dict.mem_keys_of_get? hk))
  rcases hs : v.issingleton with _ | _
  · obtain ⟨s, data, b, h1, h2, h3, h4⟩ := h.array k v hv hs
    rw [hk] at h3
    simp only [Option.some.injEq] at h3
    subst h3
    exact ⟨v, s, data, hv, hs, h1, h2, h4⟩
  · have := (h.single k v hv hs).1
    rw [hk] at this
    simp at this

theorem BuildArgs.maxDim (h : BuildArgs fmt marg cond vals dims S) : maxDim dims = S.length := by
  apply maxDim_eq
  · intro k a hka
    obtain ⟨_, _, data, _, _, _, _, hS⟩ := h.axisArray (join_eq_some.mpr (Dict.get?_of_mem h.dimNodup hka))
    by_contra hc
    rw [List.getElem?_eq_none (by omega)] at hS
    simp at hS
  · intro a ha
    obtain ⟨k, hk⟩ := h.cover a ha
    exact ⟨k, join_eq_some.mp hk⟩

theorem BuildArgs.noNone (h : BuildArgs fmt marg cond vals dims S) : fixVals vals = vals := by
  apply fixVals_id
  rintro ⟨k, v⟩ hkv rfl
  obtain ⟨s, data, a, h1, _⟩ := h.array k _ (Dict.get?_of_mem h.nodup hkv) rfl
  simp at h1

theorem BuildArgs.distReady (h : BuildArgs fmt marg cond vals dims S) : DistReady vals dims S where
  ne := h.ne
  nodup := h.nodup
  allowed := h.allowed
  entries := by
    rw [h.noNone]
    rintro ⟨k, v⟩ hkv
    have hg := Dict.get?_of_mem h.nodup hkv
    rcases hs : v.issingleton with _ | _
    · obtain ⟨s, data, a, h1, h2, h3, h4⟩ := h.array k v hg hs
      exact Or.inr ⟨hs, s, data, a, h1, h2, h3⟩
    · exact Or.inl ⟨hs, (h.single k v hg hs).1⟩
  sizes := by
    rw [h.noNone]
    rintro ⟨k, v⟩ hkv hs s data a hv ha
    have hg := Dict.get?_of_mem h.nodup hkv
    obtain ⟨s', data', a', h1, h2, h3, h4⟩ := h.array k v hg hs
    simp only at hv ha
    rw [ha] at h3
    rw [hv] at h1
    simp only [Option.some.injEq, Val.arr.injEq] at h1 h3
    rw [h3, h1.2]; exact h4
  len := h.maxDim.symm
  cover := by
    rw [h.noNone, h.maxDim]
    intro a ha
    obtain ⟨k, hk⟩ := h.cover a ha
    obtain ⟨v, s, data, hv, hs, _⟩ := h.axisArray hk
    exact ⟨(k, v), Dict.get?_mem hv, hs, join_eq_some.mp hk⟩

theorem nodup_foldl_dimsAfter (l : Dict Str Val) :
    ∀ dims : Dict Str (Option ℕ), (Dict.keys dims).Nodup → (Dict.keys (l.foldl dimsAfter dims)).Nodup := by
  induction l with
  | nil => intro dims h; exact h
  | cons kv l ih =>
    intro dims h
    rw [List.foldl_cons]
    apply ih
    unfold dimsAfter
    split
    · split
      · exact Dict.nodup_set h
      · exact h
    · exact h

/-- The constructor on consistent arguments. -/
theorem pdInit_ok (h : BuildArgs fmt marg cond vals dims S) (prob : Arr) (hp : prob.shape = S)
    (ps : PSpec) (p : PScale) (hps : evalPscale ps = .ok p) :
    ∃ r, pdInit fmt (margcondStr marg cond) vals (some dims) prob ps = .ok r ∧
      r.WF fmt ∧ r.marg = marg ∧ r.cond = cond ∧
      r.vals = vals.map (fun kv => (kv.1, placeVal dims S.length kv.1 kv.2)) ∧
      (∀ k, r.axis k = (Dict.get? dims k).join) ∧ r.shape = S ∧ r.prob = prob ∧ r.pscale = p := by
  obtain ⟨d, h1, h2, h3, h4, h5, h6, h7, h8⟩ := distDims_ok h.distReady
  rw [h.noNone] at h2 h3 h7 h8
  rw [h.maxDim] at h2 h4
  have hdims : ∀ k, Dict.get? d.dims k = (Dict.get? dims k).or
        (match Dict.get? vals k with
         | some v => if v.issingleton then some none else none
         | none => none) := by
    intro k; rw [h3]; exact get?_foldl_dimsAfter vals dims h.nodup k
  have haxis : ∀ k, (Dict.get? d.dims k).join = (Dict.get? dims k).join := by
    intro k
    rw [hdims]
    rcases hd : Dict.get? dims k with _ | o
    · simp only [Option.none_or]
      split
      · split <;> rfl
      · rfl
    · simp
  have hget : ∀ k, Dict.get? d.vals k = (Dict.get? vals k).map (placeVal dims S.length k) := by
    intro k; rw [h2]; exact Dict.get?_map _ _ _
  have hsing : ∀ k v, (placeVal dims S.length k v).issingleton = v.issingleton := by
    intro k v
    apply issingleton_placeVal
    intro a ha; rw [← h.maxDim]; exact lt_maxDim ha
  have hnames : d.vals.foldlM (nameStep fmt) (marg, cond) = .ok (marg, cond) := by
    apply nameLoop_id fmt marg cond h.disj
    rintro ⟨k, v⟩ hkv hs
    rw [h2] at hkv
    obtain ⟨⟨k', u⟩, hu, he⟩ := List.mem_map.mp hkv
    simp only [Prod.mk.injEq] at he
    obtain ⟨rfl, rfl⟩ := he
    simp only [hsing] at hs
    have : placeVal dims S.length k' u = u := by simp [placeVal, hs]
    simp only [this]
    exact (h.single k' u (Dict.get?_of_mem h.nodup hu) hs).2
  have hprob : probOK d prob = true := by
    unfold probOK
    by_cases hall : vals.all (fun kv => kv.2.issingleton) = true
    · rw [h8, if_pos hall]
      have : S = [] := by
        rcases S with _ | ⟨n, S⟩
        · rfl
        · obtain ⟨k, hk⟩ := h.cover 0 (by simp)
          obtain ⟨v, s, data, hv, hs, _⟩ := h.axisArray hk
          rw [List.all_eq_true] at hall
          have := hall _ (Dict.get?_mem hv)
          rw [hs] at this; simp at this
      simp [Arr.isscalar, hp, this]
    · rw [h8, if_neg hall]
      simp only [List.all_eq_true, not_forall] at hall
      obtain ⟨⟨k, v⟩, hkv, hs⟩ := hall
      have hs' : v.issingleton = false := by simpa using hs
      obtain ⟨s, data, a, _, _, _, ha⟩ := h.array k v (Dict.get?_of_mem h.nodup hkv) hs'
      have hSne : S ≠ [] := by rintro rfl; simp at ha
      have hvne : d.vals ≠ [] := by rw [h2]; simpa using h.ne
      simp [Arr.isscalar, hp, hSne, hvne, h4, h5]
  refine ⟨⟨margcondStr marg cond, marg, cond, d, prob, p⟩, ?_, ?_, rfl, rfl, h2, haxis, h5, rfl, rfl⟩
  · simp only [pdInit, C14_render_parse marg cond h.margSide h.condSide, bind, Except.bind, h1,
      hnames, hps, if_pos hprob, pure, Except.pure]
  · have hkeys : Dict.keys d.vals = Dict.keys vals := by rw [h2, Dict.keys_map]
    refine ⟨?_, ?_, ?_, h.margSide, h.condSide, h.disj, ?_, ?_, ?_, ?_, ?_, ?_, ?_, ?_, ?_, ?_, hp.trans h5.symm, C03_idempotent _ _ hps, rfl⟩
    · show d.vals ≠ []; rw [h2]; simpa using h.ne
    · show (Dict.keys d.vals).Nodup; rw [hkeys]; exact h.nodup
    · show ∀ k ∈ Dict.keys d.vals, _; rw [hkeys]; exact h.allowed
    · intro k; show k ∈ Dict.keys d.vals ↔ _; rw [hkeys]; exact h.keys k
    · show (Dict.keys d.dims).Nodup; rw [h3]; exact nodup_foldl_dimsAfter _ _ h.dimNodup
    · intro k hk
      show k ∈ Dict.keys d.vals
      rw [hkeys]
      have hk' : k ∈ Dict.keys d.dims := hk
      rw [h3] at hk'
      rcases keys_foldl_dimsAfter vals dims k hk' with hh | hh
      · exact h.dimKeys k hh
      · exact hh
    · intro k v hkv hs
      have hkv' : Dict.get? d.vals k = some v := hkv
      rw [hget] at hkv'
      obtain ⟨u, hu, rfl⟩ := Option.map_eq_some_iff.mp hkv'
      rw [hsing] at hs
      have : placeVal dims S.length k u = u := by simp [placeVal, hs]
      rw [this]
      refine ⟨?_, (h.single k u hu hs).2⟩
      show Dict.get? d.dims k = some none
      rw [hdims, hu]
      have hj := (h.single k u hu hs).1
      rcases hd : Dict.get? dims k with _ | _ | b
      · simp [hs]
      · simp
      · rw [hd] at hj; simp at hj
    · intro k v hkv hs
      have hkv' : Dict.get? d.vals k = some v := hkv
      rw [hget] at hkv'
      obtain ⟨u, hu, rfl⟩ := Option.map_eq_some_iff.mp hkv'
      rw [hsing] at hs
      obtain ⟨s, data, a, rfl, _, ha, hSa⟩ := h.array k u hu hs
      have hlt : a < S.length := by
        by_contra hc
        rw [List.getElem?_eq_none (by omega)] at hSa; simp at hSa
      refine ⟨a, axisShape S.length a data.length, data, ?_, ?_, ?_, ?_⟩
      · simp only [placeVal, hs, ha, Bool.false_eq_true, if_false]
      · intro hpos; exact (foldl_max_axisShape _ _ _ hlt hpos).symm
      · show Dict.get? d.dims k = some (some a)
        rw [hdims, ha]; rfl
      · show d.shape[a]? = some data.length
        rw [h5]; exact hSa
    · intro a ha
      have ha' : a < d.ndim := ha
      rw [h4] at ha'
      obtain ⟨k, hk⟩ := h.cover a ha'
      exact ⟨k, (haxis k).trans hk⟩
    · show d.shape.length = d.ndim; rw [h5, h4]
    · show d.size = d.shape.prod; rw [h6, h5]
    · show d.aresingleton = _
      rw [h7]
      show _ = d.vals.map _
      rw [h2, List.map_map]
      apply List.map_congr_left
      intro kv _; simp [hsing]
    · show d.issingleton = _
      rw [h8]
      show _ = d.vals.all _
      rw [h2, List.all_map]
      congr 1
      funext kv; simp [hsing]

theorem flat_placeVal (k : Str) (v : Val) :
    (∀ a, Dict.get? dims k = some (some a) → a < S.length) →
    (placeVal dims S.length k v).flat = v.flat := by
  intro hlt
  unfold placeVal
  split
  · rfl
  · rename_i hs
    split
    · rename_i s data a hg
      have := hlt a hg
      have h1 : axisShape S.length a data.length ≠ [] := by
        intro hc
        have hc' := congrArg List.length hc
        simp only [axisShape, List.length_set, List.length_replicate, List.length_nil] at hc'
        omega
      have h2 : s ≠ [] := by rintro rfl; simp [Val.issingleton] at hs
      rcases hx : axisShape S.length a data.length with _ | ⟨y, t⟩
      · exact absurd hx h1
      · rcases s with _ | ⟨z, u⟩
        · exact absurd rfl h2
        · rfl
    · rfl

/-- Values are those given. -/
theorem BuildArgs.values (h : BuildArgs fmt marg cond vals dims S) {r : PD}
    (hr : r.vals = vals.map (fun kv => (kv.1, placeVal dims S.length kv.1 kv.2))) (k : Str) :
    r.values k = (Dict.get? vals k).map Val.flat := by
  unfold PD.values
  rw [hr, Dict.get?_map]
  rcases Dict.get? vals k with _ | v
  · rfl
  · simp only [Option.map_some]
    rw [flat_placeVal k v (fun a ha => by rw [← h.maxDim]; exact lt_maxDim ha)]

/-- Values lie on their axes. -/
theorem BuildArgs.placed (h : BuildArgs fmt marg cond vals dims S) {r : PD} (hwf : r.WF fmt)
    (hr : r.vals = vals.map (fun kv => (kv.1, placeVal dims S.length kv.1 kv.2)))
    (hax : ∀ k, r.axis k = (Dict.get? dims k).join) (hs : r.shape = S) : r.Placed := by
  intro k a ha
  rw [hax] at ha
  obtain ⟨v, s, data, h1, h2, rfl, _, _⟩ := h.axisArray ha
  refine ⟨data, ?_⟩
  rw [hr, Dict.get?_map, h1, ← hwf.rank, hs]
  simp [placeVal, h2, join_eq_some.mp ha]

/-! Facts about well-formed distributions. -/

namespace PD.WF
variable {d : PD}

theorem axis_some (h : d.WF fmt) {k : Str} {a : ℕ} (hk : d.axis k = some a) :
    ∃ s data, Dict.get? d.vals k = some (.arr s data) ∧ s ≠ [] ∧
      d.shape[a]? = some data.length ∧ a < d.ndim ∧ Dict.get? d.dims k = some (some a) := by
  have hk' := join_eq_some.mp hk
  obtain ⟨v, hv⟩ := Dict.get?_of_mem_keys (h.dimKeys k (Dict.mem_keys_of_get? hk'))
  rcases hs : v.issingleton with _ | _
  · obtain ⟨b, s, data, h1, _, h2, h3⟩ := h.array k v hv hs
    rw [hk'] at h2
    simp only [Option.some.injEq] at h2
    subst h2
    refine ⟨s, data, by rw [hv, h1], by rintro rfl; rw [h1] at hs; simp [Val.issingleton] at hs,
      h3, ?_, hk'⟩
    by_contra hc
    rw [List.getElem?_eq_none (by rw [h.rank]; omega)] at h3
    simp at h3
  · rw [(h.single k v hv hs).1] at hk'
    simp at hk'

theorem axis_lt (h : d.WF fmt) {k : Str} {a : ℕ} (hk : d.axis k = some a) : a < d.ndim :=
  (h.axis_some hk).choose_spec.choose_spec.2.2.2.1

theorem axis_isSome (h : d.WF fmt) {k : Str} {v : Val} (hk : Dict.get? d.vals k = some v)
    (hs : v.issingleton = false) : ∃ a, d.axis k = some a := by
  obtain ⟨a, s, data, _, _, h2, _⟩ := h.array k v hk hs
  exact ⟨a, join_eq_some.mpr h2⟩

theorem axis_none (h : d.WF fmt) {k : Str} {v : Val} (hk : Dict.get? d.vals k = some v)
    (hs : v.issingleton = true) : d.axis k = none := by
  have := (h.single k v hk hs).1
  simp [PD.axis, this]

theorem axis_single (h : d.WF fmt) {k : Str} {v : Val} (hk : Dict.get? d.vals k = some v) :
    v.issingleton = true ↔ d.axis k = none := by
  constructor
  · exact h.axis_none hk
  · intro ha
    by_contra hc
    obtain ⟨a, h1⟩ := h.axis_isSome hk (by simpa using hc)
    rw [ha] at h1; simp at h1

/-- Arrays of a well-formed distribution without empty axes pass the size check. -/
theorem size_ok (h : d.WF fmt) (hp : d.Pos) {k : Str} {v : Val} (hk : Dict.get? d.vals k = some v)
    (hs : v.issingleton = false) : ∃ s data a, v = .arr s data ∧ data.length = s.foldl max 0 ∧
      Dict.get? d.dims k = some (some a) ∧ d.shape[a]? = some data.length := by
  obtain ⟨a, s, data, h1, h4, h2, h3⟩ := h.array k v hk hs
  exact ⟨s, data, a, h1, h4 (hp _ (List.mem_of_getElem? h3)), h2, h3⟩

end PD.WF
end Probayes
