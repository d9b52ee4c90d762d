/-
Lemmas for operations that turn the variables of some axes into scalars.
-/
import Verif.Lemmas.PDOps

namespace Probayes

/-- A loop that keeps an invariant about the processed prefix. -/
theorem foldlM_prefix {σ α : Type _} {f : σ → α → Py σ} (I : List α → σ → Prop) {l : List α} {s0 : σ}
    (h0 : I [] s0)
    (hstep : ∀ pre x post st, l = pre ++ x :: post → I pre st →
      ∃ st', f st x = .ok st' ∧ I (pre ++ [x]) st') :
    ∃ st', l.foldlM f s0 = .ok st' ∧ I l st' := by
  have aux : ∀ post pre st, l = pre ++ post → I pre st →
      ∃ st', post.foldlM f st = .ok st' ∧ I l st' := by
    intro post
    induction post with
    | nil => intro pre st hl hI; exact ⟨st, rfl, by rw [hl]; simpa using hI⟩
    | cons x post ih =>
      intro pre st hl hI
      obtain ⟨st', h1, h2⟩ := hstep pre x post st hl hI
      obtain ⟨st'', h3, h4⟩ := ih (pre ++ [x]) st' (by simpa using hl) h2
      exact ⟨st'', by rw [List.foldlM_cons, h1]; exact h3, h4⟩
  exact aux l [] s0 rfl h0

theorem Dict.ext_get? {K V : Type _} [DecidableEq K] {d e : Dict K V} (hn : (Dict.keys d).Nodup)
    (hk : Dict.keys d = Dict.keys e) (hg : ∀ k, Dict.get? d k = Dict.get? e k) : d = e := by
  induction d generalizing e with
  | nil => cases e with
    | nil => rfl
    | cons _ _ => simp at hk
  | cons kv d ih =>
    cases e with
    | nil => simp at hk
    | cons kv' e =>
      obtain ⟨k, v⟩ := kv
      obtain ⟨k', v'⟩ := kv'
      simp only [Dict.keys_cons, List.cons.injEq] at hk
      obtain ⟨rfl, hk⟩ := hk
      have h1 := hg k
      simp only [Dict.get?, if_true, Option.some.injEq] at h1
      subst h1
      simp only [Dict.keys_cons, List.nodup_cons] at hn
      rw [ih hn.2 hk]
      intro k2
      by_cases h2 : k = k2
      · subst h2
        rw [Dict.get?_eq_none.mpr hn.1, Dict.get?_eq_none.mpr (hk ▸ hn.1)]
      · simpa [Dict.get?, h2] using hg k2

theorem nameLoop_to (fmt : Val → Str) (marg cond : Dict Str Str)
    (hdisj : ∀ k ∈ Dict.keys marg, k ∉ Dict.keys cond) (l : Dict Str Val)
    (hl : ∀ kv ∈ l, kv.2.issingleton = true →
      Dict.get? marg kv.1 = some (eqText fmt kv.1 kv.2) ∨
      Dict.get? cond kv.1 = some (eqText fmt kv.1 kv.2)) :
    ∀ m c : Dict Str Str, (Dict.keys m).Nodup → (Dict.keys c).Nodup → Dict.keys m = Dict.keys marg →
      Dict.keys c = Dict.keys cond →
      (∀ k, (∀ kv ∈ l, kv.1 = k → kv.2.issingleton = false) →
        Dict.get? m k = Dict.get? marg k ∧ Dict.get? c k = Dict.get? cond k) →
      l.foldlM (nameStep fmt) (m, c) = .ok (marg, cond) := by
  induction l with
  | nil =>
    intro m c hm hc hkm hkc hg
    rw [List.foldlM_nil, Dict.ext_get? hm hkm fun k => (hg k (by simp)).1,
      Dict.ext_get? hc hkc fun k => (hg k (by simp)).2]
    rfl
  | cons kv l ih =>
    intro m c hm hc hkm hkc hg
    obtain ⟨k, v⟩ := kv
    rw [List.foldlM_cons]
    have hl' := fun kv hkv => hl kv (List.mem_cons_of_mem _ hkv)
    rcases hs : v.issingleton with _ | _
    · have : nameStep fmt (m, c) (k, v) = .ok (m, c) := by simp [nameStep, hs]
      rw [this]
      refine ih hl' m c hm hc hkm hkc ?_
      intro k2 h2
      apply hg
      intro kv hkv he
      rcases List.mem_cons.mp hkv with rfl | hkv
      · exact hs
      · exact h2 kv hkv he
    · rcases hl (k, v) (by simp) hs with h1 | h1
      · have hkm' : k ∈ Dict.keys marg := Dict.mem_keys_of_get? h1
        have hk : k ∈ Dict.keys m := by rw [hkm]; exact hkm'
        have : nameStep fmt (m, c) (k, v) = .ok (Dict.set m k (eqText fmt k v), c) := by
          simp [nameStep, hs, hk]
        rw [this]
        refine ih hl' _ c (Dict.nodup_set hm) hc (by rw [Dict.keys_set_of_mem hk]; exact hkm) hkc ?_
        intro k2 h2
        rw [Dict.get?_set]
        by_cases hk2 : k = k2
        · subst hk2
          rw [if_pos rfl]
          refine ⟨h1.symm, ?_⟩
          rw [Dict.get?_eq_none.mpr (by rw [hkc]; exact hdisj k hkm'),
            Dict.get?_eq_none.mpr (hdisj k hkm')]
        · rw [if_neg hk2]
          apply hg
          intro kv hkv he
          rcases List.mem_cons.mp hkv with rfl | hkv
          · exact absurd he hk2
          · exact h2 kv hkv he
      · have hkc' : k ∈ Dict.keys cond := Dict.mem_keys_of_get? h1
        have hkm' : k ∉ Dict.keys marg := fun h => hdisj k h hkc'
        have hk : k ∉ Dict.keys m := by rw [hkm]; exact hkm'
        have hk' : k ∈ Dict.keys c := by rw [hkc]; exact hkc'
        have : nameStep fmt (m, c) (k, v) = .ok (m, Dict.set c k (eqText fmt k v)) := by
          simp [nameStep, hs, hk, hk']
        rw [this]
        refine ih hl' m _ hm (Dict.nodup_set hc) hkm (by rw [Dict.keys_set_of_mem hk']; exact hkc) ?_
        intro k2 h2
        rw [Dict.get?_set]
        by_cases hk2 : k = k2
        · subst hk2
          rw [if_pos rfl]
          refine ⟨?_, h1.symm⟩
          rw [Dict.get?_eq_none.mpr hk, Dict.get?_eq_none.mpr hkm']
        · rw [if_neg hk2]
          apply hg
          intro kv hkv he
          rcases List.mem_cons.mp hkv with rfl | hkv
          · exact absurd he hk2
          · exact h2 kv hkv he

/-- The text given for a scalar in the name does not matter. -/
theorem pdInit_named {fmt : Val → Str} {marg cond : Dict Str Str} {vals : Dict Str Val}
    {dims : Dict Str (Option ℕ)} {S : List ℕ} (h : BuildArgs fmt marg cond vals dims S)
    {m c : Dict Str Str} (hm : Spec.Side m) (hc : Spec.Side c) (hkm : Dict.keys m = Dict.keys marg)
    (hkc : Dict.keys c = Dict.keys cond)
    (hother : ∀ k v, Dict.get? vals k = some v → v.issingleton = false →
      Dict.get? m k = Dict.get? marg k ∧ Dict.get? c k = Dict.get? cond k) (prob : Arr) (ps : PSpec) :
    pdInit fmt (margcondStr m c) vals (some dims) prob ps =
      pdInit fmt (margcondStr marg cond) vals (some dims) prob ps := by
  obtain ⟨d, h1, h2, _⟩ := distDims_ok h.distReady
  rw [h.noNone] at h2
  have hget : ∀ k, Dict.get? d.vals k = (Dict.get? vals k).map (placeVal dims (maxDim dims) k) := by
    intro k; rw [h2]; exact Dict.get?_map _ _ _
  have hdk : Dict.keys d.vals = Dict.keys vals := by rw [h2, Dict.keys_map]
  have hdn : (Dict.keys d.vals).Nodup := by rw [hdk]; exact h.nodup
  have hsing : ∀ k v, (placeVal dims (maxDim dims) k v).issingleton = v.issingleton := by
    intro k v
    apply issingleton_placeVal
    intro a ha; exact lt_maxDim ha
  have hl : ∀ kv ∈ d.vals, kv.2.issingleton = true →
      Dict.get? marg kv.1 = some (eqText fmt kv.1 kv.2) ∨
      Dict.get? cond kv.1 = some (eqText fmt kv.1 kv.2) := by
    rintro ⟨k, v⟩ hkv hs
    have hv := Dict.get?_of_mem hdn hkv
    rw [hget] at hv
    obtain ⟨u, hu, rfl⟩ := Option.map_eq_some_iff.mp hv
    simp only [hsing] at hs
    have : placeVal dims (maxDim dims) k u = u := by simp [placeVal, hs]
    simp only [this]
    exact (h.single k u hu hs).2
  have e1 := nameLoop_to fmt marg cond h.disj d.vals hl m c hm.1 hc.1 hkm hkc (by
    intro k hk
    rcases hv : Dict.get? vals k with _ | v
    · have : k ∉ Dict.keys vals := Dict.get?_eq_none.mp hv
      have hk1 : k ∉ Dict.keys marg := fun hh => this ((h.keys k).mpr (Or.inl hh))
      have hk2 : k ∉ Dict.keys cond := fun hh => this ((h.keys k).mpr (Or.inr hh))
      rw [Dict.get?_eq_none.mpr hk1, Dict.get?_eq_none.mpr hk2, Dict.get?_eq_none.mpr (by rw [hkm]; exact hk1),
        Dict.get?_eq_none.mpr (by rw [hkc]; exact hk2)]
      exact ⟨rfl, rfl⟩
    · have hg := hget k
      rw [hv] at hg
      have := hk _ (Dict.get?_mem hg) rfl
      simp only [hsing] at this
      exact hother k v hv this)
  have e2 := nameLoop_id fmt marg cond h.disj d.vals hl
  simp only [pdInit, C14_render_parse m c hm hc, C14_render_parse marg cond h.margSide h.condSide,
    bind, Except.bind, h1, e1, e2]

/-- Arguments for dropping the axes `p`: the variables on them become scalars. -/
theorem dropBuild {fmt : Val → Str} {d : PD} (h : d.WF fmt) (hpos : d.Pos) (p : ℕ → Bool)
    {marg cond : Dict Str Str} {vals : Dict Str Val} {dims : Dict Str (Option ℕ)}
    (hvk : Dict.keys vals = Dict.keys d.vals) (hmk : Dict.keys marg = Dict.keys d.marg)
    (hck : Dict.keys cond = Dict.keys d.cond) (hms : Spec.Side marg) (hcs : Spec.Side cond)
    (hdn : (Dict.keys dims).Nodup) (hdk : ∀ k ∈ Dict.keys dims, k ∈ Dict.keys d.vals)
    (hdims : ∀ k, (Dict.get? dims k).join =
      (d.axis k).bind fun a => if p a then none else some (a - dropped p a))
    (hkeep : ∀ k, (∀ a, d.axis k = some a → p a = false) → Dict.get? vals k = Dict.get? d.vals k ∧
      Dict.get? marg k = Dict.get? d.marg k ∧ Dict.get? cond k = Dict.get? d.cond k)
    (hdrop : ∀ k a, d.axis k = some a → p a = true → ∃ v, Dict.get? vals k = some v ∧
      v.issingleton = true ∧
      (Dict.get? marg k = some (eqText fmt k v) ∨ Dict.get? cond k = some (eqText fmt k v))) :
    BuildArgs fmt marg cond vals dims (dropAxes p d.shape) := by
  have hcase : ∀ k, (∀ a, d.axis k = some a → p a = false) ∨ ∃ a, d.axis k = some a ∧ p a = true := by
    intro k
    by_cases hc : ∃ a, d.axis k = some a ∧ p a = true
    · exact Or.inr hc
    · left
      intro a ha
      by_contra h2
      exact hc ⟨a, ha, by simpa using h2⟩
  refine ⟨?_, ?_, ?_, hms, hcs, ?_, ?_, hdn, ?_, ?_, ?_, ?_⟩
  · rintro rfl
    have : d.vals = [] := by
      have : Dict.keys d.vals = [] := by rw [← hvk]; rfl
      simpa [Dict.keys] using this
    exact h.ne this
  · show (Dict.keys vals).Nodup; rw [hvk]; exact h.nodup
  · show ∀ k ∈ Dict.keys vals, _; rw [hvk]; exact h.allowed
  · show ∀ k ∈ Dict.keys marg, k ∉ Dict.keys cond; rw [hmk, hck]; exact h.disj
  · intro k; show k ∈ Dict.keys vals ↔ k ∈ Dict.keys marg ∨ k ∈ Dict.keys cond
    rw [hvk, hmk, hck]; exact h.keys k
  · intro k hk; show k ∈ Dict.keys vals; rw [hvk]; exact hdk k hk
  · intro k v hv hs
    rcases hcase k with hc | ⟨a, ha, hpa⟩
    · obtain ⟨e1, e2, e3⟩ := hkeep k hc
      rw [e1] at hv
      rw [hdims, h.axis_none hv hs, e2, e3]
      exact ⟨rfl, (h.single k v hv hs).2⟩
    · obtain ⟨v', e1, e2, e3⟩ := hdrop k a ha hpa
      rw [e1] at hv
      simp only [Option.some.injEq] at hv
      subst hv
      exact ⟨by rw [hdims, ha]; simp [hpa], e3⟩
  · intro k v hv hs
    rcases hcase k with hc | ⟨a, ha, hpa⟩
    · obtain ⟨e1, _⟩ := hkeep k hc
      rw [e1] at hv
      obtain ⟨s, data, a, e2, e3, e4, e5⟩ := h.size_ok hpos hv hs
      have ha : d.axis k = some a := join_eq_some.mpr e4
      have hpa := hc a ha
      refine ⟨s, data, a - dropped p a, e2, e3, ?_, ?_⟩
      · apply join_eq_some.mp
        rw [hdims, ha]; simp [hpa]
      · rw [getElem?_dropAxes p _ a hpa, e5]
    · obtain ⟨v', e1, e2, _⟩ := hdrop k a ha hpa
      rw [e1] at hv
      simp only [Option.some.injEq] at hv
      subst hv
      rw [e2] at hs; simp at hs
  · intro b hb
    obtain ⟨a, h1, h2, rfl⟩ := exists_kept p d.shape b hb
    rw [h.rank] at h1
    obtain ⟨k, hk⟩ := h.cover a h1
    exact ⟨k, by rw [hdims, hk]; simp [h2]⟩

/-- `r` has the axes of `d` except those selected by `p`. -/
structure Dropped (d r : PD) (p : ℕ → Bool) : Prop where
  shape : r.shape = dropAxes p d.shape
  axis : ∀ k, r.axis k = (d.axis k).bind fun a => if p a then none else some (a - dropped p a)

theorem Dropped.agree {fmt : Val → Str} {d r : PD} {p : ℕ → Bool} (hd : Dropped d r p) (h : d.WF fmt)
    {i j : List ℕ} (hi : i ∈ idx d.shape) (hj : j ∈ idx r.shape) :
    Spec.Agree d r i j ↔ dropAxes p i = j := by
  rw [hd.shape] at hj
  rw [dropAxes_eq_of_agree hi hj]
  constructor
  · intro hag a ha hpa
    rw [h.rank] at ha
    obtain ⟨k, hk⟩ := h.cover a ha
    exact hag k a (a - dropped p a) hk (by rw [hd.axis]; simp [hk, hpa])
  · intro hall k a b ha hb
    rw [hd.axis, ha] at hb
    by_cases hpa : p a = true
    · simp [hpa] at hb
    · simp only [hpa, Option.bind_some, Bool.false_eq_true, if_false, Option.some.injEq] at hb
      subst hb
      exact hall a (by rw [h.rank]; exact h.axis_lt ha) (by simpa using hpa)

theorem Dropped.unique {fmt : Val → Str} {d r : PD} {p : ℕ → Bool} (hd : Dropped d r p) (h : d.WF fmt) :
    ∀ i ∈ idx d.shape, ∃! j, j ∈ idx r.shape ∧ Spec.Agree d r i j := by
  intro i hi
  have hdi : dropAxes p i ∈ idx r.shape := by rw [hd.shape]; exact dropAxes_mem_idx p hi
  refine ⟨dropAxes p i, ⟨hdi, (hd.agree h hi hdi).mpr rfl⟩, ?_⟩
  rintro j ⟨hj, haj⟩
  exact ((hd.agree h hi hj).mp haj).symm

theorem Dropped.onto {fmt : Val → Str} {d r : PD} {p : ℕ → Bool} (hd : Dropped d r p) (h : d.WF fmt)
    (hpos : d.Pos) : ∀ j ∈ idx r.shape, ∃ i ∈ idx d.shape, Spec.Agree d r i j := by
  intro j hj
  obtain ⟨i, h1, h2⟩ := exists_dropAxes hpos (hd.shape ▸ hj)
  exact ⟨i, h1, (hd.agree h h1 hj).mpr h2⟩

theorem Dropped.sizes {d r : PD} {p : ℕ → Bool} (hd : Dropped d r p) : ∀ n ∈ r.shape, n ∈ d.shape := by
  intro n hn
  rw [hd.shape] at hn
  exact mem_of_mem_dropAxes hn

theorem Dropped.order {d r : PD} {p : ℕ → Bool} (hd : Dropped d r p) :
    ∀ k k' a a' b b', d.axis k = some a → d.axis k' = some a' → r.axis k = some b →
    r.axis k' = some b' → (b < b' ↔ a < a') := by
  intro k k' a a' b b' ha ha' hb hb'
  rw [hd.axis, ha] at hb
  rw [hd.axis, ha'] at hb'
  simp only [Option.bind_some] at hb hb'
  by_cases h1 : p a = true
  · simp [h1] at hb
  by_cases h2 : p a' = true
  · simp [h2] at hb'
  simp only [h1, h2, Bool.false_eq_true, if_false, Option.some.injEq] at hb hb'
  rw [← hb, ← hb']
  exact kept_lt_iff (by simpa using h1) (by simpa using h2)

/-- Axes already met in an ordered distribution: `axes` lists, without
repetition, the dropped axes of the keys before `k`. -/
theorem prefix_dropped {fmt : Val → Str} {d : PD} (h : d.WF fmt) {p : ℕ → Bool} {pre post : Dict Str Val}
    {k : Str} {v : Val} (hl : d.vals = pre ++ (k, v) :: post)
    (hord : d.keylist.Pairwise fun k k' => ∀ a b, d.axis k = some a → d.axis k' = some b → a ≤ b)
    {axes : List ℕ} (hnd : axes.Nodup)
    (hmem : ∀ b, b ∈ axes ↔ p b = true ∧ ∃ k' ∈ Dict.keys pre, d.axis k' = some b)
    {a : ℕ} (ha : d.axis k = some a) (hpa : p a = false) : axes.length = dropped p a := by
  have hkl : d.keylist = Dict.keys pre ++ k :: Dict.keys post := by
    show Dict.keys d.vals = _
    rw [hl, Dict.keys_append]; rfl
  rw [hkl, List.pairwise_append] at hord
  obtain ⟨_, h2, h3⟩ := hord
  rw [List.pairwise_cons] at h2
  have hperm : axes.Perm ((List.range a).filter p) := by
    rw [List.perm_ext_iff_of_nodup hnd (List.nodup_range.filter _)]
    intro b
    rw [hmem, List.mem_filter, List.mem_range]
    constructor
    · rintro ⟨hb, k', hk', hk'b⟩
      have := h3 k' hk' k (by simp) b a hk'b ha
      refine ⟨lt_of_le_of_ne this ?_, hb⟩
      rintro rfl
      rw [hpa] at hb; simp at hb
    · rintro ⟨hlt, hb⟩
      refine ⟨hb, ?_⟩
      have hbn : b < d.ndim := lt_trans hlt (h.axis_lt ha)
      obtain ⟨k', hk'⟩ := h.cover b hbn
      refine ⟨k', ?_, hk'⟩
      have hkm : k' ∈ d.keylist := h.dimKeys k' (Dict.mem_keys_of_get? (join_eq_some.mp hk'))
      rw [hkl, List.mem_append, List.mem_cons] at hkm
      rcases hkm with hh | rfl | hh
      · exact hh
      · rw [ha] at hk'; simp only [Option.some.injEq] at hk'; omega
      · have := h2.1 k' hh a b ha hk'; omega
  rw [hperm.length_eq, dropped, List.countP_eq_length_filter]

end Probayes
