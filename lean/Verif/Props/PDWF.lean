/-
C13, continued: distributions built from a name that lists their variables are
well-formed (`PD.WF`), which is what the theorems about operations assume.
-/
import Verif.Lemmas.PDBuild

namespace Probayes

/-- The name lists exactly the variables, on distinct sides, and the text of
every scalar entry is well formed. -/
structure Spec.Named (fmt : Val → Str) (name : Str) (vals : Dict Str Val)
    (marg cond : Dict Str Str) : Prop where
  parse : strMargcond name = .ok (marg, cond)
  margSide : Spec.Side marg
  condSide : Spec.Side cond
  disj : ∀ k ∈ marg.keys, k ∉ cond.keys
  keys : ∀ k, k ∈ vals.keys ↔ k ∈ marg.keys ∨ k ∈ cond.keys
  entry : ∀ kv ∈ vals, kv.2.fixNone.issingleton = true →
    Spec.Entry kv.1 (eqText fmt kv.1 kv.2.fixNone)

/-- What an entry of the name becomes. -/
def Spec.Text (fmt : Val → Str) (side : Dict Str Str) (l : Dict Str Val) (kv : Str × Str) : Prop :=
  kv ∈ side ∨ ∃ v, (kv.1, v) ∈ l ∧ v.issingleton = true ∧ kv.2 = eqText fmt kv.1 v

theorem mem_set {K V : Type _} [DecidableEq K] {d : Dict K V} {k : K} {v : V} {kv : K × V}
    (h : kv ∈ Dict.set d k v) : kv ∈ d ∨ kv = (k, v) := by
  induction d with
  | nil => simp [Dict.set] at h; exact Or.inr h
  | cons kv' d ih =>
    obtain ⟨k', v'⟩ := kv'
    by_cases hk : k' = k
    · simp only [Dict.set, hk, if_true, List.mem_cons] at h
      rcases h with h | h
      · exact Or.inr h
      · exact Or.inl (by simp [h])
    · simp only [Dict.set, hk, if_false, List.mem_cons] at h
      rcases h with h | h
      · exact Or.inl (by simp [h])
      · rcases ih h with h | h
        · exact Or.inl (by simp [h])
        · exact Or.inr h

theorem nameLoop_inv (fmt : Val → Str) (l : Dict Str Val) :
    ∀ (m c m' c' : Dict Str Str), (Dict.keys l).Nodup → (∀ k ∈ Dict.keys m, k ∉ Dict.keys c) →
      l.foldlM (nameStep fmt) (m, c) = .ok (m', c') →
      Dict.keys m' = Dict.keys m ∧ Dict.keys c' = Dict.keys c ∧
      (∀ k v, (k, v) ∈ l → v.issingleton = true →
        Dict.get? m' k = some (eqText fmt k v) ∨ Dict.get? c' k = some (eqText fmt k v)) ∧
      (∀ kv ∈ m', Spec.Text fmt m l kv) ∧ (∀ kv ∈ c', Spec.Text fmt c l kv) ∧
      (∀ k, k ∉ Dict.keys l → Dict.get? m' k = Dict.get? m k ∧ Dict.get? c' k = Dict.get? c k) := by
  induction l with
  | nil =>
    intro m c m' c' _ _ h
    simp only [List.foldlM_nil, pure, Except.pure, Except.ok.injEq, Prod.mk.injEq] at h
    obtain ⟨rfl, rfl⟩ := h
    exact ⟨rfl, rfl, by simp, fun kv h => Or.inl h, fun kv h => Or.inl h, fun _ _ => ⟨rfl, rfl⟩⟩
  | cons kv l ih =>
    obtain ⟨k, v⟩ := kv
    intro m c m' c' hn hd h
    rw [List.foldlM_cons] at h
    simp only [Dict.keys_cons, List.nodup_cons] at hn
    have lift : ∀ (s s' : Dict Str Str), (∀ kv ∈ s', kv ∈ s ∨ kv = (k, eqText fmt k v) ∧ v.issingleton = true) →
        ∀ t : Dict Str Str, (∀ kv ∈ t, Spec.Text fmt s' l kv) →
        ∀ kv ∈ t, Spec.Text fmt s ((k, v) :: l) kv := by
      intro s s' hs t ht kv hkv
      rcases ht kv hkv with h1 | ⟨u, h1, h2, h3⟩
      · rcases hs kv h1 with h2 | ⟨rfl, h2⟩
        · exact Or.inl h2
        · exact Or.inr ⟨v, by simp, h2, rfl⟩
      · exact Or.inr ⟨u, by simp [h1], h2, h3⟩
    rcases hs : v.issingleton with _ | _
    · simp only [nameStep, hs, Bool.false_eq_true, if_false, bind, Except.bind] at h
      obtain ⟨g1, g2, g3, g4, g5, g6⟩ := ih m c m' c' hn.2 hd h
      refine ⟨g1, g2, ?_, lift m m (fun _ h => Or.inl h) m' g4, lift c c (fun _ h => Or.inl h) c' g5, ?_⟩
      · intro k' v' hkv hs'
        simp only [List.mem_cons, Prod.mk.injEq] at hkv
        rcases hkv with ⟨rfl, rfl⟩ | hkv
        · rw [hs] at hs'; simp at hs'
        · exact g3 k' v' hkv hs'
      · intro k' hk'
        simp only [Dict.keys_cons, List.mem_cons, not_or] at hk'
        exact g6 k' hk'.2
    · simp only [nameStep, hs, if_true] at h
      by_cases hm : k ∈ Dict.keys m
      · simp only [hm, if_true, bind, Except.bind] at h
        have hks : Dict.keys (Dict.set m k (eqText fmt k v)) = Dict.keys m := by
          rw [Dict.keys_set, if_pos hm]
        obtain ⟨g1, g2, g3, g4, g5, g6⟩ := ih _ c m' c' hn.2 (by rw [hks]; exact hd) h
        refine ⟨g1.trans hks, g2, ?_, lift m _ ?_ m' g4, lift c c (fun _ h => Or.inl h) c' g5, ?_⟩
        · intro k' v' hkv hs'
          simp only [List.mem_cons, Prod.mk.injEq] at hkv
          rcases hkv with ⟨rfl, rfl⟩ | hkv
          · left; rw [(g6 k' hn.1).1, Dict.get?_set]; simp
          · exact g3 k' v' hkv hs'
        · intro kv hkv
          rcases mem_set hkv with h | h
          · exact Or.inl h
          · exact Or.inr ⟨h, hs⟩
        · intro k' hk'
          simp only [Dict.keys_cons, List.mem_cons, not_or] at hk'
          obtain ⟨e1, e2⟩ := g6 k' hk'.2
          refine ⟨?_, e2⟩
          rw [e1, Dict.get?_set]; simp [Ne.symm hk'.1, hk'.1]
      · by_cases hc : k ∈ Dict.keys c
        · simp only [hm, hc, if_true, if_false, bind, Except.bind] at h
          have hks : Dict.keys (Dict.set c k (eqText fmt k v)) = Dict.keys c := by
            rw [Dict.keys_set, if_pos hc]
          obtain ⟨g1, g2, g3, g4, g5, g6⟩ := ih m _ m' c' hn.2 (by rw [hks]; exact hd) h
          refine ⟨g1, g2.trans hks, ?_, lift m m (fun _ h => Or.inl h) m' g4, lift c _ ?_ c' g5, ?_⟩
          · intro k' v' hkv hs'
            simp only [List.mem_cons, Prod.mk.injEq] at hkv
            rcases hkv with ⟨rfl, rfl⟩ | hkv
            · right; rw [(g6 k' hn.1).2, Dict.get?_set]; simp
            · exact g3 k' v' hkv hs'
          · intro kv hkv
            rcases mem_set hkv with h | h
            · exact Or.inl h
            · exact Or.inr ⟨h, hs⟩
          · intro k' hk'
            simp only [Dict.keys_cons, List.mem_cons, not_or] at hk'
            obtain ⟨e1, e2⟩ := g6 k' hk'.2
            refine ⟨e1, ?_⟩
            rw [e2, Dict.get?_set]; simp [Ne.symm hk'.1, hk'.1]
        · simp [hm, hc, bind, Except.bind] at h

theorem pdInit_inv' {fmt : Val → Str} {name : Str} {vals : Dict Str Val}
    {dims : Option (Dict Str (Option ℕ))} {prob : Arr} {ps : PSpec} {d : PD}
    (h : pdInit fmt name vals dims prob ps = .ok d) :
    ∃ mc, strMargcond name = .ok mc ∧ d.dist.vals.foldlM (nameStep fmt) mc = .ok (d.marg, d.cond) ∧
      d.name = margcondStr d.marg d.cond := by
  simp only [pdInit, bind, Except.bind] at h
  rcases h1 : strMargcond name with e | mc <;> simp only [h1] at h
  · simp at h
  rcases h2 : distDims vals dims with e | dist <;> simp only [h2] at h
  · simp at h
  rcases h3 : dist.vals.foldlM (nameStep fmt) mc with e | mc' <;> simp only [h3] at h
  · simp at h
  rcases h4 : evalPscale ps with e | p <;> simp only [h4] at h
  · simp at h
  by_cases h5 : probOK dist prob = true
  · rw [if_pos h5] at h
    simp only [pure, Except.pure, Except.ok.injEq] at h
    subst h
    exact ⟨mc, rfl, h3, rfl⟩
  · rw [if_neg h5] at h; simp at h

/-- The parts of well-formedness that concern the name. -/
theorem named_wf {fmt : Val → Str} {name : Str} {vals : Dict Str Val}
    {dims : Option (Dict Str (Option ℕ))} {prob : Arr} {ps : PSpec} {d : PD}
    {marg cond : Dict Str Str} (h : pdInit fmt name vals dims prob ps = .ok d)
    (hn : Spec.Named fmt name vals marg cond) (hnd : (Dict.keys vals).Nodup)
    (hkeys : Dict.keys d.vals = Dict.keys vals)
    (hsing : ∀ k v, (k, v) ∈ d.vals → v.issingleton = true →
      ∃ u, (k, u) ∈ vals ∧ u.fixNone = v) :
    Spec.Side d.marg ∧ Spec.Side d.cond ∧ (∀ k ∈ d.marg.keys, k ∉ d.cond.keys) ∧
    (∀ k, k ∈ d.vals.keys ↔ k ∈ d.marg.keys ∨ k ∈ d.cond.keys) ∧
    (∀ k v, Dict.get? d.vals k = some v → v.issingleton = true →
      (Dict.get? d.marg k = some (eqText fmt k v) ∨ Dict.get? d.cond k = some (eqText fmt k v))) ∧
    d.name = margcondStr d.marg d.cond ∧
    Dict.keys d.marg = Dict.keys marg ∧ Dict.keys d.cond = Dict.keys cond := by
  obtain ⟨mc, h1, h2, h3⟩ := pdInit_inv' h
  rw [hn.parse] at h1
  simp only [Except.ok.injEq] at h1
  subst h1
  obtain ⟨g1, g2, g3, g4, g5, _⟩ := nameLoop_inv fmt _ _ _ _ _ (by
    show (Dict.keys d.vals).Nodup; rw [hkeys]; exact hnd) hn.disj h2
  have hentry : ∀ kv : Str × Str, (∃ v, (kv.1, v) ∈ d.vals ∧ v.issingleton = true ∧
      kv.2 = eqText fmt kv.1 v) → Spec.Entry kv.1 kv.2 := by
    rintro kv ⟨v, e1, e2, e3⟩
    obtain ⟨u, e4, rfl⟩ := hsing _ _ e1 e2
    rw [e3]
    exact hn.entry _ e4 e2
  refine ⟨⟨?_, ?_⟩, ⟨?_, ?_⟩, ?_, ?_, ?_, h3, g1, g2⟩
  · show (Dict.keys d.marg).Nodup; rw [g1]; exact hn.margSide.1
  · intro kv hkv
    rcases g4 kv hkv with e | e
    · exact hn.margSide.2 kv e
    · exact hentry kv e
  · show (Dict.keys d.cond).Nodup; rw [g2]; exact hn.condSide.1
  · intro kv hkv
    rcases g5 kv hkv with e | e
    · exact hn.condSide.2 kv e
    · exact hentry kv e
  · show ∀ k ∈ Dict.keys d.marg, k ∉ Dict.keys d.cond
    rw [g1, g2]; exact hn.disj
  · intro k
    show k ∈ Dict.keys d.vals ↔ k ∈ Dict.keys d.marg ∨ k ∈ Dict.keys d.cond
    rw [g1, g2, hkeys]; exact hn.keys k
  · intro k v hkv hs
    exact g3 k v (Dict.get?_mem hkv) hs

theorem mem_keys_fold {vals : Dict Str Val} {k : Str} {v : Val} (h : (k, v) ∈ fixVals vals) :
    ∃ u, (k, u) ∈ vals ∧ u.fixNone = v := by
  obtain ⟨⟨k', u⟩, hu, he⟩ := List.mem_map.mp h
  simp only [Prod.mk.injEq] at he
  obtain ⟨rfl, rfl⟩ := he
  exact ⟨u, hu, rfl⟩

/-- C13: with given dimensions, a distribution named after its variables whose
construction succeeds is well formed, on the given axes with the given values
(`{None}` replaced by `{0}`) and the given probability and scale. -/
theorem C13_given_wf (fmt : Val → Str) (name : Str) (vals : Dict Str Val)
    (dims : Dict Str (Option ℕ)) (prob : Arr) (ps : PSpec) (d : PD) (marg cond : Dict Str Str)
    (hn : (Dict.keys vals).Nodup) (hne : vals ≠ []) (hsh : Spec.SharedAgree vals dims)
    (hdn : dims.keys.Nodup) (hdk : ∀ k ∈ dims.keys, k ∈ vals.keys) (hname : Spec.Named fmt name vals marg cond)
    (h : pdInit fmt name vals (some dims) prob ps = .ok d) :
    d.WF fmt ∧ d.Placed ∧ (∀ k, d.axis k = (Dict.get? dims k).join) ∧ d.keylist = vals.keys ∧
    (∀ k, d.values k = (Dict.get? vals k).map fun v => v.fixNone.flat) ∧
    d.marg.keys = marg.keys ∧ d.cond.keys = cond.keys ∧
    d.prob = prob ∧ evalPscale ps = .ok d.pscale := by
  obtain ⟨hc, hp, hps⟩ := C13_given_partial fmt name vals dims prob ps d hn hne hsh h
  obtain ⟨h1, h2, h3, h4⟩ := pdInit_inv h
  obtain ⟨hal, hent, hv, hd, hnd, hs, hsz, ha, hi⟩ := distDims_inv hn hne h1
  have hnf : (Dict.keys (fixVals vals)).Nodup := by rw [keys_fixVals]; exact hn
  have hkeys : Dict.keys d.vals = Dict.keys vals := by
    show Dict.keys d.dist.vals = _
    rw [hv, Dict.keys_map, keys_fixVals]
  have hsing : ∀ k v, (placeVal dims (maxDim dims) k v).issingleton = v.issingleton := by
    intro k v; exact issingleton_placeVal _ _ _ _ (fun a ha => lt_maxDim ha)
  have hplace : ∀ k v, v.issingleton = true → placeVal dims (maxDim dims) k v = v := by
    intro k v h; simp [placeVal, h]
  obtain ⟨n1, n2, n3, n4, n5, n6, n7, n8⟩ := named_wf h hname hn hkeys (by
    intro k v hkv hs
    have hkv' : (k, v) ∈ d.dist.vals := hkv
    rw [hv] at hkv'
    obtain ⟨⟨k', u⟩, hu, he⟩ := List.mem_map.mp hkv'
    simp only [Prod.mk.injEq] at he
    obtain ⟨rfl, rfl⟩ := he
    rw [hsing] at hs
    rw [hplace _ _ hs]
    exact mem_keys_fold hu)
  have hdims : ∀ k, Dict.get? d.dist.dims k = (Dict.get? dims k).or
        (match Dict.get? (fixVals vals) k with
         | some v => if v.issingleton then some none else none
         | none => none) := by
    intro k; rw [hd]; exact get?_foldl_dimsAfter (fixVals vals) dims hnf k
  have haxis : ∀ k, d.axis k = (Dict.get? dims k).join := by
    intro k
    show (Dict.get? d.dist.dims k).join = _
    rw [hdims]
    rcases hd : Dict.get? dims k with _ | o
    · simp only [Option.none_or]
      split
      · split <;> rfl
      · rfl
    · simp
  have hshape : ∀ k v a, Dict.get? d.vals k = some v → Dict.get? d.dims k = some (some a) →
      ∃ data, v = .arr (axisShape d.ndim a data.length) data ∧ d.shape[a]? = some data.length := by
    intro k v a hkv hka
    obtain ⟨s, data, e1, e2, e3⟩ := hc.array k v a hkv hka
    have hlt : a < d.ndim := by
      by_contra hcc
      have e3' : d.shape[a]? = some data.length := e3
      have hr : d.shape.length = d.ndim := hc.rank
      rw [List.getElem?_eq_none (by omega)] at e3'; simp at e3'
    have hs : s = axisShape d.ndim a data.length := by
      obtain ⟨l1, l2, l3⟩ := e2
      obtain ⟨m1, m2, m3⟩ := axisShape_oneAxis d.ndim a data.length hlt
      apply List.ext_getElem?
      intro b
      by_cases hb : b < d.ndim
      · by_cases hba : b = a
        · subst hba; rw [l2, m2]
        · rw [l3 b hb hba, m3 b hb hba]
      · rw [List.getElem?_eq_none (by show s.length ≤ b; have : s.length = d.ndim := l1; omega),
          List.getElem?_eq_none (by omega)]
    exact ⟨data, by rw [e1, hs], e3⟩
  refine ⟨⟨?_, ?_, ?_, n1, n2, n3, n4, ?_, ?_, ?_, ?_, ?_, hc.rank, hc.size, ?_, ?_, ?_, ?_, n6⟩,
    ?_, haxis, hkeys, ?_, n7, n8, h3, h4⟩
  · show d.dist.vals ≠ []; rw [hv]; simpa [fixVals] using hne
  · show (Dict.keys d.vals).Nodup; rw [hkeys]; exact hn
  · show ∀ k ∈ Dict.keys d.vals, _; rw [hkeys]; exact hal
  · show (Dict.keys d.dist.dims).Nodup; rw [hd]; exact nodup_foldl_dimsAfter _ _ hdn
  · intro k hk
    show k ∈ Dict.keys d.vals
    rw [hkeys]
    have hk' : k ∈ Dict.keys d.dist.dims := hk
    rw [hd] at hk'
    rcases keys_foldl_dimsAfter _ _ k hk' with hh | hh
    · exact hdk k hh
    · rwa [keys_fixVals] at hh
  · intro k v hkv hs
    refine ⟨?_, n5 k v hkv hs⟩
    obtain ⟨o, e1, e2⟩ := hc.entry k v hkv
    rw [e2.mpr hs] at e1; exact e1
  · intro k v hkv hs
    obtain ⟨o, e1, e2⟩ := hc.entry k v hkv
    rcases o with _ | a
    · rw [e2.mp rfl] at hs; simp at hs
    · obtain ⟨data, f1, f2⟩ := hshape k v a hkv e1
      refine ⟨a, _, data, f1, ?_, e1, f2⟩
      intro hpos
      have hlt : a < d.ndim := by
        by_contra hcc
        have hr : d.shape.length = d.ndim := hc.rank
        rw [List.getElem?_eq_none (by omega)] at f2; simp at f2
      exact (foldl_max_axisShape _ _ _ hlt hpos).symm
  · intro a ha
    obtain ⟨k, v, e1, e2⟩ := hc.cover a ha
    exact ⟨k, join_eq_some.mpr e2⟩
  · show d.dist.aresingleton = d.dist.vals.map _
    rw [ha, hv, List.map_map]
    apply List.map_congr_left
    intro kv _; simp [hsing]
  · show d.dist.issingleton = d.dist.vals.all _
    rw [hi, hv, List.all_map]
    congr 1
    funext kv; simp [hsing]
  · rw [h3]; exact hps
  · exact C03_idempotent _ _ h4
  · intro k a hka
    have hka' := join_eq_some.mp hka
    have hk : k ∈ Dict.keys d.vals := by
      rw [hkeys]
      have hk' := Dict.mem_keys_of_get? hka'
      have hk'' : k ∈ Dict.keys d.dist.dims := hk'
      rw [hd] at hk''
      rcases keys_foldl_dimsAfter _ _ k hk'' with hh | hh
      · exact hdk k hh
      · rwa [keys_fixVals] at hh
    obtain ⟨v, hv⟩ := Dict.get?_of_mem_keys hk
    obtain ⟨data, f1, _⟩ := hshape k v a hv hka'
    exact ⟨data, by rw [hv, f1]⟩
  · intro k
    show (Dict.get? d.dist.vals k).map Val.flat = _
    rw [hv, Dict.get?_map, fixVals, Dict.get?_map (fun _ v => Val.fixNone v)]
    rcases Dict.get? vals k with _ | v
    · rfl
    · simp only [Option.map_some, Option.some.injEq]
      have := flat_placeVal (dims := dims) (S := List.replicate (maxDim dims) 0) k v.fixNone
        (by intro a ha; rw [List.length_replicate]; exact lt_maxDim ha)
      rwa [List.length_replicate] at this

/-! ### default dimensions -/

/-- Values after construction with default dimensions. -/
def defaultVals : Dict Str Val → ℕ → Dict Str Val
  | [], _ => []
  | (k, v) :: l, c =>
      if v.issingleton then (k, v) :: defaultVals l c
      else match v with
        | .arr _ data => (k, .arr (axisShape (c + 1) c data.length) data) :: defaultVals l (c + 1)
        | v => (k, v) :: defaultVals l (c + 1)

theorem dimsLoop_default_vals (l : Dict Str Val) :
    ∀ st st' : AxState, st.shape.length = st.count →
      l.foldlM (dimsStep true) st = .ok st' →
      st'.vals = st.vals ++ defaultVals l st.count ∧
      ∀ kv ∈ l, kv.2.issingleton = false → ∃ s data, kv.2 = .arr s data ∧
        data.length = s.foldl max 0 := by
  induction l with
  | nil =>
    intro st st' h1 h
    simp only [List.foldlM_nil, pure, Except.pure, Except.ok.injEq] at h
    subst h
    simp [defaultVals]
  | cons kv l ih =>
    intro st st' h1 h
    obtain ⟨k, v⟩ := kv
    rw [List.foldlM_cons] at h
    rcases hs : v.issingleton with _ | _
    · simp only [dimsStep, hs, Bool.false_eq_true, if_false, dimsArray] at h
      rcases v with x | x | x | _ | ⟨s, data⟩ | _ <;> simp only [bind, Except.bind] at h
      all_goals try (simp at h; done)
      by_cases hl : data.length = s.foldl max 0
      · simp only [ne_eq, hl, not_true_eq_false, if_false, if_true, h1] at h
        obtain ⟨g1, g2⟩ := ih _ st' (by simp [dimsPlace, h1]) h
        refine ⟨?_, ?_⟩
        · rw [g1]; simp [dimsPlace, defaultVals, hs, hl]
        · intro kv hkv hs'
          rcases List.mem_cons.mp hkv with rfl | hkv
          · exact ⟨s, data, rfl, hl⟩
          · exact g2 kv hkv hs'
      · simp [hl] at h
    · simp only [dimsStep, hs, if_true, dimsScalar, bind, Except.bind] at h
      obtain ⟨g1, g2⟩ := ih _ st' (by simp [h1]) h
      refine ⟨?_, ?_⟩
      · rw [g1]; simp [defaultVals, hs]
      · intro kv hkv hs'
        rcases List.mem_cons.mp hkv with rfl | hkv
        · rw [hs] at hs'; simp at hs'
        · exact g2 kv hkv hs'

theorem keys_defaultVals (l : Dict Str Val) : ∀ c, Dict.keys (defaultVals l c) = Dict.keys l := by
  induction l with
  | nil => intro c; rfl
  | cons kv l ih =>
    obtain ⟨k, v⟩ := kv
    intro c
    rcases hs : v.issingleton with _ | _
    · rcases v with x | x | x | _ | ⟨s, data⟩ | _ <;> simp [defaultVals, hs, ih, Dict.keys_cons]
    · simp [defaultVals, hs, ih, Dict.keys_cons]

theorem keys_defaultDims (l : Dict Str Val) : ∀ c, Dict.keys (Spec.defaultDims l c) = Dict.keys l := by
  induction l with
  | nil => intro c; rfl
  | cons kv l ih =>
    obtain ⟨k, v⟩ := kv
    intro c
    rcases hs : v.issingleton with _ | _ <;> simp [Spec.defaultDims, hs, ih, Dict.keys_cons]

/-- The axis given to `k` by default: the number of arrays before it. -/
theorem get?_default (l : Dict Str Val) :
    ∀ c, (Dict.keys l).Nodup → (∀ kv ∈ l, kv.2.issingleton = false → ∃ s data, kv.2 = .arr s data) →
      ∀ k v, Dict.get? l k = some v →
      (v.issingleton = true ∧ Dict.get? (defaultVals l c) k = some v ∧
        Dict.get? (Spec.defaultDims l c) k = some none) ∨
      (v.issingleton = false ∧ ∃ s data a, v = .arr s data ∧ c ≤ a ∧
        Dict.get? (defaultVals l c) k = some (.arr (axisShape (a + 1) a data.length) data) ∧
        Dict.get? (Spec.defaultDims l c) k = some (some a) ∧
        (Spec.arraySizes l)[a - c]? = some data.length) := by
  induction l with
  | nil => intro c _ _ k v h; simp [Dict.get?] at h
  | cons kv l ih =>
    obtain ⟨k', u⟩ := kv
    intro c hn harr k v h
    simp only [Dict.keys_cons, List.nodup_cons] at hn
    have harr' : ∀ kv ∈ l, kv.2.issingleton = false → ∃ s data, kv.2 = .arr s data :=
      fun kv h => harr kv (by simp [h])
    rcases hs : u.issingleton with _ | _
    · obtain ⟨s, data, hu⟩ := harr (k', u) (by simp) hs
      simp only at hu
      subst hu
      have hsz : Spec.arraySizes ((k', Val.arr s data) :: l) = data.length :: Spec.arraySizes l := by
        simp [Spec.arraySizes, hs]
      by_cases hk : k' = k
      · subst hk
        simp only [Dict.get?, if_true, Option.some.injEq] at h
        subst h
        right
        refine ⟨hs, s, data, c, rfl, le_refl _, ?_, ?_, ?_⟩
        · simp [defaultVals, hs, Dict.get?]
        · simp [Spec.defaultDims, hs, Dict.get?]
        · simp [hsz]
      · simp only [Dict.get?, hk, if_false] at h
        rcases ih (c + 1) hn.2 harr' k v h with ⟨e1, e2, e3⟩ | ⟨e1, s', data', a, e2, e3, e4, e5, e6⟩
        · left
          exact ⟨e1, by simpa [defaultVals, hs, Dict.get?, hk] using e2,
            by simpa [Spec.defaultDims, hs, Dict.get?, hk] using e3⟩
        · right
          refine ⟨e1, s', data', a, e2, by omega, by simpa [defaultVals, hs, Dict.get?, hk] using e4,
            by simpa [Spec.defaultDims, hs, Dict.get?, hk] using e5, ?_⟩
          rw [hsz, show a - c = (a - (c + 1)) + 1 by omega]
          simpa using e6
    · have hsz : Spec.arraySizes ((k', u) :: l) = Spec.arraySizes l := by
        simp [Spec.arraySizes, hs]
      by_cases hk : k' = k
      · subst hk
        simp only [Dict.get?, if_true, Option.some.injEq] at h
        subst h
        left
        exact ⟨hs, by simp [defaultVals, hs, Dict.get?], by simp [Spec.defaultDims, hs, Dict.get?]⟩
      · simp only [Dict.get?, hk, if_false] at h
        rcases ih c hn.2 harr' k v h with ⟨e1, e2, e3⟩ | ⟨e1, s', data', a, e2, e3, e4, e5, e6⟩
        · left
          exact ⟨e1, by simpa [defaultVals, hs, Dict.get?, hk] using e2,
            by simpa [Spec.defaultDims, hs, Dict.get?, hk] using e3⟩
        · right
          refine ⟨e1, s', data', a, e2, e3, by simpa [defaultVals, hs, Dict.get?, hk] using e4,
            by simpa [Spec.defaultDims, hs, Dict.get?, hk] using e5, by rw [hsz]; exact e6⟩

theorem cover_default (l : Dict Str Val) :
    ∀ c, (Dict.keys l).Nodup → (∀ kv ∈ l, kv.2.issingleton = false → ∃ s data, kv.2 = .arr s data) →
      ∀ a, a < (Spec.arraySizes l).length → ∃ k, Dict.get? (Spec.defaultDims l c) k = some (some (c + a)) := by
  induction l with
  | nil => intro c _ _ a h; simp [Spec.arraySizes] at h
  | cons kv l ih =>
    obtain ⟨k', u⟩ := kv
    intro c hn harr a h
    simp only [Dict.keys_cons, List.nodup_cons] at hn
    have harr' : ∀ kv ∈ l, kv.2.issingleton = false → ∃ s data, kv.2 = .arr s data :=
      fun kv h => harr kv (by simp [h])
    have hne : ∀ c k b, Dict.get? (Spec.defaultDims l c) k = some b → k' ≠ k := by
      rintro c k b hb rfl
      exact hn.1 (keys_defaultDims l c ▸ Dict.mem_keys_of_get? hb)
    rcases hs : u.issingleton with _ | _
    · obtain ⟨s, data, hu⟩ := harr (k', u) (by simp) hs
      simp only at hu
      subst hu
      have hsz : Spec.arraySizes ((k', Val.arr s data) :: l) = data.length :: Spec.arraySizes l := by
        simp [Spec.arraySizes, hs]
      rcases a with _ | a
      · exact ⟨k', by simp [Spec.defaultDims, hs, Dict.get?]⟩
      · rw [hsz] at h
        obtain ⟨k, hk⟩ := ih (c + 1) hn.2 harr' a (by simpa using h)
        refine ⟨k, ?_⟩
        simp only [Spec.defaultDims, hs, Bool.false_eq_true, if_false, Dict.get?, hne _ _ _ hk]
        rw [hk]; congr 2; omega
    · have hsz : Spec.arraySizes ((k', u) :: l) = Spec.arraySizes l := by
        simp [Spec.arraySizes, hs]
      rw [hsz] at h
      obtain ⟨k, hk⟩ := ih c hn.2 harr' a h
      refine ⟨k, ?_⟩
      simp only [Spec.defaultDims, hs, if_true, Dict.get?, hne _ _ _ hk, if_false]
      exact hk

/-- Default axes increase strictly along the key list. -/
theorem ordered_default (l : Dict Str Val) :
    ∀ c, (Dict.keys l).Nodup →
      (∀ k a, Dict.get? (Spec.defaultDims l c) k = some (some a) → c ≤ a) ∧
      (Dict.keys l).Pairwise fun k k' => ∀ a b, Dict.get? (Spec.defaultDims l c) k = some (some a) →
        Dict.get? (Spec.defaultDims l c) k' = some (some b) → a < b := by
  induction l with
  | nil => intro c _; simp [Spec.defaultDims, Dict.get?]
  | cons kv l ih =>
    obtain ⟨k', u⟩ := kv
    intro c hn
    simp only [Dict.keys_cons, List.nodup_cons] at hn
    rcases hs : u.issingleton with _ | _
    · obtain ⟨i1, i2⟩ := ih (c + 1) hn.2
      simp only [Spec.defaultDims, hs, Bool.false_eq_true, if_false, Dict.get?]
      refine ⟨?_, ?_⟩
      · intro k a hka
        by_cases hk : k' = k
        · simp only [hk, if_true, Option.some.injEq] at hka; omega
        · simp only [hk, if_false] at hka
          have := i1 k a hka; omega
      · rw [Dict.keys_cons, List.pairwise_cons]
        refine ⟨?_, ?_⟩
        · intro k hk a b ha hb
          have hne : k' ≠ k := by rintro rfl; exact hn.1 hk
          simp only [if_true, Option.some.injEq] at ha
          simp only [hne, if_false] at hb
          have := i1 k b hb; omega
        · refine i2.imp_of_mem ?_
          intro x y hx hy hxy a b ha hb
          have hx' : k' ≠ x := by rintro rfl; exact hn.1 hx
          have hy' : k' ≠ y := by rintro rfl; exact hn.1 hy
          simp only [hx', if_false] at ha
          simp only [hy', if_false] at hb
          exact hxy a b ha hb
    · obtain ⟨i1, i2⟩ := ih c hn.2
      simp only [Spec.defaultDims, hs, if_true, Dict.get?]
      refine ⟨?_, ?_⟩
      · intro k a hka
        by_cases hk : k' = k
        · simp [hk] at hka
        · simp only [hk, if_false] at hka
          exact i1 k a hka
      · rw [Dict.keys_cons, List.pairwise_cons]
        refine ⟨?_, ?_⟩
        · intro k hk a b ha hb
          simp at ha
        · refine i2.imp_of_mem ?_
          intro x y hx hy hxy a b ha hb
          have hx' : k' ≠ x := by rintro rfl; exact hn.1 hx
          have hy' : k' ≠ y := by rintro rfl; exact hn.1 hy
          simp only [hx', if_false] at ha
          simp only [hy', if_false] at hb
          exact hxy a b ha hb

/-- C13: without given dimensions, a distribution named after its variables
whose construction succeeds is well formed, with its variables on axes of their
own in key order. -/
theorem C13_default_wf (fmt : Val → Str) (name : Str) (vals : Dict Str Val)
    (prob : Arr) (ps : PSpec) (d : PD) (marg cond : Dict Str Str)
    (hn : (Dict.keys vals).Nodup) (hne : vals ≠ [])
    (hname : Spec.Named fmt name vals marg cond)
    (h : pdInit fmt name vals none prob ps = .ok d) :
    d.WF fmt ∧ d.keylist = vals.keys ∧
    (d.keylist.Pairwise fun k k' => ∀ a b, d.axis k = some a → d.axis k' = some b → a < b) ∧
    (∀ k, d.values k = (Dict.get? vals k).map fun v => v.fixNone.flat) ∧
    d.marg.keys = marg.keys ∧ d.cond.keys = cond.keys ∧
    d.prob = prob ∧ evalPscale ps = .ok d.pscale := by
  obtain ⟨hdims, hshape, hnd, hsize, hkeys, h3, hps⟩ := C13_default_partial fmt name vals prob ps d hn hne h
  obtain ⟨h1, h2, _, h4⟩ := pdInit_inv h
  have hne' : vals.isEmpty = false := by simpa using hne
  have hnf : (Dict.keys (fixVals vals)).Nodup := by rw [keys_fixVals]; exact hn
  unfold distDims at h1
  simp only [hne', Option.isNone_none, Option.getD_none, Bool.false_eq_true, if_false] at h1
  by_cases hal : (Dict.keys vals).any (· ∈ disallowed) = true
  · rw [if_pos hal] at h1; simp at h1
  rw [if_neg hal] at h1
  have hal' : ∀ k ∈ Dict.keys vals, k ∉ disallowed := by simpa [List.any_eq_true] using hal
  have h0 : maxDim [] = 0 := rfl
  rw [h0] at h1
  rcases hf : List.foldlM (dimsStep true) ⟨[], [], List.replicate 0 none, 0, 0, []⟩
      (vals.map fun kv => (kv.1, kv.2.fixNone)) with e | st
  · simp only [hf, bind, Except.bind] at h1; simp at h1
  obtain ⟨hv, harr⟩ := dimsLoop_default_vals (fixVals vals) _ st rfl hf
  simp only [hf, bind, Except.bind] at h1
  rcases hm : st.shape.mapM id with _ | S
  · simp only [hm] at h1; simp at h1
  simp only [hm, pure, Except.pure, Except.ok.injEq] at h1
  have hv' : d.dist.vals = defaultVals (fixVals vals) 0 := by rw [← h1]; simpa using hv
  have hare : d.dist.aresingleton = (fixVals vals).map (fun kv => kv.2.issingleton) := by rw [← h1]; rfl
  have his : d.dist.issingleton = (fixVals vals).all (fun kv => kv.2.issingleton) := by rw [← h1]; rfl
  have harr' : ∀ kv ∈ fixVals vals, kv.2.issingleton = false → ∃ s data, kv.2 = .arr s data := by
    intro kv hkv hs; obtain ⟨s, data, e, _⟩ := harr kv hkv hs; exact ⟨s, data, e⟩
  have hget := get?_default (fixVals vals) 0 hnf harr'
  have hget' : ∀ k v, Dict.get? d.dist.vals k = some v → ∃ u, Dict.get? (fixVals vals) k = some u := by
    intro k v hkv
    apply Dict.get?_of_mem_keys
    rw [← keys_defaultVals _ 0, ← hv']; exact Dict.mem_keys_of_get? hkv
  have hord := ordered_default (fixVals vals) 0 hnf
  have hval : ∀ k v, Dict.get? d.dist.vals k = some v →
      (v.issingleton = true ∧ Dict.get? (fixVals vals) k = some v ∧ Dict.get? d.dist.dims k = some none) ∨
      (v.issingleton = false ∧ ∃ s data a, Dict.get? (fixVals vals) k = some (.arr s data) ∧ s ≠ [] ∧
        v = .arr (axisShape (a + 1) a data.length) data ∧
        Dict.get? d.dist.dims k = some (some a) ∧ d.dist.shape[a]? = some data.length) := by
    intro k v hkv
    obtain ⟨u, hu⟩ := hget' k v hkv
    rw [hv'] at hkv
    rw [hdims, hshape]
    rcases hget k u hu with ⟨e1, e2, e3⟩ | ⟨e1, s, data, a, rfl, _, e4, e5, e6⟩
    · rw [hkv] at e2
      simp only [Option.some.injEq] at e2
      subst e2
      exact Or.inl ⟨e1, hu, e3⟩
    · rw [hkv] at e4
      simp only [Option.some.injEq] at e4
      right
      refine ⟨?_, s, data, a, hu, ?_, e4, e5, by simpa using e6⟩
      · rw [e4, Val.issingleton]
        rcases a with _ | a <;> simp [axisShape, List.replicate_succ]
      · rintro rfl; simp [Val.issingleton] at e1
  have hsingmap : ∀ l : Dict Str Val, ∀ c, (∀ kv ∈ l, kv.2.issingleton = false → ∃ s data, kv.2 = .arr s data) →
      (defaultVals l c).map (fun kv => kv.2.issingleton) = l.map (fun kv => kv.2.issingleton) := by
    intro l
    induction l with
    | nil => intro c _; rfl
    | cons kv l ih =>
      obtain ⟨k, u⟩ := kv
      intro c ha
      have ha' : ∀ kv ∈ l, kv.2.issingleton = false → ∃ s data, kv.2 = .arr s data :=
        fun kv h => ha kv (by simp [h])
      rcases hs : u.issingleton with _ | _
      · obtain ⟨s, data, hu⟩ := ha (k, u) (by simp) hs
        simp only at hu
        subst hu
        have hx : (Val.arr (axisShape (c + 1) c data.length) data).issingleton = false := by
          rw [Val.issingleton]
          rcases c with _ | c <;> simp [axisShape, List.replicate_succ]
        simp [defaultVals, hs, ih _ ha', hx]
      · simp [defaultVals, hs, ih _ ha']
  obtain ⟨n1, n2, n3, n4, n5, n6, n7, n8⟩ := named_wf h hname hn hkeys (by
    intro k v hkv hs
    have hkv' := Dict.get?_of_mem (show (Dict.keys d.dist.vals).Nodup by rw [hkeys]; exact hn) hkv
    rcases hval k v hkv' with ⟨_, e2, _⟩ | ⟨e1, _⟩
    · exact mem_keys_fold (Dict.get?_mem e2)
    · rw [hs] at e1; simp at e1)
  refine ⟨⟨?_, ?_, ?_, n1, n2, n3, n4, ?_, ?_, ?_, ?_, ?_, hnd.symm, hsize, ?_, ?_, ?_, ?_, n6⟩, hkeys, ?_, ?_,
    n7, n8, h3, h4⟩
  · intro hc
    have : Dict.keys vals = [] := by rw [← hkeys]; show Dict.keys d.vals = []; rw [hc]; rfl
    simp [Dict.keys] at this; exact hne this
  · show (Dict.keys d.dist.vals).Nodup; rw [hkeys]; exact hn
  · show ∀ k ∈ Dict.keys d.dist.vals, _; rw [hkeys]; exact hal'
  · show (Dict.keys d.dist.dims).Nodup
    rw [hdims, keys_defaultDims]; exact hnf
  · intro k hk
    show k ∈ Dict.keys d.dist.vals
    have hk' : k ∈ Dict.keys d.dist.dims := hk
    rw [hdims, keys_defaultDims, keys_fixVals] at hk'
    rw [hkeys]; exact hk'
  · intro k v hkv hs
    refine ⟨?_, n5 k v hkv hs⟩
    rcases hval k v hkv with ⟨_, _, e3⟩ | ⟨e1, _⟩
    · exact e3
    · rw [hs] at e1; simp at e1
  · intro k v hkv hs
    rcases hval k v hkv with ⟨e1, _⟩ | ⟨_, s, data, a, _, _, e3, e4, e5⟩
    · rw [hs] at e1; simp at e1
    · exact ⟨a, _, data, e3, fun hpos => (foldl_max_axisShape _ _ _ (by omega) hpos).symm, e4, e5⟩
  · intro a ha
    have ha' : a < d.dist.ndim := ha
    rw [hnd, hshape] at ha'
    obtain ⟨k, hk⟩ := cover_default (fixVals vals) 0 hnf harr' a ha'
    refine ⟨k, join_eq_some.mpr ?_⟩
    show Dict.get? d.dist.dims k = _
    rw [hdims, hk]; simp
  · show d.dist.aresingleton = d.dist.vals.map _
    rw [hare, hv', hsingmap _ _ harr']
  · show d.dist.issingleton = d.dist.vals.all _
    rw [his, hv']
    have := hsingmap _ 0 harr'
    have e : ∀ l : Dict Str Val, l.all (fun kv => kv.2.issingleton) =
        (l.map (fun kv => kv.2.issingleton)).all id := by
      intro l; rw [List.all_map]; rfl
    rw [e, e, this]
  · rw [h3]; exact hps
  · exact C03_idempotent _ _ h4
  · show (Dict.keys d.dist.vals).Pairwise _
    rw [hkeys, ← keys_fixVals]
    refine hord.2.imp ?_
    intro x y hxy a b ha hb
    have ha' := join_eq_some.mp ha
    have hb' := join_eq_some.mp hb
    have ha'' : Dict.get? d.dist.dims x = some (some a) := ha'
    have hb'' : Dict.get? d.dist.dims y = some (some b) := hb'
    rw [hdims] at ha'' hb''
    exact hxy a b ha'' hb''
  · intro k
    show (Dict.get? d.dist.vals k).map Val.flat = _
    have hfix : Dict.get? (fixVals vals) k = (Dict.get? vals k).map Val.fixNone := by
      rw [fixVals, Dict.get?_map (fun _ v => Val.fixNone v)]
    rcases hkv : Dict.get? d.dist.vals k with _ | v
    · have : Dict.get? vals k = none := by
        rw [Dict.get?_eq_none, ← hkeys, ← Dict.get?_eq_none]; exact hkv
      rw [this]; rfl
    · rcases hval k v hkv with ⟨_, e2, _⟩ | ⟨_, s, data, a, e2, e3, e4, _⟩
      · rw [hfix] at e2
        obtain ⟨u, hu, rfl⟩ := Option.map_eq_some_iff.mp e2
        rw [hu]; rfl
      · rw [hfix] at e2
        obtain ⟨u, hu, hu'⟩ := Option.map_eq_some_iff.mp e2
        rw [hu]
        simp only [Option.map_some, Option.some.injEq, hu', e4]
        rcases s with _ | ⟨y, t⟩
        · exact absurd rfl e3
        · rcases hx : axisShape (a + 1) a data.length with _ | ⟨z, w⟩
          · have := congrArg List.length hx; simp [axisShape] at this
          · rfl

end Probayes
