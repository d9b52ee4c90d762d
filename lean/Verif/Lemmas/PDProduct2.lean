/-
Lemmas on the values and dimensions assembled by `product`.
-/
import Verif.Lemmas.PDProduct

namespace Probayes

variable {fmt : Val → Str} {args : List PD}

theorem issingleton_flat (v : Val) : v.flat.issingleton = v.issingleton := by
  rcases v with x | x | x | _ | ⟨s, d⟩ | _ <;> try rfl
  rcases s with _ | ⟨n, s⟩ <;> rfl

theorem isunitsetint_flat (v : Val) : v.flat.isunitsetint = v.isunitsetint := by
  rcases v with x | x | x | _ | ⟨s, d⟩ | _ <;> try rfl
  rcases s with _ | ⟨n, s⟩ <;> rfl

theorem flat_setint {v : Val} {n : ℤ} (h : v.flat = .setint n) : v = .setint n := by
  rcases v with x | x | x | _ | ⟨s, d⟩ | _ <;> try (simpa [Val.flat] using h)
  rcases s with _ | ⟨n, s⟩ <;> simp [Val.flat] at h

/-- The value used for a key: that of the first factor having it. -/
def valOf (args : List PD) (k : Str) : Val := (firstVal args k).getD .other

theorem firstVal_some {k : Str} (h : ∃ a ∈ args, k ∈ a.keylist) :
    firstVal args k = some (valOf args k) ∧
      ∃ a ∈ args, Dict.get? a.vals k = some (valOf args k) := by
  have hs : (firstVal args k).isSome := by
    obtain ⟨a, ha, hk⟩ := h
    rw [firstVal, List.findSome?_isSome_iff]
    exact ⟨a, ha, Dict.get?_isSome.mpr hk⟩
  obtain ⟨v, hv⟩ := Option.isSome_iff_exists.mp hs
  have he : valOf args k = v := by simp [valOf, hv]
  rw [he]
  refine ⟨hv, ?_⟩
  obtain ⟨a, ha, h2⟩ := List.exists_of_findSome?_eq_some hv
  exact ⟨a, ha, h2⟩

theorem valOf_flat (F : Spec.Factors fmt args) {a : PD} (ha : a ∈ args) {k : Str} {v : Val}
    (hv : Dict.get? a.vals k = some v) : v.flat = (valOf args k).flat := by
  obtain ⟨_, b, hb, hvb⟩ := firstVal_some (args := args) (k := k) ⟨a, ha, Dict.mem_keys_of_get? hv⟩
  have := F.same a ha b hb k (Dict.mem_keys_of_get? hv) (Dict.mem_keys_of_get? hvb)
  simpa [PD.values, hv, hvb] using this

theorem valOf_single (F : Spec.Factors fmt args) {a : PD} (ha : a ∈ args) {k : Str} {v : Val}
    (hv : Dict.get? a.vals k = some v) : (valOf args k).issingleton = v.issingleton := by
  rw [← issingleton_flat, ← valOf_flat F ha hv, issingleton_flat]

theorem singleKey_eq (F : Spec.Factors fmt args) {k : Str} (hk : k ∈ prodKeys args) :
    singleKey args k = (valOf args k).issingleton := by
  simp [singleKey, (firstVal_some ((mem_prodKeys F k).mp hk)).1]

theorem unitKey_eq (F : Spec.Factors fmt args) {k : Str} (hk : k ∈ prodKeys args) :
    unitKey args k = (valOf args k).isunitsetint := by
  simp [unitKey, (firstVal_some ((mem_prodKeys F k).mp hk)).1]

/-! ### Values -/

/-- The value first stored for a key. -/
def startVal (args : List PD) (k : Str) : Val :=
  if (valOf args k).isunitsetint then .setint 0 else valOf args k

theorem prodVals_loop (K : List Str) (hK : ∀ k ∈ K, firstVal args k = some (valOf args k)) :
    ∀ pv, K.foldlM (prodValsStep args) pv =
      .ok ((K.map fun k => (k, startVal args k)).foldl (fun d kv => Dict.set d kv.1 kv.2) pv) := by
  induction K with
  | nil => intro pv; rfl
  | cons k K ih =>
    intro pv
    have : prodValsStep args pv k = .ok (Dict.set pv k (startVal args k)) := by
      unfold prodValsStep; rw [hK k (by simp)]; rfl
    simp only [List.foldlM_cons, this, bind, Except.bind, List.map_cons, List.foldl_cons]
    exact ih (fun x hx => hK x (by simp [hx])) _

/-- pd_utils.py:248-252: one factor. -/
def addStep (k : Str) (pv : Dict Str Val) (a : PD) : Py (Dict Str Val) :=
  match Dict.get? a.vals k with
  | none => .ok pv
  | some v =>
    if ¬ v.isunitsetint then .error .assertion
    else match Dict.get? pv k with
      | none => .error .key
      | some u => do return Dict.set pv k (← addSets u v)

theorem addLoop_none (k : Str) (l : List PD) (h : ∀ a ∈ l, k ∉ a.keylist) (pv : Dict Str Val) :
    l.foldlM (addStep k) pv = .ok pv := by
  induction l with
  | nil => rfl
  | cons a l ih =>
    have : addStep k pv a = .ok pv := by
      unfold addStep; rw [Dict.get?_eq_none.mpr (h a (by simp))]
    simp only [List.foldlM_cons, this, bind, Except.bind]
    exact ih fun x hx => h x (by simp [hx])

theorem addLoop_one (k : Str) (n : ℤ) (l : List PD)
    (hp : l.Pairwise fun a b => k ∈ a.keylist → k ∉ b.keylist)
    (hv : ∀ a ∈ l, ∀ v, Dict.get? a.vals k = some v → v = .setint n)
    (hex : ∃ a ∈ l, k ∈ a.keylist) (pv : Dict Str Val) (m : ℤ)
    (hm : Dict.get? pv k = some (.setint m)) :
    l.foldlM (addStep k) pv = .ok (Dict.set pv k (.setint (m + n))) := by
  induction l with
  | nil => obtain ⟨a, ha, _⟩ := hex; simp at ha
  | cons a l ih =>
    obtain ⟨h1, h2⟩ := List.pairwise_cons.mp hp
    rw [List.foldlM_cons]
    by_cases hk : k ∈ a.keylist
    · obtain ⟨v, hav⟩ := Dict.get?_of_mem_keys hk
      have := hv a (by simp) v hav
      subst this
      have hs : addStep k pv a = .ok (Dict.set pv k (.setint (m + n))) := by
        unfold addStep
        simp only [hav, hm, Val.isunitsetint, not_true_eq_false, if_false]
        rfl
      simp only [hs, bind, Except.bind]
      exact addLoop_none k l (fun b hb => h1 b hb hk) _
    · have hs : addStep k pv a = .ok pv := by
        unfold addStep; rw [Dict.get?_eq_none.mpr hk]
      simp only [hs, bind, Except.bind]
      refine ih h2 (fun b hb => hv b (by simp [hb])) ?_
      obtain ⟨b, hb, hkb⟩ := hex
      rcases List.mem_cons.mp hb with rfl | hb
      · exact absurd hkb hk
      · exact ⟨b, hb, hkb⟩

/-- The loop adding up unit sets restores them. -/
theorem prodSets_loop (F : Spec.Factors fmt args) (G : Spec.Plainly args) (K : List Str)
    (hK : ∀ k ∈ K, k ∈ prodKeys args) (hn : (K.filter (unitKey args)).Nodup) :
    ∀ pv, (∀ k ∈ K, unitKey args k = true → Dict.get? pv k = some (.setint 0)) →
      ∃ pv', K.foldlM (prodSetsStep args) pv = .ok pv' ∧ Dict.keys pv' = Dict.keys pv ∧
        ∀ k, Dict.get? pv' k =
          if k ∈ K ∧ unitKey args k = true then some (valOf args k) else Dict.get? pv k := by
  induction K with
  | nil => intro pv _; exact ⟨pv, rfl, rfl, by simp⟩
  | cons k K ih =>
    intro pv hpv
    rw [List.foldlM_cons]
    rcases hu : unitKey args k with _ | _
    · have hs : prodSetsStep args pv k = .ok pv := by simp [prodSetsStep, hu]
      rw [List.filter_cons, if_neg (by simp [hu])] at hn
      obtain ⟨pv', h1, h2, h3⟩ := ih (fun x hx => hK x (by simp [hx])) hn pv
        (fun x hx => hpv x (by simp [hx]))
      refine ⟨pv', by simp only [hs, bind, Except.bind]; exact h1, h2, ?_⟩
      intro x
      rw [h3 x]
      by_cases hx : x = k
      · subst hx; simp [hu]
      · simp [hx]
    · rw [List.filter_cons, if_pos hu] at hn
      obtain ⟨hkn, hn⟩ := List.nodup_cons.mp hn
      have hkp := hK k (by simp)
      obtain ⟨hfv, a0, ha0, hv0⟩ := firstVal_some ((mem_prodKeys F k).mp hkp)
      have huv : (valOf args k).isunitsetint = true := by rw [← unitKey_eq F hkp]; exact hu
      obtain ⟨n, hval⟩ : ∃ n, valOf args k = .setint n := by
        rcases hvv : valOf args k with x | x | x | _ | ⟨s, d⟩ | _ <;> rw [hvv] at huv <;>
          simp [Val.isunitsetint] at huv
        exact ⟨_, rfl⟩
      have hall : ∀ a ∈ args, ∀ v, Dict.get? a.vals k = some v → v = .setint n := by
        intro a ha v hv
        apply flat_setint
        rw [valOf_flat F ha hv, hval]; rfl
      have hs : prodSetsStep args pv k = .ok (Dict.set pv k (.setint (0 + n))) := by
        rw [prodSetsStep, if_pos hu]
        exact addLoop_one k n args (G.sets.imp_of_mem (fun {a b} haa _ h hka hkb => by
          obtain ⟨v, hv⟩ := Dict.get?_of_mem_keys hka
          refine h k n ?_ hkb
          rw [PD.values, hv, hall a haa v hv]; rfl))
          hall ⟨a0, ha0, Dict.mem_keys_of_get? hv0⟩ pv 0 (hpv k (by simp) hu)
      have hkpv : k ∈ Dict.keys pv := Dict.mem_keys_of_get? (hpv k (by simp) hu)
      obtain ⟨pv', h1, h2, h3⟩ := ih (fun x hx => hK x (by simp [hx])) hn
        (Dict.set pv k (.setint (0 + n))) (by
          intro x hx hux
          have hne : k ≠ x := by
            rintro rfl
            exact hkn (List.mem_filter.mpr ⟨hx, hux⟩)
          rw [Dict.get?_set, if_neg hne]
          exact hpv x (by simp [hx]) hux)
      refine ⟨pv', by simp only [hs, bind, Except.bind]; exact h1, ?_, ?_⟩
      · rw [h2, Dict.keys_set_of_mem hkpv]
      · intro x
        rw [h3 x, Dict.get?_set]
        by_cases hx : k = x
        · subst hx
          have : k ∉ K := fun h => hkn (List.mem_filter.mpr ⟨h, hu⟩)
          simp [this, hu, hval]
        · have hx' : x ≠ k := Ne.symm hx
          simp [hx, hx']

/-! ### Repetitions among the keys -/

theorem nodup_keys_filter (F : Spec.Factors fmt args) (q : Str → Bool)
    (hq : args.Pairwise fun a b => ∀ k ∈ a.cond.keys, k ∈ b.cond.keys → Spec.Unmet args k →
      q k = false) : ((prodKeys args).filter q).Nodup := by
  rw [prodKeys_eq F, List.map_append, List.filter_append]
  refine List.Nodup.append ((margPairs_side F).1.filter _) ?_ ?_
  · unfold condPairs
    rw [List.map_flatMap, List.filter_flatMap, List.nodup_flatMap]
    constructor
    · intro a ha
      refine List.Nodup.filter _ ?_
      have h1 := (F.wf a ha).condSide.1
      exact List.Nodup.sublist (List.filter_sublist.map _) h1
    · refine hq.imp ?_
      intro a b h
      simp only [Function.onFun, List.disjoint_left, List.mem_filter]
      rintro k ⟨h1, h2⟩ ⟨h3, _⟩
      obtain ⟨kt, h4, rfl⟩ := List.mem_map.mp h1
      obtain ⟨kt', h5, h6⟩ := List.mem_map.mp h3
      obtain ⟨h7, h8⟩ := List.mem_filter.mp h4
      have := h kt.1 (List.mem_map_of_mem h7) (by
        rw [← h6]; exact List.mem_map_of_mem (List.mem_filter.mp h5).1) (by simpa using h8)
      rw [this] at h2
      simp at h2
  · simp only [List.disjoint_left, List.mem_filter]
    rintro k ⟨h1, _⟩ ⟨h2, _⟩
    obtain ⟨kt, h3, rfl⟩ := List.mem_map.mp h2
    obtain ⟨a, ha, h4⟩ := List.mem_flatMap.mp h3
    have hu : Spec.Unmet args kt.1 := by simpa using (List.mem_filter.mp h4).2
    obtain ⟨kv, h5, h6⟩ := List.mem_map.mp h1
    obtain ⟨b, hb, h7⟩ := List.mem_flatMap.mp h5
    apply hu b hb
    rw [← h6]
    exact List.mem_map_of_mem h7

theorem nodup_unit (F : Spec.Factors fmt args) (G : Spec.Plainly args) :
    ((prodKeys args).filter (unitKey args)).Nodup := by
  apply nodup_keys_filter F
  refine G.sets.imp_of_mem ?_
  intro a b ha hb h k hka hkb hu
  by_contra hc
  have hka' : k ∈ a.keylist := ((F.wf a ha).keys k).mpr (Or.inr hka)
  have hkb' : k ∈ b.keylist := ((F.wf b hb).keys k).mpr (Or.inr hkb)
  have hkp := (mem_prodKeys F k).mpr ⟨a, ha, hka'⟩
  obtain ⟨v, hv⟩ := Dict.get?_of_mem_keys hka'
  have huv : v.isunitsetint = true := by
    rw [← isunitsetint_flat, valOf_flat F ha hv, isunitsetint_flat, ← unitKey_eq F hkp]
    simpa using hc
  rcases v with x | n | x | _ | ⟨s, d⟩ | _ <;> simp [Val.isunitsetint] at huv
  exact h k n (by rw [PD.values, hv]; rfl) hkb'

theorem nodup_arrays (F : Spec.Factors fmt args) (G : Spec.Plainly args) :
    ((prodKeys args).filter fun k => !singleKey args k).Nodup := by
  apply nodup_keys_filter F
  refine G.once.imp_of_mem ?_
  intro a b ha hb h k hka hkb hu
  have hka' : k ∈ a.keylist := ((F.wf a ha).keys k).mpr (Or.inr hka)
  have hkp := (mem_prodKeys F k).mpr ⟨a, ha, hka'⟩
  obtain ⟨v, hv⟩ := Dict.get?_of_mem_keys hka'
  have hax := h k hka hkb hu
  rw [Bool.not_eq_false', singleKey_eq F hkp, valOf_single F ha hv]
  by_contra hc
  obtain ⟨α, s, data, _, _, hd, _⟩ := (F.wf a ha).array k v hv (by simpa using hc)
  simp [PD.axis, hd] at hax

/-! ### Dimensions -/

theorem dimsShared_false (F : Spec.Factors fmt args) (G : Spec.Plainly args) :
    dimsShared args = false := by
  rw [dimsShared, List.any_eq_false]
  intro a ha
  simp only [decide_not, Bool.not_eq_true, Bool.not_eq_false', decide_eq_true_eq]
  have hn := (F.wf a ha).dimNodup
  have hown := G.own a ha
  have key : ∀ d : Dict Str (Option ℕ), (Dict.keys d).Nodup →
      (∀ k k' α, (k, some α) ∈ d → (k', some α) ∈ d → k' = k) →
      (d.filterMap Prod.snd).Nodup := by
    intro d
    induction d with
    | nil => intro _ _; simp
    | cons kv d ih =>
      intro hn h
      obtain ⟨k, o⟩ := kv
      obtain ⟨h1, h2⟩ := List.nodup_cons.mp hn
      have hd := ih h2 (fun x y α hx hy => h x y α (by simp [hx]) (by simp [hy]))
      rcases o with _ | α
      · simpa using hd
      · simp only [List.filterMap_cons, List.nodup_cons]
        refine ⟨?_, hd⟩
        intro hm
        obtain ⟨kv', h3, h4⟩ := List.mem_filterMap.mp hm
        have := h k kv'.1 α (by simp) (by
          rw [← h4]; exact List.mem_cons_of_mem _ h3)
        apply h1
        rw [← this]
        exact List.mem_map.mpr ⟨kv', h3, rfl⟩
  apply key _ hn
  intro k k' α h1 h2
  exact hown k k' α (by rw [PD.axis, Dict.get?_of_mem hn h1]; rfl)
    (by rw [PD.axis, Dict.get?_of_mem hn h2]; rfl)

theorem cumFlags_last (K : List Str) (q : Str → Bool) : ∀ c, K ≠ [] →
    (cumFlags c (K.map q)).getLast? = some (c + (K.filter q).length) := by
  induction K with
  | nil => intro c h; exact absurd rfl h
  | cons k K ih =>
    intro c _
    by_cases hK : K = []
    · subst hK
      cases h : q k <;> simp [cumFlags, h]
    · have hne : cumFlags (c + (q k).toNat) (K.map q) ≠ [] := by
        rcases K with _ | _
        · exact absurd rfl hK
        · simp [cumFlags]
      have := ih (c + (q k).toNat) hK
      rw [List.map_cons, cumFlags]
      show (_ :: cumFlags (c + (q k).toNat) (K.map q)).getLast? = _
      rw [List.getLast?_cons_of_ne_nil hne, this]
      cases h : q k <;> simp [List.filter_cons, h]
      omega

/-- The values of an array key. -/
def dataOf (args : List PD) (k : Str) : List ℚ :=
  match valOf args k with
  | .arr _ data => data
  | _ => []

theorem prodDims_loop (n : ℕ) (q : Str → Bool) (hq : q = fun k => !singleKey args k) (K : List Str) :
    ∀ (pre : List ℕ) (st : ProductState), (K.filter q).Nodup →
      (∀ k ∈ K.filter q, k ∉ Dict.keys st.dims) →
      (∀ k ∈ K.filter q, ∃ s, Dict.get? st.vals k = some (.arr s (dataOf args k))) →
      st.shape = pre ++ List.replicate (K.filter q).length 1 →
      ∃ st', (K.zip (cumFlags pre.length (K.map q))).foldlM (prodDimsStep args n) st = .ok st' ∧
        st'.dims = st.dims ++ ((K.filter q).zipIdx pre.length).map (fun ki => (ki.1, some ki.2)) ∧
        st'.shape = pre ++ (K.filter q).map (fun k => (dataOf args k).length) ∧
        Dict.keys st'.vals = Dict.keys st.vals ∧
        ∀ k, Dict.get? st'.vals k = if k ∈ K.filter q then
            some (.arr (axisShape n (pre.length + (K.filter q).idxOf k) (dataOf args k).length)
              (dataOf args k))
          else Dict.get? st.vals k := by
  induction K with
  | nil =>
    intro pre st _ _ _ hs
    exact ⟨st, rfl, by simp, by simpa using hs, rfl, by simp⟩
  | cons k K ih =>
    intro pre st hn hd hv hs
    rw [List.map_cons, cumFlags]
    simp only [List.zip_cons_cons, List.foldlM_cons]
    rcases hk : q k with _ | _
    · rw [List.filter_cons, if_neg (by simp [hk])] at hn hd hv hs ⊢
      have hsk : singleKey args k = true := by rw [hq] at hk; simpa using hk
      have hstep : prodDimsStep args n st (k, pre.length + false.toNat) = .ok st := by
        simp [prodDimsStep, hsk]
      simp only [hstep, bind, Except.bind]
      simpa using ih pre st hn hd hv hs
    · rw [List.filter_cons, if_pos hk] at hn hd hv hs ⊢
      have hsk : singleKey args k = false := by rw [hq] at hk; simpa using hk
      obtain ⟨hkn, hn⟩ := List.nodup_cons.mp hn
      obtain ⟨s, hs0⟩ := hv k (by simp)
      have hkd : k ∉ Dict.keys st.dims := hd k (by simp)
      have hstep : prodDimsStep args n st (k, pre.length + true.toNat) = .ok
          ⟨st.dims ++ [(k, some pre.length)], st.shape.set pre.length (dataOf args k).length,
            Dict.set st.vals k (.arr (axisShape n pre.length (dataOf args k).length)
              (dataOf args k))⟩ := by
        simp [prodDimsStep, hsk, hs0, Dict.set_of_notMem hkd]
      simp only [hstep, bind, Except.bind]
      have hkv : k ∈ Dict.keys st.vals := Dict.mem_keys_of_get? hs0
      obtain ⟨st', h1, h2, h3, h4, h5⟩ := ih (pre ++ [(dataOf args k).length])
        ⟨st.dims ++ [(k, some pre.length)], st.shape.set pre.length (dataOf args k).length,
            Dict.set st.vals k (.arr (axisShape n pre.length (dataOf args k).length)
              (dataOf args k))⟩ hn
        (by
          intro x hx
          simp only [Dict.keys_append, List.mem_append, not_or]
          refine ⟨hd x (by simp [hx]), ?_⟩
          simp only [Dict.keys_cons, Dict.keys_nil, List.mem_singleton]
          rintro rfl; exact hkn hx)
        (by
          intro x hx
          have hne : k ≠ x := by rintro rfl; exact hkn hx
          rw [Dict.get?_set, if_neg hne]
          exact hv x (by simp [hx]))
        (by
          show st.shape.set pre.length _ = _
          rw [hs, List.length_cons, List.replicate_succ]
          simp)
      simp only [List.length_append, List.length_cons, List.length_nil, Nat.zero_add] at h1 h2 h5
      refine ⟨st', h1, ?_, ?_, ?_, ?_⟩
      · rw [h2]; simp [List.zipIdx_cons]
      · rw [h3]; simp
      · rw [h4, Dict.keys_set_of_mem hkv]
      · intro x
        rw [h5 x, Dict.get?_set]
        by_cases hx : k = x
        · subst hx
          simp [hkn]
        · have hx' : x ≠ k := Ne.symm hx
          simp only [List.mem_cons, hx', false_or, if_neg hx]
          split
          · rw [List.idxOf_cons_ne _ hx]
            congr 2
            simp only [Nat.succ_eq_add_one]
            rw [show pre.length + 1 + List.idxOf x (List.filter q K) =
              pre.length + (List.idxOf x (List.filter q K) + 1) by omega]
          · rfl

theorem get?_zipIdx (L : List Str) (hn : L.Nodup) (k : Str) :
    Dict.get? (L.zipIdx.map fun ki => (ki.1, some ki.2)) k =
      if k ∈ L then some (some (L.idxOf k)) else none := by
  have key : ∀ (L : List Str) (c : ℕ),
      Dict.get? ((L.zipIdx c).map fun ki => (ki.1, some ki.2)) k =
        if k ∈ L then some (some (c + L.idxOf k)) else none := by
    intro L
    induction L with
    | nil => intro c; simp [Dict.get?]
    | cons x L ih =>
      intro c
      simp only [List.zipIdx_cons, List.map_cons, Dict.get?]
      by_cases hx : x = k
      · subst hx; simp
      · have hx' : k ≠ x := Ne.symm hx
        rw [if_neg hx, ih (c + 1)]
        simp only [List.mem_cons, hx', false_or]
        split
        · rw [List.idxOf_cons_ne _ hx]
          congr 2
          simp only [Nat.succ_eq_add_one]
          omega
        · rfl
  simpa using key L 0

theorem keys_zipIdx (L : List Str) :
    Dict.keys (L.zipIdx.map fun ki => (ki.1, some ki.2)) = L := by
  have : ∀ (L : List Str) (c : ℕ), Dict.keys ((L.zipIdx c).map fun ki => (ki.1, some ki.2)) = L := by
    intro L
    induction L with
    | nil => intro c; rfl
    | cons x L ih => intro c; simp [List.zipIdx_cons, ih]
  exact this L 0

end Probayes
