/-
C19: a variable that is an array and stands twice among the keys of a product.
-/
import Verif.Lemmas.PDProductRepeat
import Verif.Props.PDProduct

namespace Probayes

variable {fmt : Val → Str} {args : List PD}

/-- The variable `k` is an array in every factor that has it, and some factor has it. -/
structure Spec.ArrayIn (args : List PD) (k : Str) : Prop where
  held : ∃ a ∈ args, k ∈ a.keylist
  array : ∀ a ∈ args, k ∈ a.keylist → a.axis k ≠ none

theorem unshared (hwf : ∀ a ∈ args, a.WF fmt) (hown : ∀ a ∈ args, ∀ k, Spec.OwnAxis a k) :
    dimsShared args = false := by
  rw [dimsShared, List.any_eq_false]
  intro a ha
  simp only [decide_not, Bool.not_eq_true, Bool.not_eq_false', decide_eq_true_eq]
  have hn := (hwf a ha).dimNodup
  have key : ∀ d : Dict Str (Option ℕ), (Dict.keys d).Nodup →
      (∀ k k' α, (k, some α) ∈ d → (k', some α) ∈ d → k' = k) →
      (d.filterMap Prod.snd).Nodup := by
    intro d
    induction d with
    | nil => intro _ _; simp
    | cons kv d ih =>
      intro hn h
      obtain ⟨k, o⟩ := kv
      obtain ⟨h1, h2⟩ := List.nodup_cons.mp hn
      have hd := ih h2 (fun x y α hx hy => h x y α (by simp [hx]) (by simp [hy]))
      rcases o with _ | α
      · simpa using hd
      · simp only [List.filterMap_cons, List.nodup_cons]
        refine ⟨?_, hd⟩
        intro hm
        obtain ⟨kv', h3, h4⟩ := List.mem_filterMap.mp hm
        have := h k kv'.1 α (by simp) (by
          rw [← h4]; exact List.mem_cons_of_mem _ h3)
        apply h1
        rw [← this]
        exact List.mem_map.mpr ⟨kv', h3, rfl⟩
  apply key _ hn
  intro k k' α h1 h2
  exact hown a ha k k' α (by rw [PD.axis, Dict.get?_of_mem hn h1]; rfl)
    (by rw [PD.axis, Dict.get?_of_mem hn h2]; rfl)

theorem array_notSingle {a : PD} (hw : a.WF fmt) {k : Str} (hk : k ∈ a.keylist) (hax : a.axis k ≠ none) :
    ∃ v, Dict.get? a.vals k = some v ∧ v.issingleton = false := by
  obtain ⟨v, hv⟩ := Dict.get?_of_mem_keys hk
  refine ⟨v, hv, ?_⟩
  by_contra hc
  have := (hw.single k v hv (by simpa using hc)).1
  exact hax (by rw [PD.axis, this]; rfl)

theorem singleKey_array (hwf : ∀ a ∈ args, a.WF fmt) {k : Str} (hk : Spec.ArrayIn args k) :
    singleKey args k = false := by
  obtain ⟨a, ha, hka⟩ := hk.held
  rw [singleKey, firstVal]
  rcases h : args.findSome? fun a => Dict.get? a.vals k with _ | v
  · rw [h]; rfl
  · rw [h]
    obtain ⟨b, hb, hbv⟩ := List.exists_of_findSome?_eq_some h
    obtain ⟨w, hw, hs⟩ := array_notSingle (hwf b hb) (Dict.mem_keys_of_get? hbv)
      (hk.array b hb (Dict.mem_keys_of_get? hbv))
    rw [hbv] at hw
    obtain rfl := Option.some.inj hw
    simpa using hs

/-- An array variable standing twice among the keys makes the product raise. -/
theorem product_repeat (hwf : ∀ a ∈ args, a.WF fmt) (hn : (args.flatMap fun a => a.marg.keys).Nodup)
    (hown : ∀ a ∈ args, ∀ k, Spec.OwnAxis a k) {k : Str} (hk : Spec.ArrayIn args k)
    (h2 : [k, k].Sublist (prodKeys args)) : Raises (product fmt args) := by
  obtain ⟨r1, r2, hr, hm, hs⟩ := List.cons_sublist_iff.mp h2
  obtain ⟨s', t, rfl⟩ := List.append_of_mem hm
  have hgen : ∀ {s : PScale}, Raises (productGeneral fmt args s false) := fun {s} =>
    productGeneral_repeat (unshared hwf hown) (K1 := s') (K2 := t ++ r2) (by rw [hr]; simp)
      (List.mem_append_right _ (List.singleton_sublist.mp hs)) (singleKey_array hwf hk)
  obtain ⟨a, ha, hka⟩ := hk.held
  rcases hsc : productPscale args with e | sc
  · rcases args with _ | ⟨first, rest⟩
    · simp at ha
    exact ⟨e, by simp only [product, hsc, bind, Except.bind]⟩
  · obtain ⟨e, he⟩ := hgen (s := sc)
    refine ⟨e, ?_⟩
    rw [product_general hsc hn, he]
    · rfl
    · rw [List.all_eq_false]
      refine ⟨a, ha, ?_⟩
      obtain ⟨v, hv, hvs⟩ := array_notSingle (hwf a ha) hka (hk.array a ha hka)
      rw [(hwf a ha).is]
      simp only [List.all_eq_true, not_forall]
      exact ⟨(k, v), Dict.get?_mem hv, by simp [hvs]⟩

theorem prodMarg_keys (hwf : ∀ a ∈ args, a.WF fmt) :
    (prodMarg args).map str2key = args.flatMap fun a => a.marg.keys := by
  rw [prodMarg, List.map_flatMap]
  refine List.flatMap_congr fun a ha => ?_
  rw [Dict.vals, Dict.keys, List.map_map]
  exact List.map_congr_left fun kt hkt => str2key_entry ((hwf a ha).margSide.2 kt hkt)

/-- C19: a condition of one factor on an array variable that another factor has as a
marginal variable, but written differently (`y` and `y=[]`), makes the product raise. -/
theorem C19_texts_refused (hwf : ∀ a ∈ args, a.WF fmt)
    (hn : (args.flatMap fun a => a.marg.keys).Nodup) (hown : ∀ a ∈ args, ∀ k, Spec.OwnAxis a k)
    {a b : PD} (ha : a ∈ args) (hb : b ∈ args) {k t t' : Str} (hm : (k, t) ∈ a.marg)
    (hc : (k, t') ∈ b.cond) (ht : t ≠ t') (hk : ∀ c ∈ args, k ∈ c.keylist → c.axis k ≠ none) :
    Raises (product fmt args) := by
  have hka : k ∈ a.keylist := ((hwf a ha).keys k).mpr (.inl (List.mem_map_of_mem (f := Prod.fst) hm))
  refine product_repeat hwf hn hown ⟨⟨a, ha, hka⟩, hk⟩ ?_
  rw [prodKeys, List.map_append]
  show ([k] ++ [k]).Sublist _
  refine List.Sublist.append ?_ ?_
  · rw [List.singleton_sublist, prodMarg_keys hwf]
    exact List.mem_flatMap.mpr ⟨a, ha, List.mem_map_of_mem (f := Prod.fst) hm⟩
  · rw [List.singleton_sublist]
    have hkey : str2key t' = k := str2key_entry ((hwf b hb).condSide.2 _ hc)
    refine List.mem_map.mpr ⟨t', ?_, hkey⟩
    have h1 : t' ∉ prodMarg args := by
      intro h0
      obtain ⟨c, hc0, h0⟩ := List.mem_flatMap.mp h0
      obtain ⟨⟨k', t0⟩, h3, h4⟩ := List.mem_map.mp h0
      simp only at h4
      subst h4
      have hk' : k' = k := by
        rw [← hkey]; exact (str2key_entry ((hwf c hc0).margSide.2 _ h3)).symm
      subst hk'
      obtain rfl : c = a := by
        by_contra hne
        have hp := List.pairwise_flatMap.mp (List.nodup_iff_pairwise_ne.mp hn)
        rcases List.mem_iff_getElem.mp ha with ⟨i, hi, rfl⟩
        rcases List.mem_iff_getElem.mp hc0 with ⟨j, hj, rfl⟩
        have hp2 := List.pairwise_iff_getElem.mp hp.2
        rcases lt_trichotomy i j with h | h | h
        · exact hp2 i j hi hj h _ (List.mem_map_of_mem (f := Prod.fst) hm) _
            (List.mem_map_of_mem (f := Prod.fst) h3) rfl
        · subst h; exact hne rfl
        · exact hp2 j i hj hi h _ (List.mem_map_of_mem (f := Prod.fst) h3) _
            (List.mem_map_of_mem (f := Prod.fst) hm) rfl
      have hnm := (hwf c hc0).margSide.1
      have e1 := Dict.get?_of_mem hnm hm
      have e2 := Dict.get?_of_mem hnm h3
      rw [e1] at e2
      exact ht (Option.some.inj e2)
    rw [prodCond, List.mem_filter]
    refine ⟨List.mem_flatMap.mpr ⟨b, hb, List.mem_map_of_mem (f := Prod.snd) hc⟩, ?_⟩
    simp only [cond2marg, List.mem_filter, decide_eq_true_eq, not_and, decide_not]
    simp [h1]

/-- C19: a condition on an array variable that two factors share, and no factor meets,
makes the product raise. -/
theorem C19_common_array_refused (hwf : ∀ a ∈ args, a.WF fmt)
    (hn : (args.flatMap fun a => a.marg.keys).Nodup) (hown : ∀ a ∈ args, ∀ k, Spec.OwnAxis a k)
    {a b : PD} (hab : [a, b].Sublist args) {k : Str} (hka : k ∈ a.cond.keys) (hkb : k ∈ b.cond.keys)
    (hu : Spec.Unmet args k) (hk : ∀ c ∈ args, k ∈ c.keylist → c.axis k ≠ none) :
    Raises (product fmt args) := by
  have ha : a ∈ args := hab.subset (by simp)
  have hb : b ∈ args := hab.subset (by simp)
  refine product_repeat hwf hn hown ⟨⟨a, ha, ((hwf a ha).keys k).mpr (.inr hka)⟩, hk⟩ ?_
  rw [prodKeys, List.map_append]
  refine List.Sublist.trans ?_ (List.sublist_append_right _ _)
  have hun : ∀ c ∈ args, ∀ t, (k, t) ∈ c.cond → t ∉ prodMarg args ∧ str2key t = k := by
    intro c hc t ht
    have hkey : str2key t = k := str2key_entry ((hwf c hc).condSide.2 _ ht)
    refine ⟨?_, hkey⟩
    intro h0
    have : k ∈ (prodMarg args).map str2key := by rw [← hkey]; exact List.mem_map_of_mem h0
    rw [prodMarg_keys hwf] at this
    obtain ⟨c', hc', h'⟩ := List.mem_flatMap.mp this
    exact hu c' hc' h'
  obtain ⟨⟨_, t⟩, hat, rfl⟩ := List.mem_map.mp hka
  obtain ⟨⟨k', t'⟩, hbt, hkk⟩ := List.mem_map.mp hkb
  simp only at hkk
  subst hkk
  obtain ⟨u1, v1⟩ := hun a ha t hat
  obtain ⟨u2, v2⟩ := hun b hb t' hbt
  have hsub : [t, t'].Sublist (flatCond args) := by
    have h1 : [a, b].flatMap (fun a => a.cond.vals) = a.cond.vals ++ b.cond.vals := by simp
    have h2 := List.Sublist.flatMap hab (fun a => a.cond.vals)
    rw [h1] at h2
    refine List.Sublist.trans ?_ h2
    show ([t] ++ [t']).Sublist _
    exact List.Sublist.append
      (List.singleton_sublist.mpr (List.mem_map_of_mem (f := Prod.snd) hat))
      (List.singleton_sublist.mpr (List.mem_map_of_mem (f := Prod.snd) hbt))
  have hf := (hsub.filter fun x => decide (x ∉ cond2marg args)).map str2key
  rw [List.filter_cons, if_pos (by simp [cond2marg, u1]), List.filter_cons,
    if_pos (by simp [cond2marg, u2])] at hf
  simp only [List.filter_nil, List.map_cons, List.map_nil, v1, v2] at hf
  exact hf

/-- `C19_common_array_refused` is not vacuous: p(x|z) p(y|z). -/
example : Raises (product (fun _ => []) [condPD 'x' 'z', condPD 'y' 'z']) := by
  have h := C19_common_array_raises.1
  refine C19_common_array_refused h.wf h.marg ?_ (List.Sublist.refl _) (k := ['z']) (by decide) (by decide)
    (by decide) ?_
  · intro a ha
    have hw := h.wf a ha
    simp only [List.mem_cons, List.not_mem_nil, or_false] at ha
    rcases ha with rfl | rfl <;> exact own_of_check hw (by decide)
  · simp only [List.mem_cons, List.not_mem_nil, or_false]
    rintro c (rfl | rfl) _ <;> decide

/-- p(y) named as a call with an array names it. -/
noncomputable def eqPD : PD :=
  ⟨['y', '=', '[', ']'], [(['y'], ['y', '=', '[', ']'])], [],
   ⟨[(['y'], .arr [2] [1, 2])], [(['y'], some 0)], 1, [2], [2], 2, [false], false⟩,
   ⟨[2], fun _ => 1 / 2⟩, .lin 1⟩

/-- `C19_texts_refused` is not vacuous: p(y=[]) p(x|y). -/
example : Raises (product (fun _ => []) [eqPD, condPD 'x' 'y']) := by
  have h1 : evalPscale (PScale.lin 1).spec = .ok (.lin 1) := by simp [PScale.spec, evalPscale]
  have hwf : ∀ a ∈ [eqPD, condPD 'x' 'y'], a.WF (fun _ => []) := by
    simp only [List.mem_cons, List.not_mem_nil, or_false]
    rintro a (rfl | rfl) <;> exact PD.wf_of_check (by decide) rfl h1
  refine C19_texts_refused hwf (by decide) ?_ (a := eqPD) (b := condPD 'x' 'y') (by simp) (by simp)
    (k := ['y']) (t := ['y', '=', '[', ']']) (t' := ['y']) (by simp [eqPD]) (by simp [condPD]) (by decide) ?_
  · intro a ha
    have hw := hwf a ha
    simp only [List.mem_cons, List.not_mem_nil, or_false] at ha
    rcases ha with rfl | rfl <;> exact own_of_check hw (by decide)
  · simp only [List.mem_cons, List.not_mem_nil, or_false]
    rintro c (rfl | rfl) _ <;> decide

end Probayes
