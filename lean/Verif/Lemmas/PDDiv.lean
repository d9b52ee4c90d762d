/-
Lemmas on division.
-/
import Verif.Model.PDDiv
import Verif.Spec.PDDiv
import Verif.Lemmas.PDProduct2
import Verif.Lemmas.PDCond
import Verif.Props.PDCond
import Mathlib.Data.Finset.Card

namespace Probayes

variable {fmt : Val → Str} {d e : PD}

/-! ### probabilities -/

theorem evalPscale_nothing : evalPscale .none = .ok (.lin 1) := by simp [evalPscale]

theorem divProbArr_ok {x y : Arr} {s t : PScale} (hs : evalPscale s.spec = .ok s)
    (ht : evalPscale t.spec = .ok t) (hy : FitsR y.shape x.shape) :
    ∃ R, divProbArr x y s.spec t.spec = .ok R ∧ R.shape = x.shape ∧
      ∀ i ∈ idx x.shape, R.get i = rescaleE (rescaleE (x.get i) s (.lin 1) /
        max npz (rescaleE (y.bget i) t (.lin 1))) (.lin 1) s := by
  set x' := x.map fun p => rescaleE p s (.lin 1) with hx'
  set y' := y.map fun p => rescaleE p t (.lin 1) with hy'
  have hb : bshape x'.shape y'.shape = .ok x.shape := by
    show bshape x.shape y.shape = _
    rcases hy with h | h
    · rw [h]
      simp [bshape, bshapeSame_fits (fits_ones x.shape)]
    · exact bshape_fits h
  refine ⟨(⟨x.shape, fun j => x'.bget j / max npz (y'.bget j)⟩ : Arr).map
    fun p => rescaleE p (.lin 1) s, ?_, rfl, ?_⟩
  · simp only [divProbArr, rescaleArr, hs, ht, evalPscale_nothing, bind, Except.bind, pure,
      Except.pure, divArr, Arr.zip]
    rw [← hx', ← hy', hb]
  · intro i hi
    show rescaleE (x'.bget i / max npz (y'.bget i)) (.lin 1) s = _
    rw [bget_self (a := x') hi, hy', bget_map]
    rfl

/-! ### axes of the divisor -/

theorem isSome_of_values (h : d.WF fmt) (h' : e.WF fmt) {k : Str} (hk : k ∈ d.keylist)
    (hval : d.values k = e.values k) : (d.axis k).isSome = (e.axis k).isSome := by
  obtain ⟨v, hv⟩ := Dict.get?_of_mem_keys hk
  unfold PD.values at hval
  rw [hv] at hval
  rcases hw : Dict.get? e.vals k with _ | w
  · rw [hw] at hval; simp at hval
  rw [hw] at hval
  simp only [Option.map_some, Option.some.injEq] at hval
  have hs : v.issingleton = w.issingleton := by rw [← issingleton_flat v, hval, issingleton_flat]
  rcases hb : w.issingleton with _ | _
  · obtain ⟨a, ha⟩ := h'.axis_isSome hw hb
    obtain ⟨b, hb⟩ := h.axis_isSome hv (hs.trans hb)
    simp [ha, hb]
  · simp [h'.axis_none hw hb, h.axis_none hv (hs.trans hb)]

theorem size_of_values (h : d.WF fmt) (h' : e.WF fmt) {k : Str} {a b : ℕ}
    (hval : d.values k = e.values k) (ha : d.axis k = some a) (hb : e.axis k = some b) :
    d.shape[a]? = e.shape[b]? := by
  obtain ⟨s, data, g1, -, g3, -⟩ := h.axis_some ha
  obtain ⟨s', data', f1, -, f3, -⟩ := h'.axis_some hb
  unfold PD.values at hval
  rw [f1, g1] at hval
  simp only [Option.map_some, Option.some.injEq] at hval
  obtain ⟨s'', hs, -⟩ := flat_arr hval
  simp only [Val.arr.injEq] at hs
  rw [f3, g3, hs.2]

section axes
variable (h : d.WF fmt) (h' : e.WF fmt) (D : Spec.Divisor d e)

include h h' D

theorem Spec.Divisor.isSome {k : Str} (hk : k ∈ e.keylist) : (e.axis k).isSome = (d.axis k).isSome :=
  isSome_of_values h' h hk (D.values k hk)

theorem Spec.Divisor.size {k : Str} {a b : ℕ} (ha : d.axis k = some a) (hb : e.axis k = some b) :
    e.shape[b]? = d.shape[a]? :=
  size_of_values h' h (D.values k (h'.dimKeys k (Dict.mem_keys_of_get? (join_eq_some.mp hb)))) hb ha

theorem Spec.Divisor.onMarg {k : Str} {b : ℕ} (hb : e.axis k = some b) : k ∈ e.marg.keys := by
  have hk : k ∈ e.vals.keys := h'.dimKeys k (Dict.mem_keys_of_get? (join_eq_some.mp hb))
  rcases (h'.keys k).mp hk with hm | hc
  · exact hm
  · rw [D.given k hc] at hb; simp at hb

theorem Spec.Divisor.dropped : ∃ p : ℕ → Bool, Dropped d e p ∧
    ∀ a, p a = false ↔ ∃ k ∈ e.marg.keys, d.axis k = some a := by
  classical
  set p : ℕ → Bool := fun a => decide (¬ ∃ k ∈ e.marg.keys, d.axis k = some a) with hp
  have hpf : ∀ a, p a = false ↔ ∃ k ∈ e.marg.keys, d.axis k = some a := by
    intro a; simp [hp]
  have hkl : ∀ k ∈ e.marg.keys, k ∈ e.keylist := fun k hk => (h'.keys k).mpr (Or.inl hk)
  have hax : ∀ k ∈ e.marg.keys, ∀ a, d.axis k = some a → ∃ b, e.axis k = some b := by
    intro k hk a ha
    have := D.isSome h h' (hkl k hk)
    rw [ha] at this
    exact Option.isSome_iff_exists.mp this
  -- the axis of the divisor for a kept axis
  have hf : ∀ a, ∃ b, p a = false → ∃ k ∈ e.marg.keys, d.axis k = some a ∧ e.axis k = some b := by
    intro a
    by_cases ha : p a = false
    · obtain ⟨k, hk, hka⟩ := (hpf a).mp ha
      obtain ⟨b, hb⟩ := hax k hk a hka
      exact ⟨b, fun _ => ⟨k, hk, hka, hb⟩⟩
    · exact ⟨0, fun hc => absurd hc ha⟩
  choose f hf using hf
  have huniq : ∀ k a b, d.axis k = some a → e.axis k = some b → b = f a := by
    intro k a b ha hb
    obtain ⟨k', hk', h1, h2⟩ := hf a ((hpf a).mpr ⟨k, D.onMarg h h' hb, ha⟩)
    have e1 := D.order k k' a a b (f a) ha h1 hb h2
    have e2 := D.order k' k a a (f a) b h1 ha h2 hb
    omega
  have hrank : ∀ a, p a = false → f a = a - Probayes.dropped p a := by
    intro a ha
    obtain ⟨k, hk, h1, h2⟩ := hf a ha
    have himg : ((Finset.range a).filter fun c => p c = false).image f = Finset.range (f a) := by
      ext b
      simp only [Finset.mem_image, Finset.mem_filter, Finset.mem_range]
      constructor
      · rintro ⟨c, ⟨hc, hpc⟩, rfl⟩
        obtain ⟨k', hk', g1, g2⟩ := hf c hpc
        exact (D.order k' k c a _ _ g1 h1 g2 h2).mpr hc
      · intro hb
        obtain ⟨k', hk'⟩ := h'.cover b (lt_trans hb (h'.axis_lt h2))
        have hm := D.onMarg h h' hk'
        have := D.isSome h h' (hkl k' hm)
        rw [hk'] at this
        obtain ⟨c, hc⟩ := Option.isSome_iff_exists.mp this.symm
        have hbc := huniq k' c b hc hk'
        refine ⟨c, ⟨(D.order k' k c a b (f a) hc h1 hk' h2).mp hb, (hpf c).mpr ⟨k', hm, hc⟩⟩, hbc.symm⟩
    have hinj : Set.InjOn f ((Finset.range a).filter fun c => p c = false : Finset ℕ) := by
      intro c hc c' hc' hcc
      simp only [Finset.coe_filter, Set.mem_setOf_eq] at hc hc'
      obtain ⟨k1, _, g1, g2⟩ := hf c hc.2
      obtain ⟨k2, _, g3, g4⟩ := hf c' hc'.2
      have e1 := D.order k1 k2 c c' _ _ g1 g3 g2 g4
      have e2 := D.order k2 k1 c' c _ _ g3 g1 g4 g2
      omega
    have hcard := congrArg Finset.card himg
    rw [Finset.card_image_of_injOn hinj, Finset.card_range] at hcard
    have hc2 : (List.range a).countP p + ((Finset.range a).filter fun c => p c = false).card = a := by
      have h3 : ((Finset.range a).filter fun c => p c = false).card = (List.range a).countP (fun c => !p c) := by
        rw [List.countP_eq_length_filter, ← List.toFinset_card_of_nodup (List.nodup_range.filter _)]
        congr 1
        ext c; simp
      rw [h3]
      have := List.length_eq_countP_add_countP (l := List.range a) p
      rw [List.length_range] at this
      simp only [Bool.not_eq_true] at this
      have e : (fun a => decide (p a = false)) = fun c => !p c := by
        funext c; cases p c <;> rfl
      rw [e] at this
      omega
    unfold Probayes.dropped
    omega
  refine ⟨p, ⟨?_, ?_⟩, hpf⟩
  · apply List.ext_getElem?
    intro b
    by_cases hb : b < e.ndim
    · obtain ⟨k, hk⟩ := h'.cover b hb
      have hm := D.onMarg h h' hk
      have := D.isSome h h' (hkl k hm)
      rw [hk] at this
      obtain ⟨a, ha⟩ := Option.isSome_iff_exists.mp this.symm
      have hpa := (hpf a).mpr ⟨k, hm, ha⟩
      rw [D.size h h' ha hk, huniq k a b ha hk, hrank a hpa, getElem?_dropAxes p d.shape a hpa]
    · rw [List.getElem?_eq_none (by rw [h'.rank]; omega)]
      symm
      rw [List.getElem?_eq_none_iff]
      by_contra hc
      obtain ⟨a, ha, hpa, hab⟩ := exists_kept p d.shape b (by omega)
      obtain ⟨k, hk, h1, h2⟩ := hf a hpa
      have := h'.axis_lt h2
      rw [hrank a hpa, hab] at this
      exact hb this
  · intro k
    rcases ha : d.axis k with _ | a
    · simp only [Option.bind_none]
      rcases hb : e.axis k with _ | b
      · rfl
      · have := D.isSome h h' (hkl k (D.onMarg h h' hb))
        rw [ha, hb] at this; simp at this
    · simp only [Option.bind_some]
      by_cases hpa : p a = false
      · obtain ⟨k', hk', hk2⟩ := (hpf a).mp hpa
        have hk := D.together k' k a hk2 ha hk'
        obtain ⟨b, hb⟩ := hax k hk a ha
        rw [hb, huniq k a b ha hb, hrank a hpa]
        simp [hpa]
      · rcases hb : e.axis k with _ | b
        · simp [hpa]
        · exact absurd ((hpf a).mpr ⟨k, D.onMarg h h' hb, ha⟩) hpa

end axes

/-! ### the loop -/

theorem divStep_move (st : DivState) (k : Str) (hm : k ∈ Dict.keys st.marg) (hc : k ∉ Dict.keys st.cond)
    (hn : (Dict.keys st.marg).Nodup) (keys : List Str) (hk : k ∈ keys) :
    st.move k = .ok { st with
      marg := st.marg.filter (fun kv => !(decide (kv.1 ∈ keys) && decide (kv.1 = k)))
      cond := st.cond ++ ((Dict.get? st.marg k).map fun t => (k, t)).toList } := by
  obtain ⟨t, ht⟩ := Dict.get?_of_mem_keys hm
  simp only [DivState.move, ht, Option.map_some, Option.toList_some]
  rw [Dict.erase_eq_filter _ _ hn, Dict.set_of_notMem hc]
  congr 2
  apply List.filter_congr
  rintro ⟨k', t'⟩ _
  by_cases h : k' = k
  · subst h; simp [hk]
  · simp [h]

theorem divLoop_ok (l : Dict Str Val) : ∀ st : DivState, (Dict.keys l).Nodup →
    (Dict.keys st.marg).Nodup →
    (∀ k ∈ Dict.keys l, k ∈ e.marg.keys → k ∈ Dict.keys st.marg ∧ k ∉ Dict.keys st.cond) →
    (∀ kv ∈ l, kv.1 ∈ e.marg.keys → kv.2.issingleton = false → ∃ s data a,
      Dict.get? e.vals kv.1 = some (.arr s data) ∧ d.axis kv.1 = some a ∧
      d.shape[a]? = some data.length ∧ a < st.shape.length) →
    ∃ st', l.foldlM (divStep d e) st = .ok st' ∧
      st'.marg = st.marg.filter (fun kv => !(decide (kv.1 ∈ e.marg.keys) && decide (kv.1 ∈ Dict.keys l))) ∧
      st'.cond = st.cond ++ condNew st.marg e.marg.keys l ∧
      st'.vals = (l.filter fun kv => kv.1 ∉ e.marg.keys).foldl (fun acc kv => Dict.set acc kv.1 kv.2) st.vals ∧
      st'.shape.length = st.shape.length ∧
      (e.dist.issingleton = false → ∀ c, ((∃ kv ∈ l, kv.1 ∈ e.marg.keys ∧ kv.2.issingleton = false ∧
          d.axis kv.1 = some c) → st'.shape[c]? = d.shape[c]?) ∧
        ((¬ ∃ kv ∈ l, kv.1 ∈ e.marg.keys ∧ kv.2.issingleton = false ∧ d.axis kv.1 = some c) →
          st'.shape[c]? = st.shape[c]?)) := by
  induction l with
  | nil =>
    intro st _ _ _ _
    refine ⟨st, rfl, by simp, by simp [condNew], rfl, rfl, ?_⟩
    intro _ c; simp
  | cons kv l ih =>
    obtain ⟨k, v⟩ := kv
    intro st hn hm hk harr
    simp only [Dict.keys_cons, List.nodup_cons] at hn
    by_cases hke : k ∈ e.marg.keys
    · obtain ⟨hk1, hk2⟩ := hk k (by simp) hke
      have hmove := divStep_move st k hk1 hk2 hm _ hke
      set M := st.marg.filter (fun kv => !(decide (kv.1 ∈ e.marg.keys) && decide (kv.1 = k))) with hM
      set C := st.cond ++ ((Dict.get? st.marg k).map fun t => (k, t)).toList with hC
      have hMk : Dict.keys M = (Dict.keys st.marg).filter
          (fun x => !(decide (x ∈ e.marg.keys) && decide (x = k))) := by
        rw [hM]
        exact Dict.keys_filter (fun x => !(decide (x ∈ e.marg.keys) && decide (x = k))) st.marg
      have hMn : (Dict.keys M).Nodup := by rw [hMk]; exact hm.filter _
      have hMg : ∀ k' ∈ Dict.keys l, Dict.get? M k' = Dict.get? st.marg k' := by
        intro k' hk'
        rw [hM, Dict.get?_filter (fun x => !(decide (x ∈ e.marg.keys) && decide (x = k))) st.marg k']
        have : k' ≠ k := by rintro rfl; exact hn.1 hk'
        simp [this]
      have hnext : ∀ k' ∈ Dict.keys l, k' ∈ e.marg.keys → k' ∈ Dict.keys M ∧ k' ∉ Dict.keys C := by
        intro k' h1 h2
        obtain ⟨e1, e3⟩ := hk k' (by simp [h1]) h2
        have hne : k' ≠ k := by rintro rfl; exact hn.1 h1
        refine ⟨by rw [hMk, List.mem_filter]; exact ⟨e1, by simp [hne]⟩, ?_⟩
        rw [hC, Dict.keys_append, List.mem_append, not_or]
        refine ⟨e3, ?_⟩
        rcases Dict.get? st.marg k with _ | t
        · simp
        · simpa using hne
      have hmarg : M.filter (fun kv => !(decide (kv.1 ∈ e.marg.keys) && decide (kv.1 ∈ Dict.keys l))) =
          st.marg.filter (fun kv => !(decide (kv.1 ∈ e.marg.keys) &&
            decide (kv.1 ∈ Dict.keys ((k, v) :: l)))) := by
        rw [hM, List.filter_filter]
        apply List.filter_congr
        rintro ⟨k', t⟩ _
        by_cases hkk : k' = k
        · subst hkk; simp [hke]
        · simp [hkk]
      have hcond : C ++ condNew M e.marg.keys l = st.cond ++ condNew st.marg e.marg.keys ((k, v) :: l) := by
        rw [condNew_congr hMg, hC, List.append_assoc]
        congr 1
        rcases hg : Dict.get? st.marg k with _ | t
        · simp [condNew, hke, hg]
        · simp [condNew, hke, hg]
      have hvals : ((k, v) :: l).filter (fun kv => kv.1 ∉ e.marg.keys) =
          l.filter (fun kv => kv.1 ∉ e.marg.keys) := by
        rw [List.filter_cons_of_neg]; simpa using hke
      by_cases hr : (!v.issingleton && !e.dist.issingleton) = true
      · simp only [Bool.and_eq_true, Bool.not_eq_true'] at hr
        obtain ⟨s, data, a, f1, f2, f3, f4⟩ := harr (k, v) (by simp) hke hr.1
        have hstep : divStep d e st (k, v) = .ok ⟨M, C, st.vals, st.shape.set a data.length⟩ := by
          have hdim : dimOf d.dims k = .ok (some a) := by
            rw [dimOf, join_eq_some.mp f2]
          simp [divStep, hke, hmove, hr, DivState.resize, PD.getItem, f1, hdim, bind, Except.bind,
            pure, Except.pure]
        obtain ⟨st', g1, g2, g3, g4, g5, g6⟩ := ih ⟨M, C, st.vals, st.shape.set a data.length⟩ hn.2 hMn
          hnext (fun kv hkv h1 h2 => by
            obtain ⟨s, data', a', q1, q2, q3, q4⟩ := harr kv (by simp [hkv]) h1 h2
            exact ⟨s, data', a', q1, q2, q3, by simpa using q4⟩)
        refine ⟨st', by rw [List.foldlM_cons, hstep]; exact g1, by rw [g2]; exact hmarg,
          by rw [g3]; exact hcond, by rw [hvals]; exact g4, by rw [g5]; simp, ?_⟩
        intro he c
        obtain ⟨g7, g8⟩ := g6 he c
        by_cases hex : ∃ kv ∈ l, kv.1 ∈ e.marg.keys ∧ kv.2.issingleton = false ∧ d.axis kv.1 = some c
        · refine ⟨fun _ => g7 hex, fun hno => absurd ?_ hno⟩
          obtain ⟨kv, h1, h2⟩ := hex
          exact ⟨kv, by simp [h1], h2⟩
        · have g8 := g8 hex
          simp only [List.getElem?_set, f4, if_true] at g8
          by_cases hac : a = c
          · subst hac
            refine ⟨fun _ => by rw [g8, if_pos rfl, f3], fun hno => absurd ?_ hno⟩
            exact ⟨(k, v), by simp, hke, hr.1, f2⟩
          · rw [if_neg hac] at g8
            refine ⟨?_, fun _ => g8⟩
            rintro ⟨kv, h1, h2, h3, h4⟩
            rcases List.mem_cons.mp h1 with rfl | h1
            · rw [f2] at h4; simp at h4; exact absurd h4 hac
            · exact absurd ⟨kv, h1, h2, h3, h4⟩ hex
      · have hstep : divStep d e st (k, v) = .ok ⟨M, C, st.vals, st.shape⟩ := by
          simp only [Bool.not_eq_true] at hr
          simp only [divStep, hke, if_true, hmove, bind, Except.bind, hr, Bool.false_eq_true, if_false,
            pure, Except.pure]
        obtain ⟨st', g1, g2, g3, g4, g5, g6⟩ := ih ⟨M, C, st.vals, st.shape⟩ hn.2 hMn
          hnext (fun kv hkv h1 h2 => harr kv (by simp [hkv]) h1 h2)
        refine ⟨st', by rw [List.foldlM_cons, hstep]; exact g1, by rw [g2]; exact hmarg,
          by rw [g3]; exact hcond, by rw [hvals]; exact g4, by rw [g5], ?_⟩
        intro he c
        have hvs : v.issingleton = true := by
          by_contra hc
          apply hr
          simpa [he] using hc
        obtain ⟨g7, g8⟩ := g6 he c
        have hiff : (∃ kv ∈ (k, v) :: l, kv.1 ∈ e.marg.keys ∧ kv.2.issingleton = false ∧ d.axis kv.1 = some c) ↔
            (∃ kv ∈ l, kv.1 ∈ e.marg.keys ∧ kv.2.issingleton = false ∧ d.axis kv.1 = some c) := by
          constructor
          · rintro ⟨kv, h1, h2, h3, h4⟩
            rcases List.mem_cons.mp h1 with rfl | h1
            · rw [hvs] at h3; simp at h3
            · exact ⟨kv, h1, h2, h3, h4⟩
          · rintro ⟨kv, h1, h2⟩; exact ⟨kv, by simp [h1], h2⟩
        rw [hiff]
        exact ⟨g7, g8⟩
    · have hstep : divStep d e st (k, v) = .ok { st with vals := Dict.set st.vals k v } := by
        simp [divStep, hke]
      obtain ⟨st', g1, g2, g3, g4, g5, g6⟩ := ih { st with vals := Dict.set st.vals k v } hn.2 hm
        (fun k' h1 h2 => hk k' (by simp [h1]) h2) (fun kv hkv h1 h2 => harr kv (by simp [hkv]) h1 h2)
      refine ⟨st', by rw [List.foldlM_cons, hstep]; exact g1, ?_, ?_, ?_, g5, ?_⟩
      · rw [g2]
        apply List.filter_congr
        rintro ⟨k', t⟩ _
        by_cases hkk : k' = k
        · subst hkk; simp [hke]
        · simp [hkk]
      · rw [g3]; simp [condNew, hke]
      · rw [List.filter_cons_of_pos (by simpa using hke)]; exact g4
      · intro he c
        have hiff : (∃ kv ∈ (k, v) :: l, kv.1 ∈ e.marg.keys ∧ kv.2.issingleton = false ∧ d.axis kv.1 = some c) ↔
            (∃ kv ∈ l, kv.1 ∈ e.marg.keys ∧ kv.2.issingleton = false ∧ d.axis kv.1 = some c) := by
          constructor
          · rintro ⟨kv, h1, h2, h3, h4⟩
            rcases List.mem_cons.mp h1 with rfl | h1
            · exact absurd h2 hke
            · exact ⟨kv, h1, h2, h3, h4⟩
          · rintro ⟨kv, h1, h2⟩; exact ⟨kv, by simp [h1], h2⟩
        rw [hiff]
        exact g6 he c

/-! ### the sides and values of the result -/

theorem divBuild {keys : List Str} (h : d.WF fmt) (hpos : d.Pos) (hkeys : ∀ k ∈ keys, k ∈ d.marg.keys)
    {vals : Dict Str Val} (hn : (Dict.keys vals).Nodup)
    (hg : ∀ k, Dict.get? vals k = Dict.get? d.vals k) :
    BuildArgs fmt (d.marg.filter fun kt => kt.1 ∉ keys) (d.cond ++ condNew d.marg keys d.vals)
      vals d.dims d.shape := by
  have hnn := nodup_condNew (keys := keys) d.marg d.vals h.nodup
  have hcn : ∀ k, k ∈ Dict.keys (condNew d.marg keys d.vals) ↔ k ∈ keys := by
    intro k
    constructor
    · intro hk
      obtain ⟨kt, h1, rfl⟩ := List.mem_map.mp hk
      exact ((mem_condNew h hkeys kt).mp h1).2
    · intro hk
      obtain ⟨t, ht⟩ := Dict.get?_of_mem_keys (hkeys k hk)
      exact List.mem_map.mpr ⟨(k, t), (mem_condNew h hkeys _).mpr ⟨Dict.get?_mem ht, hk⟩, rfl⟩
  have hmk : Dict.keys (d.marg.filter fun kt => kt.1 ∉ keys) = (Dict.keys d.marg).filter (· ∉ keys) :=
    Dict.keys_filter (fun k => decide (k ∉ keys)) d.marg
  have hck : ∀ k, k ∈ Dict.keys (d.cond ++ condNew d.marg keys d.vals) ↔ k ∈ Dict.keys d.cond ∨ k ∈ keys := by
    intro k; rw [Dict.keys_append, List.mem_append, hcn]
  have hcnod : (Dict.keys (d.cond ++ condNew d.marg keys d.vals)).Nodup := by
    rw [Dict.keys_append, List.nodup_append]
    refine ⟨h.condSide.1, hnn.1, ?_⟩
    rintro a ha b hb rfl
    exact h.disj a (hkeys a ((hcn a).mp hb)) ha
  have hgm : ∀ k, Dict.get? (d.marg.filter fun kt => kt.1 ∉ keys) k =
      if k ∈ keys then none else Dict.get? d.marg k := by
    intro k
    rw [Dict.get?_filter (fun k => decide (k ∉ keys)) d.marg k]
    by_cases hk : k ∈ keys <;> simp [hk]
  have hgc : ∀ k t, (Dict.get? d.cond k = some t ∨ (k ∈ keys ∧ Dict.get? d.marg k = some t)) →
      Dict.get? (d.cond ++ condNew d.marg keys d.vals) k = some t := by
    intro k t ht
    apply Dict.get?_of_mem hcnod
    apply List.mem_append.mpr
    rcases ht with ht | ⟨h1, h2⟩
    · exact Or.inl (Dict.get?_mem ht)
    · exact Or.inr ((mem_condNew h hkeys _).mpr ⟨Dict.get?_mem h2, h1⟩)
  have hmem : ∀ k, k ∈ Dict.keys vals ↔ k ∈ Dict.keys d.vals := by
    intro k
    rw [← not_iff_not, ← Dict.get?_eq_none, ← Dict.get?_eq_none, hg]
  have hb := h.buildArgs hpos
  refine ⟨?_, hn, ?_, ?_, ?_, ?_, ?_, h.dimNodup, ?_, ?_, ?_, hb.cover⟩
  · rintro rfl
    rcases hv : d.vals with _ | ⟨kv, l⟩
    · exact h.ne hv
    · have := (hmem kv.1).mpr (by simp [hv])
      simp at this
  · intro k hk; exact h.allowed k ((hmem k).mp hk)
  · refine ⟨?_, ?_⟩
    · show (Dict.keys (d.marg.filter fun kt => kt.1 ∉ keys)).Nodup
      rw [hmk]; exact h.margSide.1.filter _
    · intro kv hkv
      exact h.margSide.2 kv (List.mem_filter.mp hkv).1
  · refine ⟨hcnod, ?_⟩
    intro kv hkv
    rcases List.mem_append.mp hkv with hkv | hkv
    · exact h.condSide.2 kv hkv
    · exact h.margSide.2 kv ((mem_condNew h hkeys kv).mp hkv).1
  · intro k hk hc
    have hk' : k ∈ Dict.keys (d.marg.filter fun kt => kt.1 ∉ keys) := hk
    rw [hmk, List.mem_filter] at hk'
    rcases (hck k).mp hc with hc | hc
    · exact h.disj k hk'.1 hc
    · simp [hc] at hk'
  · intro k
    show k ∈ Dict.keys vals ↔ k ∈ Dict.keys (d.marg.filter fun kt => kt.1 ∉ keys) ∨
      k ∈ Dict.keys (d.cond ++ condNew d.marg keys d.vals)
    rw [hmem, hck, hmk, List.mem_filter]
    show k ∈ Dict.keys d.vals ↔ _
    rw [h.keys k]
    by_cases hk : k ∈ keys
    · simp [hk, hkeys k hk]
    · simp [hk]
  · intro k hk; exact (hmem k).mpr (h.dimKeys k hk)
  · intro k v hv hs
    rw [hg] at hv
    refine ⟨h.axis_none hv hs, ?_⟩
    rcases (h.single k v hv hs).2 with ht | ht
    · by_cases hk : k ∈ keys
      · exact Or.inr (hgc k _ (Or.inr ⟨hk, ht⟩))
      · left; rw [hgm]; simpa [hk] using ht
    · exact Or.inr (hgc k _ (Or.inl ht))
  · intro k v hv hs
    rw [hg] at hv
    exact h.size_ok hpos hv hs

/-! ### the quotient -/

theorem dropAxes_agree {α : Type _} (l : List α) : ∀ (l' : List α) (p : ℕ → Bool), l.length = l'.length →
    (∀ n, p n = false → l[n]? = l'[n]?) → dropAxes p l = dropAxes p l' := by
  induction l with
  | nil => intro l' p hl _; rw [List.length_eq_zero_iff.mp hl.symm]
  | cons x l ih =>
    rintro (_ | ⟨y, l'⟩) p hl hp
    · simp at hl
    have ht := ih l' (fun m => p (m + 1)) (by simpa using hl) (fun n hn => by simpa using hp (n + 1) hn)
    by_cases h0 : p 0 = true
    · simp [dropAxes, h0, ht]
    · have := hp 0 (by simpa using h0)
      simp only [List.getElem?_cons_zero, Option.some.injEq] at this
      simp [dropAxes, h0, ht, this]

theorem fits_of_getElem {T S : List ℕ} (hl : T.length = S.length)
    (h : ∀ c : ℕ, T[c]? = S[c]? ∨ T[c]? = some 1) : Fits T S := by
  unfold Fits
  rw [List.forall₂_iff_get]
  refine ⟨hl, ?_⟩
  intro i h1 h2
  have := h i
  rw [List.getElem?_eq_getElem h1, List.getElem?_eq_getElem h2] at this
  simpa using this

/-- What the code computes, before reading the entries as probabilities. -/
theorem truediv_core (h : d.WF fmt) (h' : e.WF fmt) (hpos : d.Pos) (D : Spec.Divisor d e) :
    ∃ r, d.truediv fmt e = .ok r ∧ r.WF fmt ∧
      r.marg = d.marg.filter (fun kt => kt.1 ∉ e.marg.keys) ∧
      r.cond = d.cond ++ condNew d.marg e.marg.keys d.vals ∧
      (∀ k, r.values k = d.values k) ∧ (∀ k, r.axis k = d.axis k) ∧ r.shape = d.shape ∧
      r.pscale = d.pscale ∧
      ∀ i ∈ idx d.shape, ∀ j ∈ idx e.shape, Spec.Agree d e i j →
        r.prob.get i = rescaleE (rescaleE (d.prob.get i) d.pscale (.lin 1) /
          max npz (rescaleE (e.prob.get j) e.pscale (.lin 1))) (.lin 1) d.pscale := by
  obtain ⟨p, hdrop, hp⟩ := D.dropped h h'
  have hkl : ∀ k ∈ e.marg.keys, k ∈ e.keylist := fun k hk => (h'.keys k).mpr (Or.inl hk)
  have hsing : e.dist.issingleton = true ↔ ∀ k, e.axis k = none := by
    rw [h'.is, List.all_eq_true]
    constructor
    · intro hall k
      rcases ha : e.axis k with _ | a
      · rfl
      · obtain ⟨s, data, g1, g2, _⟩ := h'.axis_some ha
        have := hall _ (Dict.get?_mem g1)
        rw [show (Val.arr s data).issingleton = true ↔ e.axis k = none from h'.axis_single g1, ha] at this
        simp at this
    · rintro hall ⟨k, v⟩ hkv
      exact (h'.axis_single (Dict.get?_of_mem h'.nodup hkv)).mpr (hall k)
  have hok : divOK d e = true := by
    simp only [divOK, Bool.and_eq_true, List.all_eq_true, decide_eq_true_eq, Bool.or_eq_true,
      Bool.not_eq_true']
    refine ⟨⟨fun k hk => (D.cond k).mpr hk, fun k hk => (D.cond k).mp hk⟩, ?_⟩
    rcases hs : e.dist.issingleton with _ | _
    · exact Or.inl rfl
    right
    have hnone := hsing.mp hs
    have hmem : ∀ k, k ∈ Dict.keys (d.vals.filter fun kv => decide (kv.1 ∈ d.marg.keys) && kv.2.issingleton) ↔
        k ∈ d.marg.keys ∧ d.axis k = none := by
      intro k
      constructor
      · intro hk
        obtain ⟨⟨k', v⟩, h1, rfl⟩ := List.mem_map.mp hk
        simp only [List.mem_filter, Bool.and_eq_true, decide_eq_true_eq] at h1
        exact ⟨h1.2.1, h.axis_none (Dict.get?_of_mem h.nodup h1.1) h1.2.2⟩
      · rintro ⟨h1, h2⟩
        obtain ⟨v, hv⟩ := Dict.get?_of_mem_keys ((h.keys k).mpr (Or.inl h1))
        refine List.mem_map.mpr ⟨(k, v), ?_, rfl⟩
        simp only [List.mem_filter, Bool.and_eq_true, decide_eq_true_eq]
        exact ⟨Dict.get?_mem hv, h1, (h.axis_single hv).mpr h2⟩
    refine ⟨fun k hk => ?_, fun k hk => ?_⟩
    · obtain ⟨h1, h2⟩ := (hmem k).mp hk
      exact D.scalars hnone k h1 h2
    · apply (hmem k).mpr
      refine ⟨D.marg k hk, ?_⟩
      have := D.isSome h h' (hkl k hk)
      rw [hnone k] at this
      simpa using this.symm
  obtain ⟨st, g1, g2, g3, g4, g5, g6⟩ := divLoop_ok (d := d) (e := e) d.vals
    ⟨d.marg, d.cond, d.cond.map fun kt => (kt.1, .other), List.replicate d.ndim 1⟩ h.nodup h.margSide.1
    (fun k _ hk => ⟨D.marg k hk, h.disj k (D.marg k hk)⟩) (by
      rintro ⟨k, v⟩ hkv hk hs
      obtain ⟨a, ha⟩ := h.axis_isSome (Dict.get?_of_mem h.nodup hkv) hs
      have := D.isSome h h' (hkl k hk)
      rw [ha] at this
      obtain ⟨b, hb⟩ := Option.isSome_iff_exists.mp this
      obtain ⟨s, data, f1, -, f3, -⟩ := h'.axis_some hb
      refine ⟨s, data, a, f1, ha, by rw [← D.size h h' ha hb, f3], ?_⟩
      simpa using h.axis_lt ha)
  dsimp only at g2 g3 g4 g5 g6
  have hmarg : st.marg = d.marg.filter fun kt => kt.1 ∉ e.marg.keys := by
    rw [g2]
    apply List.filter_congr
    rintro ⟨k, t⟩ hkt
    have hk : k ∈ Dict.keys d.vals :=
      (h.keys k).mpr (Or.inl (List.mem_map.mpr ⟨(k, t), hkt, rfl⟩))
    simp [hk]
  -- values
  set vals := (d.vals.filter fun kv => kv.1 ∈ e.marg.keys).foldl
      (fun acc kv => Dict.set acc kv.1 kv.2) st.vals with hvals
  have hck : Dict.keys (d.cond.map fun kt => (kt.1, Val.other)) = Dict.keys d.cond := by
    simp [Dict.keys, Function.comp_def]
  have hvn : (Dict.keys vals).Nodup := by
    rw [hvals, g4]
    apply nodup_foldl_set
    apply nodup_foldl_set
    rw [hck]; exact h.condSide.1
  have hvg : ∀ k, Dict.get? vals k = Dict.get? d.vals k := by
    intro k
    rcases hg : Dict.get? d.vals k with _ | v
    · rw [Dict.get?_eq_none] at hg ⊢
      rw [hvals, mem_keys_foldl_set, g4, mem_keys_foldl_set, hck]
      rintro ((hc | hc) | hc)
      · exact hg ((h.keys k).mpr (Or.inr hc))
      · obtain ⟨kv, h1, rfl⟩ := List.mem_map.mp hc
        exact hg (List.mem_map.mpr ⟨kv, (List.mem_filter.mp h1).1, rfl⟩)
      · obtain ⟨kv, h1, rfl⟩ := List.mem_map.mp hc
        exact hg (List.mem_map.mpr ⟨kv, (List.mem_filter.mp h1).1, rfl⟩)
    · have hu : ∀ v', (k, v') ∈ d.vals → v' = v := by
        intro v' hv'
        have := Dict.get?_of_mem h.nodup hv'
        rw [hg] at this
        simpa using this.symm
      rw [hvals]
      apply get?_foldl_set
      · intro v' hv'; exact hu v' (List.mem_filter.mp hv').1
      · by_cases hk : k ∈ e.marg.keys
        · left; exact List.mem_filter.mpr ⟨Dict.get?_mem hg, by simpa using hk⟩
        · right
          rw [g4]
          apply get?_foldl_set
          · intro v' hv'; exact hu v' (List.mem_filter.mp hv').1
          · left; exact List.mem_filter.mpr ⟨Dict.get?_mem hg, by simpa using hk⟩
  have hB := divBuild h hpos D.marg hvn hvg
  -- probabilities of the divisor
  obtain ⟨divp, q1, q2, q3⟩ : ∃ divp, divisorProb e st.shape = .ok divp ∧ FitsR divp.shape d.prob.shape ∧
      ∀ i ∈ idx d.shape, ∀ j ∈ idx e.shape, Spec.Agree d e i j → divp.bget i = e.prob.get j := by
    unfold divisorProb
    rcases hs : e.dist.issingleton with _ | _
    · have hlen : st.shape.length = d.shape.length := by rw [g5, h.rank]; simp
      have hT : ∀ c, (p c = false → st.shape[c]? = d.shape[c]?) ∧
          (p c = true → ∀ m, st.shape[c]? = some m → m = 1) := by
        intro c
        obtain ⟨g7, g8⟩ := g6 hs c
        constructor
        · intro hc
          obtain ⟨k, hk, hka⟩ := (hp c).mp hc
          obtain ⟨s, data, f1, -⟩ := h.axis_some hka
          refine g7 ⟨(k, .arr s data), Dict.get?_mem f1, hk, ?_, hka⟩
          by_contra hcon
          have := h.axis_none f1 (by simpa using hcon)
          rw [hka] at this; simp at this
        · intro hc m hm
          rw [g8 (by
            rintro ⟨kv, _, h2, _, h4⟩
            have := (hp c).mpr ⟨kv.1, h2, h4⟩
            rw [hc] at this; simp at this)] at hm
          exact List.eq_of_mem_replicate (List.mem_of_getElem? hm)
      obtain ⟨q, r1, r2, r3⟩ := reshape_squeeze e.prob st.shape p (fun n m hn hm => (hT n).2 hn m hm) (by
        rw [h'.probShape, hdrop.shape]
        exact dropAxes_agree _ _ p hlen fun n hn => (hT n).1 hn)
      have hfit : Fits st.shape d.shape := by
        apply fits_of_getElem hlen
        intro c
        rcases hc : p c with _ | _
        · exact Or.inl ((hT c).1 hc)
        · rcases hm : st.shape[c]? with _ | m
          · left
            symm
            rw [List.getElem?_eq_none_iff] at hm ⊢
            omega
          · right; rw [(hT c).2 hc m hm]
      refine ⟨q, by rw [if_neg (by simp)]; exact r1, Or.inr (by rw [r2, h.probShape]; exact hfit), ?_⟩
      intro i hi j hj hag
      have hij := (hdrop.agree h hi hj).mp hag
      have hli : i.length = st.shape.length := by rw [length_of_mem_idx hi, hlen]
      rw [bget_eq (by rw [r2]; exact hli), r2, r3 _ (clip_mem hfit hi), ← hij]
      congr 1
      apply dropAxes_agree
      · simp [clip, hli]
      · intro n hn
        simp only [clip, List.getElem?_zipWith]
        rcases hm : st.shape[n]? with _ | m
        · have : i[n]? = none := by
            rw [List.getElem?_eq_none_iff] at hm ⊢; omega
          simp [this]
        · rcases hx : i[n]? with _ | x
          · rfl
          · simp only [Option.some.injEq]
            split
            · rename_i h1
              subst h1
              have h2 := (mem_idx_iff.mp hi).2 n x 1 hx (by rw [← (hT n).1 hn]; exact hm)
              omega
            · rfl
    · have hnd : e.ndim = 0 := by
        by_contra hc
        obtain ⟨k, hk⟩ := h'.cover 0 (by omega)
        rw [hsing.mp hs k] at hk; simp at hk
      have hshape : e.shape = [] := List.length_eq_zero_iff.mp (by rw [h'.rank, hnd])
      refine ⟨e.prob, if_pos rfl, Or.inl (by rw [h'.probShape, hshape]), ?_⟩
      intro i hi j hj _
      rw [hshape] at hj
      have : j = [] := List.length_eq_zero_iff.mp (length_of_mem_idx hj)
      rw [this, bget_scalar (by rw [h'.probShape, hshape])]
  obtain ⟨R, t1, t2, t3⟩ := divProbArr_ok h.stable h'.stable q2
  obtain ⟨r, i1, i2, i3, i4, i5, i6, i7, i8, i9⟩ := pdInit_ok hB R (t2.trans h.probShape) d.pscale.spec
    d.pscale h.stable
  refine ⟨r, ?_, i2, i3, i4, ?_, i6, i7, i9, ?_⟩
  · unfold PD.truediv
    rw [if_pos hok, g1]
    simp only [bind, Except.bind]
    rw [q1]
    simp only
    rw [t1]
    simp only
    rw [hmarg, g3]
    exact i1
  · intro k
    rw [hB.values i5, hvg]; rfl
  · intro i hi j hj hag
    rw [i8, t3 i (by rw [h.probShape]; exact hi), q3 i hi j hj hag]

end Probayes
