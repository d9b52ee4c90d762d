/-
C19: products of distributions.  Spec/PDProduct.lean says when factors may be
multiplied and what the product is.
-/
import Verif.Lemmas.PDProduct4
import Verif.Lemmas.PDCheck
import Verif.Props.PDMarg2

namespace Probayes

/-- C19 as intended: factors that may be multiplied are, whatever their number,
ranks and axes. -/
def C19_claim : Prop :=
  ∀ (fmt : Val → Str) (args : List PD), Spec.Factors fmt args →
    (∀ a ∈ args, Spec.Valid a.pscale ∧
      (a.pscale.iscomplex = false → ∀ i ∈ idx a.shape, npz ≤ a.prob.get i)) →
    ∃ r, product fmt args = .ok (some r) ∧ r.WF fmt ∧ Spec.Product args r

section
variable {fmt : Val → Str} {args : List PD}

theorem nodup_arrKeys (F : Spec.Factors fmt args) (G : Spec.Plainly args) :
    (arrKeys args).Nodup := nodup_arrays F G

theorem agree_iff (F : Spec.Factors fmt args) {s p : PScale} {r : PD}
    (h : Multiplied fmt args s p r) {a : PD} (ha : a ∈ args) (i j : List ℕ) :
    Spec.Agree a r i j ↔ ∀ k α, a.axis k = some α → i[α]? = j[(arrKeys args).idxOf k]? := by
  constructor
  · intro hA k α hk
    refine hA k α _ hk ?_
    rw [h.axis, if_pos (arr_axis F ha hk).1]
  · intro hA k α β hk hβ
    rw [h.axis, if_pos (arr_axis F ha hk).1, Option.some.injEq] at hβ
    rw [hA k α hk, hβ]

/-- The index list of a factor picked by an index list of the product. -/
theorem exists_index (F : Spec.Factors fmt args) (G : Spec.Plainly args) {s p : PScale} {r : PD}
    (h : Multiplied fmt args s p r) {a : PD} (ha : a ∈ args) {j : List ℕ}
    (hj : j ∈ idx (arrShape args)) : ∃! i, i ∈ idx a.shape ∧ Spec.Agree a r i j := by
  have hcov := (F.wf a ha).cover
  have hrank := (F.wf a ha).rank
  choose! key hkey using hcov
  have hget : ∀ k α, a.axis k = some α → ∃ x, j[(arrKeys args).idxOf k]? = some x ∧
      ∀ m, a.shape[α]? = some m → x < m := by
    intro k α hk
    obtain ⟨hm, _, _, hsz, _⟩ := arr_axis F ha hk
    have hS := arrShape_get hm
    obtain ⟨hlt, _⟩ := List.getElem?_eq_some_iff.mp hS
    have hlt' : (arrKeys args).idxOf k < j.length := by rw [length_of_mem_idx hj]; exact hlt
    refine ⟨_, List.getElem?_eq_getElem hlt', ?_⟩
    intro m hm'
    rw [hsz] at hm'
    simp only [Option.some.injEq] at hm'
    subst hm'
    exact getElem?_lt_of_mem_idx hj (List.getElem?_eq_getElem hlt') hS
  have hsh : ∀ k k' α, a.axis k = some α → a.axis k' = some α → k = k' :=
    fun k k' α h1 h2 => G.own a ha k' k α h2 h1
  refine ⟨(List.range a.shape.length).map fun α => (j[(arrKeys args).idxOf (key α)]?).getD 0,
    ⟨?_, ?_⟩, ?_⟩
  · rw [mem_idx_iff]
    refine ⟨by simp, ?_⟩
    intro n x m hx hm
    obtain ⟨hn, _⟩ := List.getElem?_eq_some_iff.mp hm
    obtain ⟨y, hy1, hy2⟩ := hget (key n) n (hkey n (by rw [← hrank]; exact hn))
    rw [List.getElem?_map, List.getElem?_range hn] at hx
    simp only [Option.map_some, Option.some.injEq, hy1, Option.getD_some] at hx
    rw [← hx]; exact hy2 m hm
  · rw [agree_iff F h ha]
    intro k α hk
    obtain ⟨hm, _, _, hsz, _⟩ := arr_axis F ha hk
    obtain ⟨hn, _⟩ := List.getElem?_eq_some_iff.mp hsz
    obtain ⟨y, hy1, _⟩ := hget k α hk
    have : key α = k := hsh _ _ α (hkey α (by rw [← hrank]; exact hn)) hk
    rw [List.getElem?_map, List.getElem?_range hn, hy1]
    simp [this, hy1]
  · rintro i ⟨hi, hA⟩
    rw [agree_iff F h ha] at hA
    apply List.ext_getElem?
    intro n
    by_cases hn : n < a.shape.length
    · have hk := hkey n (by rw [← hrank]; exact hn)
      obtain ⟨y, hy1, _⟩ := hget (key n) n hk
      rw [hA (key n) n hk, List.getElem?_map, List.getElem?_range hn, hy1]
      simp [hy1]
    · rw [List.getElem?_eq_none (by rw [length_of_mem_idx hi]; omega),
        List.getElem?_eq_none (by simp; omega)]

theorem arrKeys_marg (F : Spec.Factors fmt args) : ∃ B, arrKeys args =
    (((margPairs args).map Prod.fst).filter fun k => !singleKey args k) ++ B := by
  rw [arrKeys, prodKeys_eq F, List.map_append, List.filter_append]
  exact ⟨_, rfl⟩

theorem product_spec (F : Spec.Factors fmt args) (G : Spec.Plainly args) {s p : PScale} {r : PD}
    (h : Multiplied fmt args s p r)
    (hval : ∀ j ∈ idx r.shape, ∀ ix : List (List ℕ),
      List.Forall₂ (fun a i => i ∈ idx a.shape ∧ Spec.Agree a r i j) args ix → ∀ y,
      prodRule (List.zipWith (fun a i => a.prob.get i) args ix)
        (args.map fun a => a.pscale.spec) none none = .ok (y, s.spec) →
      Spec.value p y = (List.zipWith PD.at args ix).prod) : Spec.Product args r where
  marg := h.marg
  cond := by
    intro kt
    rw [h.cond, mem_condDict F, condPairs, List.mem_flatMap]
    constructor
    · rintro ⟨a, ha, hk⟩
      obtain ⟨h1, h2⟩ := List.mem_filter.mp hk
      exact ⟨⟨a, ha, h1⟩, by simpa using h2⟩
    · rintro ⟨⟨a, ha, h1⟩, h2⟩
      exact ⟨a, ha, List.mem_filter.mpr ⟨h1, by simpa using h2⟩⟩
  values := by
    intro a ha k hk
    rw [h.values k ((mem_prodKeys F k).mpr ⟨a, ha, hk⟩)]
    obtain ⟨v, hv⟩ := Dict.get?_of_mem_keys hk
    rw [PD.values, hv, Option.map_some, valOf_flat F ha hv]
  own := by
    intro k k' α h1 h2
    rw [h.axis] at h1 h2
    split at h1
    · split at h2
      · rename_i hk hk'
        simp only [Option.some.injEq] at h1 h2
        exact ((List.idxOf_inj hk').mp (h2.trans h1.symm))
      · simp at h2
    · simp at h1
  order := by
    have hfil := (firstKeys (prodKeys args) [] (by simp)).2.2 (fun k => !singleKey args k)
      (by simpa using nodup_arrays F G)
    rw [← h.keylist] at hfil
    have hfil : r.keylist.filter (fun k => !singleKey args k) = arrKeys args := by
      rw [hfil]; rfl
    have hpw : (arrKeys args).Pairwise fun k k' =>
        (arrKeys args).idxOf k ≤ (arrKeys args).idxOf k' := by
      rw [List.pairwise_iff_getElem]
      intro i j hi hj hij
      have e := (nodup_arrKeys F G).idxOf_getElem
      rw [e i hi, e j hj]; omega
    rw [← hfil, List.pairwise_filter] at hpw
    refine hpw.imp ?_
    intro k k' hkk a b ha hb
    rw [h.axis] at ha hb
    split at ha
    · split at hb
      · rename_i hk hk'
        simp only [Option.some.injEq] at ha hb
        have := hkk (List.mem_filter.mp hk).2 (List.mem_filter.mp hk').2
        rw [hfil, ha, hb] at this
        exact this
      · simp at hb
    · simp at ha
  margOrder := by
    obtain ⟨B, hB⟩ := arrKeys_marg F
    have hn := nodup_arrKeys F G
    rw [h.marg]
    have hpw : ((margPairs args).map Prod.fst).Pairwise fun k k' =>
        k ∈ arrKeys args → k' ∈ arrKeys args → (arrKeys args).idxOf k < (arrKeys args).idxOf k' := by
      have h1 : (((margPairs args).map Prod.fst).filter fun k => !singleKey args k).Pairwise fun k k' =>
          (arrKeys args).idxOf k < (arrKeys args).idxOf k' := by
        rw [List.pairwise_iff_getElem]
        intro i j hi hj hij
        have e : ∀ i (hi : i < (((margPairs args).map Prod.fst).filter fun k => !singleKey args k).length),
            (arrKeys args).idxOf (((margPairs args).map Prod.fst).filter fun k => !singleKey args k)[i] = i := by
          intro i hi
          have hl : i < (arrKeys args).length := by rw [hB, List.length_append]; omega
          have he : (arrKeys args)[i] = (((margPairs args).map Prod.fst).filter fun k => !singleKey args k)[i] := by
            simp only [hB]
            rw [List.getElem_append_left hi]
          rw [← he]
          exact hn.idxOf_getElem i hl
        rw [e i hi, e j hj]; omega
      rw [List.pairwise_filter] at h1
      refine h1.imp ?_
      intro k k' hk h1 h2
      exact hk (List.mem_filter.mp h1).2 (List.mem_filter.mp h2).2
    refine hpw.imp ?_
    intro k k' hk a b ha hb
    rw [h.axis] at ha hb
    split at ha
    · split at hb
      · rename_i h1 h2
        simp only [Option.some.injEq] at ha hb
        rw [← ha, ← hb]
        exact hk h1 h2
      · simp at hb
    · simp at ha
  margFirst := by
    intro k hk k' hk' a b ha hb
    obtain ⟨B, hB⟩ := arrKeys_marg F
    rw [h.axis] at ha hb
    split at ha
    · split at hb
      · rename_i h1 h2
        simp only [Option.some.injEq] at ha hb
        have hkm : k ∈ ((margPairs args).map Prod.fst).filter fun k => !singleKey args k := by
          refine List.mem_filter.mpr ⟨?_, (List.mem_filter.mp h1).2⟩
          rw [h.marg] at hk; exact hk
        have hkn : k' ∉ ((margPairs args).map Prod.fst).filter fun k => !singleKey args k := by
          intro hm
          refine h.wf.disj k' ?_ hk'
          rw [h.marg]
          exact (List.mem_filter.mp hm).1
        rw [← ha, ← hb, hB, List.idxOf_append_of_mem hkm, List.idxOf_append_of_notMem hkn]
        have := List.idxOf_lt_length_of_mem hkm
        omega
      · simp at hb
    · simp at ha
  index := by
    intro j hj a ha
    rw [h.shape] at hj
    exact exists_index F G h ha hj
  entry := by
    intro j hj ix hix
    have := h.entry j (by rw [← h.shape]; exact hj) ix (by
      refine ((List.forall₂_and_left (p := fun a => a ∈ args) args ix).mpr
        ⟨fun _ h => h, hix⟩).imp ?_
      rintro a i ⟨ha, hi, hA⟩
      exact ⟨hi, (agree_iff F h ha i j).mp hA⟩)
    rw [PD.at, h.pscale]
    exact hval j hj ix hix _ this

theorem stable_evaluates (F : Spec.Factors fmt args) :
    Spec.Evaluates ((args.map PD.pscale).map PScale.spec) (args.map PD.pscale) := by
  have key : ∀ l : List PD, (∀ a ∈ l, a.WF fmt) →
      Spec.Evaluates ((l.map PD.pscale).map PScale.spec) (l.map PD.pscale) := by
    intro l
    induction l with
    | nil => intro _; exact .nil
    | cons a l ih =>
      intro h
      exact .cons (h a (by simp)).stable (ih fun b hb => h b (by simp [hb]))
  exact key args F.wf

theorem zipWith_value (args : List PD) (ix : List (List ℕ)) :
    List.zipWith Spec.value (args.map PD.pscale) (List.zipWith (fun a i => a.prob.get i) args ix) =
      List.zipWith PD.at args ix := by
  induction args generalizing ix with
  | nil => rfl
  | cons a args ih =>
    rcases ix with _ | ⟨i, ix⟩
    · rfl
    · simp only [List.map_cons, List.zipWith_cons_cons, ih ix]; rfl

/-- C19, for linear scales: the product of distributions of any number, ranks,
sizes and axis orders is returned, with the probabilities multiplied.  Missing: see
`Spec.Plainly` and `C19_claim_fails`. -/
theorem C19_linear_partial (F : Spec.Factors fmt args) (G : Spec.Plainly args)
    (hlin : ∀ a ∈ args, a.pscale.iscomplex = false) :
    ∃ r, product fmt args = .ok (some r) ∧ r.WF fmt ∧ Spec.Product args r ∧
      r.pscale = .lin (args.map fun a => Spec.factor a.pscale).prod := by
  have hne : args ≠ [] := by rintro rfl; have := F.two; simp at this
  have hE := stable_evaluates F
  have e : (args.map fun a => a.pscale.spec) = (args.map PD.pscale).map PScale.spec := by
    rw [List.map_map]; rfl
  set ss := args.map PD.pscale with hss
  have hl : ∀ s ∈ ss, s.iscomplex = false := by
    intro s hs
    obtain ⟨a, ha, rfl⟩ := List.mem_map.mp hs
    exact hlin a ha
  have hssne : ss ≠ [] := by simpa [hss] using hne
  have hemp : ss.isEmpty = false := by simpa using hssne
  have hany : (ss.map PScale.spec).any PSpec.iscomplex = false := by
    simp only [List.any_eq_false, List.mem_map]; rintro _ ⟨s, hs, rfl⟩
    simp [spec_iscomplex, hl s hs]
  have hs : prodPscale (ss.map PScale.spec) none = .ok (some (.lin (ss.map Spec.factor).prod)) := by
    simp [prodPscale, hemp, hany, prodPscaleLin_eq _ ss hE, bind, Except.bind, pure, Except.pure]
  have hnz : (ss.map Spec.factor).prod ≠ 0 := by
    rw [Ne, List.prod_eq_zero_iff]
    intro h0
    obtain ⟨s, hs1, hs2⟩ := List.mem_map.mp h0
    obtain ⟨a, ha, rfl⟩ := List.mem_map.mp hs1
    have hst := (F.wf a ha).stable
    have hla := hlin a ha
    rcases hps : a.pscale with c | ⟨re, im⟩
    · rw [hps] at hs2 hst
      simp only [Spec.factor] at hs2
      subst hs2
      simp [PScale.spec, evalPscale, complexZero] at hst
    · rw [hps] at hla; simp [PScale.iscomplex] at hla
  have hp : evalPscale (PScale.lin (ss.map Spec.factor).prod).spec =
      .ok (.lin (ss.map Spec.factor).prod) := by
    simp only [PScale.spec, evalPscale, hnz, if_false]
    split
    · rename_i h; rw [h]
    · rfl
  rw [← e] at hs
  obtain ⟨r, h1, h2⟩ := product_ok F G hs hp
  refine ⟨r, h1, h2.wf, product_spec F G h2 ?_, by rw [h2.pscale, hss, List.map_map]; rfl⟩
  intro j _ ix hix y hy
  have hlen : (List.zipWith (fun (a : PD) i => a.prob.get i) args ix).length = ss.length := by
    simp [hss, hix.length_eq]
  obtain ⟨y', s', h3, h4, h5⟩ := C05_linear_partial
    (List.zipWith (fun (a : PD) i => a.prob.get i) args ix) ss
    (by intro h0; rw [h0] at hlen; simp at hlen; exact hssne (List.length_eq_zero_iff.mp hlen.symm))
    hlen hE hl
  rw [← e, hy] at h3
  simp only [Except.ok.injEq, Prod.mk.injEq] at h3
  obtain ⟨rfl, h3⟩ := h3
  rcases s' with c | ⟨re, im⟩
  · simp only [PScale.spec, PSpec.flt.injEq] at h3
    rw [h3, h5, zipWith_value]
  · simp [PScale.iscomplex] at h4

/-- C19 when some factor is on a logarithmic scale: as for linear scales, provided
the scale factors multiply to one and probabilities on linear scales do not reach
the smallest number whose logarithm is taken.  Missing: as in
`C19_linear_partial`, and scales whose factors do not multiply to one
(`C05_claim_fails`). -/
theorem C19_log_partial (F : Spec.Factors fmt args) (G : Spec.Plainly args)
    (hv : ∀ a ∈ args, Spec.Valid a.pscale)
    (hlog : ∃ a ∈ args, a.pscale.iscomplex = true)
    (hone : (args.map fun a => Spec.factor a.pscale).prod = 1)
    (hz : ∀ a ∈ args, a.pscale.iscomplex = false → ∀ i ∈ idx a.shape, npz ≤ a.prob.get i) :
    ∃ r, product fmt args = .ok (some r) ∧ r.WF fmt ∧ Spec.Product args r ∧
      r.pscale = .log 0 0 := by
  have hne : args ≠ [] := by rintro rfl; have := F.two; simp at this
  have hE := stable_evaluates F
  have e : (args.map fun a => a.pscale.spec) = (args.map PD.pscale).map PScale.spec := by
    rw [List.map_map]; rfl
  set ss := args.map PD.pscale with hss
  have hvs : ∀ s ∈ ss, Spec.Valid s := by
    intro s hs
    obtain ⟨a, ha, rfl⟩ := List.mem_map.mp hs
    exact hv a ha
  have hlogs : ∃ s ∈ ss, s.iscomplex = true := by
    obtain ⟨a, ha, h⟩ := hlog
    exact ⟨_, List.mem_map_of_mem ha, h⟩
  have hones : (ss.map Spec.factor).prod = 1 := by
    rw [hss, List.map_map]; exact hone
  have hssne : ss ≠ [] := by simpa [hss] using hne
  have hemp : ss.isEmpty = false := by simpa using hssne
  have hany : (ss.map PScale.spec).any PSpec.iscomplex = true := by
    obtain ⟨s, hs, hc⟩ := hlogs
    simp only [List.any_eq_true, List.mem_map]
    exact ⟨s.spec, ⟨s, hs, rfl⟩, by rw [spec_iscomplex, hc]⟩
  have hsum : (ss.map logpOffs).sum = 0 := by
    rw [← Real.exp_eq_one_iff, exp_sum_logpOffs ss hvs, hones]
  have hs : prodPscale (ss.map PScale.spec) none = .ok (some complexZero) := by
    simp [prodPscale, hemp, hany, prodPscaleLog_eq _ ss hE, bind, Except.bind, pure, Except.pure,
      hsum, encodeOffs, npz_pos]
  have hp : evalPscale complexZero.spec = .ok complexZero := by
    simp [complexZero, PScale.spec, evalPscale]
  rw [← e] at hs
  obtain ⟨r, h1, h2⟩ := product_ok F G hs hp
  refine ⟨r, h1, h2.wf, product_spec F G h2 ?_, h2.pscale⟩
  intro j _ ix hix y hy
  have hlen : (List.zipWith (fun (a : PD) i => a.prob.get i) args ix).length = ss.length := by
    simp [hss, hix.length_eq]
  have hL : Spec.Loggable (List.zipWith (fun (a : PD) i => a.prob.get i) args ix) ss := by
    have key : ∀ (l : List PD) (ix : List (List ℕ)), (∀ a ∈ l, a ∈ args) →
        List.Forall₂ (fun a i => i ∈ idx a.shape ∧ Spec.Agree a r i j) l ix →
        Spec.Loggable (List.zipWith (fun (a : PD) i => a.prob.get i) l ix) (l.map PD.pscale) := by
      intro l ix hl hf
      induction hf with
      | nil => exact .nil
      | cons hab _ ih =>
        exact .cons (fun hc => hz _ (hl _ (by simp)) hc _ hab.1) (ih fun a ha => hl a (by simp [ha]))
    exact key args ix (fun _ h => h) hix
  obtain ⟨y', s', h3, h4, h5⟩ := C05_log_partial
    (List.zipWith (fun (a : PD) i => a.prob.get i) args ix) ss
    (by intro h0; rw [h0] at hlen; simp at hlen; exact hssne (List.length_eq_zero_iff.mp hlen.symm))
    hlen hE hvs hL hlogs hones
  rw [← e, hy] at h3
  simp only [Except.ok.injEq, Prod.mk.injEq] at h3
  obtain ⟨rfl, h3⟩ := h3
  rcases s' with c | ⟨re, im⟩
  · simp [PScale.iscomplex] at h4
  · simp only [complexZero, PScale.spec, PSpec.cplx.injEq] at h3
    rw [← h3.1, ← h3.2] at h5
    rw [show complexZero = PScale.log 0 0 from rfl, h5, zipWith_value]

end

/-! ### Examples -/

/-- p(x, y | z, u=1) with x on axis 1, y on axis 0 and z on axis 2. -/
noncomputable def factorA (s : PScale) : PD :=
  ⟨['x', ',', 'y', '|', 'z', ',', 'u', '=', '1'], [(['x'], ['x']), (['y'], ['y'])],
   [(['z'], ['z']), (['u'], ['u', '=', '1'])],
   ⟨[(['x'], .arr [1, 2, 1] [1, 2]), (['y'], .arr [3, 1, 1] [4, 5, 6]), (['z'], .arr [1, 1, 2] [7, 8]),
     (['u'], .scalar 1)],
    [(['x'], some 1), (['y'], some 0), (['z'], some 2), (['u'], none)],
    3, [2, 3, 2], [3, 2, 2], 12, [false, false, false, true], false⟩,
   ⟨[3, 2, 2], fun i => (1 + i.getD 0 0) / (2 + i.getD 1 0 + i.getD 2 0)⟩, s⟩

/-- p(z | u=1). -/
noncomputable def factorB (s : PScale) : PD :=
  ⟨['z', '|', 'u', '=', '1'], [(['z'], ['z'])], [(['u'], ['u', '=', '1'])],
   ⟨[(['z'], .arr [2] [7, 8]), (['u'], .scalar 1)], [(['z'], some 0), (['u'], none)],
    1, [2], [2], 2, [false, true], false⟩,
   ⟨[2], fun i => 1 / (1 + i.getD 0 0)⟩, s⟩

theorem factorA_wf (s : PScale) (hs : evalPscale s.spec = .ok s) :
    (factorA s).WF (fun _ => ['1']) := PD.wf_of_check rfl rfl hs

theorem factorB_wf (s : PScale) (hs : evalPscale s.spec = .ok s) :
    (factorB s).WF (fun _ => ['1']) := PD.wf_of_check rfl rfl hs

theorem factors_ok (s t : PScale) (hs : evalPscale s.spec = .ok s) (ht : evalPscale t.spec = .ok t) :
    Spec.Factors (fun _ => ['1']) [factorA s, factorB t] ∧ Spec.Plainly [factorA s, factorB t] := by
  have hwf : ∀ a ∈ [factorA s, factorB t], a.WF (fun _ => ['1']) := by
    simp only [List.mem_cons, List.not_mem_nil, or_false]
    rintro a (rfl | rfl)
    · exact factorA_wf s hs
    · exact factorB_wf t ht
  refine ⟨⟨le_refl 2, hwf, ?_, ?_, of_decide_eq_true rfl, of_decide_eq_true rfl, of_decide_eq_true rfl, of_decide_eq_true rfl⟩, ⟨?_, of_decide_eq_true rfl, ?_⟩⟩
  · simp only [List.mem_cons, List.not_mem_nil, or_false]
    rintro a (rfl | rfl)
    · show ∀ n ∈ [3, 2, 2], 0 < n
      decide
    · show ∀ n ∈ [2], 0 < n
      decide
  · simp only [List.mem_cons, List.not_mem_nil, or_false]
    rintro a (rfl | rfl) <;> simp [factorA, factorB]
  · intro a ha
    have h := hwf a ha
    simp only [List.mem_cons, List.not_mem_nil, or_false] at ha
    rcases ha with rfl | rfl
    · exact own_of_check h (of_decide_eq_true rfl)
    · exact own_of_check h (of_decide_eq_true rfl)
  · exact sets_of_check (of_decide_eq_true rfl)

/-- Non-vacuity of `C19_linear_partial`. -/
example : ∃ r, product (fun _ => ['1']) [factorA (.lin 1), factorB (.lin 2)] = .ok (some r) ∧
    r.WF (fun _ => ['1']) ∧ Spec.Product [factorA (.lin 1), factorB (.lin 2)] r := by
  obtain ⟨F, G⟩ := factors_ok (.lin 1) (.lin 2) (by simp [PScale.spec, evalPscale])
    (by simp [PScale.spec, evalPscale])
  obtain ⟨r, h1, h2, h3, -⟩ := C19_linear_partial F G (by
    simp only [List.mem_cons, List.not_mem_nil, or_false]; rintro a (rfl | rfl) <;> rfl)
  exact ⟨r, h1, h2, h3⟩

/-- Non-vacuity of `C19_log_partial`. -/
example : ∃ r, product (fun _ => ['1']) [factorA (.log 0 0), factorB (.lin 1)] = .ok (some r) ∧
    r.WF (fun _ => ['1']) ∧ Spec.Product [factorA (.log 0 0), factorB (.lin 1)] r ∧ r.pscale = .log 0 0 := by
  obtain ⟨F, G⟩ := factors_ok (.log 0 0) (.lin 1) (by simp [PScale.spec, evalPscale, complexZero])
    (by simp [PScale.spec, evalPscale])
  refine C19_log_partial F G ?_ ⟨_, List.mem_cons_self, rfl⟩ ?_ ?_
  · simp only [List.mem_cons, List.not_mem_nil, or_false]
    rintro a (rfl | rfl)
    · trivial
    · exact one_pos
  · simp [factorA, factorB, Spec.factor, Spec.offset, npz_pos]
  · simp only [List.mem_cons, List.not_mem_nil, or_false]
    rintro a (rfl | rfl) h i hi
    · simp [factorA, PScale.iscomplex] at h
    · simp only [factorB, PD.shape, mem_idx_iff] at hi
      obtain ⟨h1, h2⟩ := hi
      obtain ⟨n, rfl⟩ := List.length_eq_one_iff.mp h1
      have := h2 0 n 2 rfl rfl
      simp only [factorB, List.getD_cons_zero]
      have h3 : npz < 1 / 2 := by
        have := npz_lt_one
        unfold npz; norm_num
      have : (n : ℝ) ≤ 1 := by exact_mod_cast (by omega : n ≤ 1)
      rw [le_div_iff₀ (by positivity)]
      nlinarith [npz_pos]

/-! ### Disagreements -/

theorem productPscale_one (a b : PD) (ha : a.pscale = .lin 1) (hb : b.pscale = .lin 1) :
    productPscale [a, b] = .ok (.lin 1) := by
  simp [productPscale, ha, hb, prodPscale, PScale.spec, PSpec.iscomplex, prodPscaleLin, evalPscale,
    probCoef, bind, Except.bind, pure, Except.pure]

/-- Factors with distinct marginal variables, not all scalar, take the general
route. -/
theorem product_general {fmt : Val → Str} {args : List PD} {s : PScale}
    (hs : productPscale args = .ok s) (hn : (args.flatMap fun a => a.marg.keys).Nodup)
    (hne : args.all (fun a => a.dist.issingleton) = false) :
    product fmt args = (productGeneral fmt args s false).map some := by
  rcases args with _ | ⟨first, rest⟩
  · simp at hne
  unfold product
  simp only [hs, hn, hne, bind, Except.bind, not_true_eq_false, if_false, Bool.false_and,
    Bool.false_eq_true, false_and]
  cases productGeneral fmt (first :: rest) s false <;> rfl

/-- p(k | c) with both variables having two values. -/
noncomputable def condPD (k c : Char) : PD :=
  ⟨[k, '|', c], [([k], [k])], [([c], [c])],
   ⟨[([k], .arr [2, 1] [1, 2]), ([c], .arr [1, 2] [1, 2])], [([k], some 0), ([c], some 1)],
    2, [2, 2], [2, 2], 4, [false, false], false⟩, ⟨[2, 2], fun _ => 1 / 2⟩, .lin 1⟩

/-- C19 fails for a common condition that is an array: p(x|z) p(y|z) raises. -/
theorem C19_common_array_raises :
    Spec.Factors (fun _ => []) [condPD 'x' 'z', condPD 'y' 'z'] ∧
      product (fun _ => []) [condPD 'x' 'z', condPD 'y' 'z'] = .error .type := by
  have h1 : evalPscale (PScale.lin 1).spec = .ok (.lin 1) := by simp [PScale.spec, evalPscale]
  constructor
  · refine ⟨le_refl 2, ?_, ?_, ?_, by decide, by decide, by decide, by decide⟩
    · simp only [List.mem_cons, List.not_mem_nil, or_false]
      rintro a (rfl | rfl) <;> exact PD.wf_of_check (by decide) rfl h1
    · simp only [List.mem_cons, List.not_mem_nil, or_false]
      rintro a (rfl | rfl) <;> (show ∀ n ∈ [2, 2], 0 < n; decide)
    · simp only [List.mem_cons, List.not_mem_nil, or_false]
      rintro a (rfl | rfl) <;> simp [condPD]
  · rw [product_general (productPscale_one (condPD 'x' 'z') (condPD 'y' 'z') rfl rfl) (by decide) rfl]
    rfl

theorem C19_claim_fails : ¬ C19_claim := by
  intro h
  obtain ⟨hF, he⟩ := C19_common_array_raises
  obtain ⟨r, hr, _⟩ := h _ _ hF (by
    simp only [List.mem_cons, List.not_mem_nil, or_false]
    have h3 : npz ≤ 1 / 2 := by unfold npz; norm_num
    rintro a (rfl | rfl) <;> exact ⟨one_pos, fun _ _ _ => h3⟩)
  rw [he] at hr
  cases hr

/-- p(k | u={3}) with k having two values. -/
noncomputable def setPD (k : Char) : PD :=
  ⟨[k, '|', 'u', '=', '3'], [([k], [k])], [(['u'], ['u', '=', '3'])],
   ⟨[([k], .arr [2] [1, 2]), (['u'], .setint 3)], [([k], some 0), (['u'], none)],
    1, [2], [2], 2, [false, true], false⟩, ⟨[2], fun _ => 1 / 2⟩, .lin 1⟩

/-- C19 fails silently for a common condition given as a set of one integer: the
product p(x|u={3}) p(y|u={3}) is conditioned on u={12}. -/
theorem C19_common_set_wrong :
    Spec.Factors (fun v => if v = .setint 3 then ['3'] else ['1', '2']) [setPD 'x', setPD 'y'] ∧
      ∃ r, product (fun v => if v = .setint 3 then ['3'] else ['1', '2']) [setPD 'x', setPD 'y'] =
        .ok (some r) ∧ r.cond = [(['u'], ['u', '=', '1', '2'])] ∧ r.values ['u'] = some (.setint 12) ∧
      ¬ Spec.Product [setPD 'x', setPD 'y'] r := by
  have h1 : evalPscale (PScale.lin 1).spec = .ok (.lin 1) := by simp [PScale.spec, evalPscale]
  refine ⟨?_, ?_⟩
  · refine ⟨le_refl 2, ?_, ?_, ?_, by decide, by decide, by decide, by decide⟩
    · simp only [List.mem_cons, List.not_mem_nil, or_false]
      rintro a (rfl | rfl) <;> exact PD.wf_of_check (by decide) rfl h1
    · simp only [List.mem_cons, List.not_mem_nil, or_false]
      rintro a (rfl | rfl) <;> (show ∀ n ∈ [2], 0 < n; decide)
    · simp only [List.mem_cons, List.not_mem_nil, or_false]
      rintro a (rfl | rfl) <;> simp [setPD]
  · let Q : Arr := ⟨[2, 2], fun i => (1 / 2 : ℝ) * (1 / 2)⟩
    let r : PD := ⟨['x', ',', 'y', '|', 'u', '=', '1', '2'], [(['x'], ['x']), (['y'], ['y'])],
      [(['u'], ['u', '=', '1', '2'])],
      ⟨[(['x'], .arr [2, 1] [1, 2]), (['y'], .arr [1, 2] [1, 2]), (['u'], .setint 12)],
       [(['x'], some 0), (['y'], some 1), (['u'], none)], 2, [2, 2], [2, 2], 4,
       [false, false, true], false⟩, Q, .lin 1⟩
    have hok : product (fun v => if v = .setint 3 then ['3'] else ['1', '2']) [setPD 'x', setPD 'y'] =
        .ok (some r) := by
      rw [product_general (productPscale_one (setPD 'x') (setPD 'y') rfl rfl) (by decide) rfl]
      have hg : productGeneral (fun v => if v = .setint 3 then ['3'] else ['1', '2'])
          [setPD 'x', setPD 'y'] (.lin 1) false =
          pdInit (fun v => if v = .setint 3 then ['3'] else ['1', '2'])
            (productName [setPD 'x', setPD 'y']) r.vals
            (some [(['x'], some 0), (['y'], some 1)]) Q (PScale.lin 1).spec := rfl
      rw [hg, pdInit_eval (mc := ([(['x'], ['x']), (['y'], ['y'])], [(['u'], ['u', '=', '3'])]))
        (dist := r.dist) (mc' := (r.marg, r.cond)) (p := .lin 1) rfl rfl rfl h1 rfl]
      rfl
    refine ⟨r, hok, rfl, rfl, ?_⟩
    intro h
    have := h.values (setPD 'x') (by simp) ['u'] (by decide)
    exact absurd this (by decide)

end Probayes
