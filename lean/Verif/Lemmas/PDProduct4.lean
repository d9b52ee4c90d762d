/-
The result of `product`.
-/
import Verif.Lemmas.PDProduct3

namespace Probayes

variable {fmt : Val → Str} {args : List PD}

theorem dimsStep_none (l : Dict Str Val) (hl : ∀ kv ∈ l, kv.2.issingleton = true) :
    ∀ st : AxState, (∀ k a, Dict.get? st.dims k ≠ some (some a)) →
      (∀ k ∈ Dict.keys l, k ∉ Dict.keys st.dims) → (Dict.keys l).Nodup →
      l.foldlM (dimsStep true) st = l.foldlM (dimsStep false) st := by
  induction l with
  | nil => intro st _ _ _; rfl
  | cons kv l ih =>
    intro st h h2 hn
    have hs := hl kv (by simp)
    have hg : Dict.get? st.dims kv.1 = none := Dict.get?_eq_none.mpr (h2 kv.1 (by simp [Dict.keys]))
    obtain ⟨hn1, hn2⟩ := List.nodup_cons.mp hn
    simp only [List.foldlM_cons, dimsStep, hs, if_true, dimsScalar, Bool.false_eq_true, if_false, hg,
      bind, Except.bind]
    apply ih (fun x hx => hl x (by simp [hx])) _ _ _ hn2
    · intro k a
      rw [Dict.get?_set]
      split
      · simp
      · exact h k a
    · intro k hk
      rw [Dict.keys_set]
      have hne : k ≠ kv.1 := fun e => hn1 (e ▸ hk)
      split
      · exact h2 k (by simp [Dict.keys] at hk ⊢; right; exact hk)
      · simp only [List.mem_append, List.mem_singleton, not_or]
        exact ⟨h2 k (by simp [Dict.keys] at hk ⊢; right; exact hk), hne⟩

/-- Without arrays the dimensions need not be given. -/
theorem pdInit_none {name : Str} {vals : Dict Str Val} (hn : (Dict.keys vals).Nodup)
    (hs : ∀ kv ∈ vals, kv.2.issingleton = true) (prob : Arr) (ps : PSpec) :
    pdInit fmt name vals none prob ps = pdInit fmt name vals (some []) prob ps := by
  have : distDims vals none = distDims vals (some []) := by
    have hk : Dict.keys (vals.map fun kv => (kv.1, kv.2.fixNone)) = Dict.keys vals := by
      simp [Dict.keys, Function.comp_def]
    unfold distDims
    simp only [Option.isNone_none, Option.isNone_some, Option.getD_none, Option.getD_some]
    rw [dimsStep_none _ _ _ _ _ (by rw [hk]; exact hn)]
    · intro kv hkv
      obtain ⟨x, hx, rfl⟩ := List.mem_map.mp hkv
      have := hs x hx
      rcases x with ⟨k, v⟩
      rcases v <;> simp_all [Val.fixNone, Val.issingleton]
    · intro k a; simp [Dict.get?]
    · intro k _; simp [Dict.keys]
  unfold pdInit; rw [this]

/-- The values of the product before reshaping. -/
theorem productVals_pre (F : Spec.Factors fmt args) (G : Spec.Plainly args) :
    ∃ pv pv', (prodKeys args).foldlM (prodValsStep args) [] = .ok pv ∧
      (prodKeys args).foldlM (prodSetsStep args) pv = .ok pv' ∧
      Dict.keys pv' = (prodKeys args).foldl (fun ks k => if k ∈ ks then ks else ks ++ [k]) [] ∧
      ∀ k ∈ prodKeys args, Dict.get? pv' k = some (valOf args k) := by
  set l := (prodKeys args).map fun k => (k, startVal args k) with hl
  have h1 := prodVals_loop (args := args) (prodKeys args)
    (fun k hk => (firstVal_some ((mem_prodKeys F k).mp hk)).1) []
  rw [← hl] at h1
  have hget : ∀ k ∈ prodKeys args, Dict.get? (l.foldl (fun d kv => Dict.set d kv.1 kv.2) []) k =
      some (startVal args k) := by
    intro k hk
    refine get?_foldl_set _ _ _ _ ?_ (Or.inl (List.mem_map.mpr ⟨k, hk, rfl⟩))
    intro v hv
    obtain ⟨k', _, he⟩ := List.mem_map.mp hv
    simp only [Prod.mk.injEq] at he
    rw [← he.2, he.1]
  obtain ⟨pv', h2, h3, h4⟩ := prodSets_loop F G (prodKeys args) (fun _ h => h) (nodup_unit F G)
    (l.foldl (fun d kv => Dict.set d kv.1 kv.2) []) (by
      intro k hk hu
      rw [hget k hk, startVal, if_pos (by rw [← unitKey_eq F hk]; exact hu)])
  refine ⟨_, pv', h1, h2, ?_, ?_⟩
  · rw [h3, keys_foldl_set, hl, List.map_map]
    rw [show (Prod.fst ∘ fun k => (k, startVal args k)) = id from rfl, List.map_id]
    congr!
  · intro k hk
    rw [h4 k]
    split
    · rfl
    · rename_i hc
      rw [hget k hk, startVal, if_neg (by
        rw [← unitKey_eq F hk]; intro hu; exact hc ⟨hk, hu⟩)]

/-- What `product` returns. -/
structure Multiplied (fmt : Val → Str) (args : List PD) (s p : PScale) (r : PD) : Prop where
  wf : r.WF fmt
  marg : r.marg = margPairs args
  cond : r.cond = Dict.ofUpdates (condPairs args)
  keylist : r.keylist = (prodKeys args).foldl (fun ks k => if k ∈ ks then ks else ks ++ [k]) []
  values : ∀ k ∈ prodKeys args, r.values k = some (valOf args k).flat
  axis : ∀ k, r.axis k = if k ∈ arrKeys args then some ((arrKeys args).idxOf k) else none
  shape : r.shape = arrShape args
  pscale : r.pscale = p
  entry : ∀ j ∈ idx (arrShape args), ∀ ix : List (List ℕ),
    List.Forall₂ (fun a i => i ∈ idx a.shape ∧
      ∀ k α, a.axis k = some α → i[α]? = j[(arrKeys args).idxOf k]?) args ix →
    prodRule (List.zipWith (fun a i => a.prob.get i) args ix)
      (args.map fun a => a.pscale.spec) none none = .ok (r.prob.get j, s.spec)

theorem multiplied_of_init (F : Spec.Factors fmt args) (G : Spec.Plainly args) {s p : PScale}
    (hp : evalPscale s.spec = .ok p) {vals : Dict Str Val} (h : ProductVals args vals) {prob : Arr}
    (hshape : prob.shape = arrShape args)
    (hentry : ∀ j ∈ idx (arrShape args), ∀ ix : List (List ℕ),
      List.Forall₂ (fun a i => i ∈ idx a.shape ∧
        ∀ k α, a.axis k = some α → i[α]? = j[(arrKeys args).idxOf k]?) args ix →
      prodRule (List.zipWith (fun a i => a.prob.get i) args ix)
        (args.map fun a => a.pscale.spec) none none = .ok (prob.get j, s.spec)) :
    ∃ r, pdInit fmt (productName args) vals (some (arrDims args)) prob s.spec = .ok r ∧
      Multiplied fmt args s p r := by
  have hB := productBuild F G h
  obtain ⟨r, h1, h2, h3, h4, h5, h6, h7, h8, h9⟩ := pdInit_ok hB prob hshape s.spec p hp
  refine ⟨r, ?_, h2, h3, h4, ?_, ?_, ?_, h7, h9, ?_⟩
  · rw [pdInit_name_congr (productName_parse F)]; exact h1
  · rw [← h.keys]
    show Dict.keys r.vals = _
    rw [h5]
    simp [Dict.keys, Function.comp_def]
  · intro k hk
    rw [hB.values h5]
    by_cases ha : k ∈ arrKeys args
    · rw [h.array k ha]
      obtain ⟨s', hs', hne⟩ := arr_valOf F ha
      rw [hs']
      simp only [Option.map_some, Option.some.injEq]
      have hlt := List.idxOf_lt_length_iff.mpr ha
      have : axisShape (arrKeys args).length ((arrKeys args).idxOf k) (dataOf args k).length ≠ [] := by
        intro hc
        have := congrArg List.length hc
        rw [length_axisShape] at this
        simp only [List.length_nil] at this
        omega
      rcases hx : axisShape (arrKeys args).length ((arrKeys args).idxOf k) (dataOf args k).length
        with _ | ⟨x, xs⟩
      · exact absurd hx this
      · rcases s' with _ | ⟨y, ys⟩
        · exact absurd rfl hne
        · rfl
    · rw [h.other k hk ha]; rfl
  · intro k
    rw [h6, get?_arrDims F G]
    split <;> rfl
  · rw [h8]; exact hentry

theorem forall₂_map {α β γ : Type _} {R : α → β → Prop} {f : α → γ} {g : β → γ} {l : List α}
    {l' : List β} (h : List.Forall₂ R l l') (hfg : ∀ a ∈ l, ∀ b, R a b → f a = g b) :
    l.map f = l'.map g := by
  induction h with
  | nil => rfl
  | cons hab _ ih =>
    rw [List.map_cons, List.map_cons, hfg _ (by simp) _ hab,
      ih fun a ha b hb => hfg a (by simp [ha]) b hb]

theorem zipWith_bget {args : List PD} {qs : List Arr} {ix : List (List ℕ)} {j : List ℕ}
    {R : PD → List ℕ → Prop} (hq : List.Forall₂ (fun a q => ∀ i, R a i → Arr.bget q j = a.prob.get i) args qs)
    (hix : List.Forall₂ R args ix) :
    qs.map (Arr.bget · j) = List.zipWith (fun a i => a.prob.get i) args ix := by
  induction hq generalizing ix with
  | nil => cases hix; rfl
  | cons h _ ih =>
    cases hix with
    | cons h1 h2 => simp only [List.map_cons, List.zipWith_cons_cons, h _ h1, ih h2]

theorem forall₂_mem {α β : Type _} {R : α → β → Prop} {l : List α} {l' : List β}
    (h : List.Forall₂ R l l') : (∀ a ∈ l, ∃ b ∈ l', R a b) ∧ ∀ b ∈ l', ∃ a ∈ l, R a b := by
  induction h with
  | nil => simp
  | cons hab _ ih =>
    refine ⟨?_, ?_⟩
    · intro a ha
      rcases List.mem_cons.mp ha with rfl | ha
      · exact ⟨_, by simp, hab⟩
      · obtain ⟨b, hb, h⟩ := ih.1 a ha; exact ⟨b, by simp [hb], h⟩
    · intro b hb
      rcases List.mem_cons.mp hb with rfl | hb
      · exact ⟨_, by simp, hab⟩
      · obtain ⟨a, ha, h⟩ := ih.2 b hb; exact ⟨a, by simp [ha], h⟩

theorem zipWith_const {args : List PD} {ix : List (List ℕ)}
    (h : List.Forall₂ (fun a i => a.prob.get i = a.prob.get []) args ix) :
    List.zipWith (fun a i => a.prob.get i) args ix = args.map fun a => a.prob.get [] := by
  induction h with
  | nil => rfl
  | cons h _ ih => simp only [List.zipWith_cons_cons, List.map_cons, h, ih]

theorem productGeneral_ok (F : Spec.Factors fmt args) (G : Spec.Plainly args) {s p : PScale}
    (hs : prodPscale (args.map fun a => a.pscale.spec) none = .ok (some s))
    (hp : evalPscale s.spec = .ok p) (fast : Bool)
    (hfast : fast = true → ∀ a ∈ args, a.pscale.iscomplex = s.iscomplex) :
    ∃ r, productGeneral fmt args s fast = .ok r ∧ Multiplied fmt args s p r := by
  have hs' : prodPscale ((args.map PD.pscale).map PScale.spec) none = .ok (some s) := by
    rw [List.map_map]; exact hs
  have hne : args ≠ [] := by rintro rfl; have := F.two; simp at this
  obtain ⟨_, hc⟩ := condCheck_ok F
  obtain ⟨pv, pv', h1, h2, h3, h4⟩ := productVals_pre F G
  have hknd : newDims args (prodKeys args) = .ok ((prodKeys args).map fun k => !singleKey args k) := by
    simp [newDims, dimsShared_false F G]
  have hkne : prodKeys args ≠ [] := by
    obtain ⟨a, ha⟩ := List.exists_mem_of_ne_nil _ hne
    obtain ⟨kv, hkv⟩ := List.exists_mem_of_ne_nil _ (F.margNe a ha)
    have := (mem_prodKeys F kv.1).mpr ⟨a, ha, ((F.wf a ha).keys _).mpr
      (Or.inl (List.mem_map_of_mem hkv))⟩
    intro h0; rw [h0] at this; simp at this
  have hlast := cumFlags_last (prodKeys args) (fun k => !singleKey args k) 0 hkne
  rw [Nat.zero_add] at hlast
  unfold productGeneral
  simp only [hc, h1, h2, hknd, bind, Except.bind, hlast]
  by_cases hf : fast = true ∧ ((prodKeys args).filter fun k => !singleKey args k).length = 0
  · rw [if_pos hf]
    have hL : arrKeys args = [] := List.length_eq_zero_iff.mp hf.2
    have hV : ProductVals args pv' := by
      refine ⟨h3, ?_, fun k hk _ => h4 k hk⟩
      intro k hk; rw [hL] at hk; simp at hk
    have hS : arrShape args = [] := by simp [arrShape, hL]
    have hD : arrDims args = [] := by simp [arrDims, hL]
    rw [pdInit_none hV.nodup]
    · rw [← hD]
      refine multiplied_of_init F G hp hV (by rw [hS]; rfl) ?_
      intro j hj ix hix
      have hxs : List.zipWith (fun a i => PD.prob a |>.get i) args ix =
          args.map fun a => a.prob.get [] := by
        clear hj
        have : List.Forall₂ (fun a i => a.prob.get i = a.prob.get []) args ix := by
          refine (List.forall₂_and_left (p := fun a => a ∈ args) args ix).mpr ⟨fun _ h => h, hix⟩ |>.imp ?_
          rintro a i ⟨ha, hi, _⟩
          have hsh : a.shape = [] := by
            by_contra hne'
            have : 0 < a.ndim := by
              rw [← (F.wf a ha).rank]; exact List.length_pos_iff.mpr hne'
            obtain ⟨k, hk⟩ := (F.wf a ha).cover 0 this
            have := (arr_axis F ha hk).1
            rw [hL] at this; simp at this
          rw [hsh] at hi
          have := length_of_mem_idx hi
          rw [List.length_eq_zero_iff.mp this]
        exact zipWith_const this
      rw [hxs]
      have e : (args.map fun a => a.pscale.spec) = (args.map PD.pscale).map PScale.spec := by
        rw [List.map_map]; rfl
      rw [e, prodRule_eq (by simpa using hne) hs' _ (by simp)]
      have hkind := hfast hf.1
      have hhom : ((args.map PD.pscale).all PScale.iscomplex || !(args.map PD.pscale).any PScale.iscomplex) = true := by
        rcases hsc : s.iscomplex
        · have : (args.map PD.pscale).any PScale.iscomplex = false := by
            simp only [List.any_eq_false, List.mem_map]
            rintro _ ⟨a, ha, rfl⟩; simp [hkind a ha, hsc]
          simp [this]
        · have : (args.map PD.pscale).all PScale.iscomplex = true := by
            simp only [List.all_eq_true, List.mem_map]
            rintro _ ⟨a, ha, rfl⟩; simp [hkind a ha, hsc]
          simp only [this, Bool.true_or]
      have hany : (args.map PD.pscale).any PScale.iscomplex = s.iscomplex := by
        rw [prodPscale_iscomplex hs', List.any_map (f := PScale.spec)]
        have : PSpec.iscomplex ∘ PScale.spec = PScale.iscomplex := by
          funext t; exact spec_iscomplex t
        rw [this]
      rw [if_pos hhom, hany]
      have hne2 : (args.map fun a => a.prob.get []) ≠ [] := by simpa using hne
      rcases hsc : s.iscomplex
      · rw [applyProd_lin _ hne2]; simp [scalarProd, hsc, Except.map]
      · rw [applyProd_log _ hne2]; simp [scalarProd, hsc, Except.map]
    · intro kv hkv
      have hk : kv.1 ∈ prodKeys args := (hV.mem kv.1).mp (List.mem_map_of_mem hkv)
      have := Dict.get?_of_mem hV.nodup (show (kv.1, kv.2) ∈ pv' from hkv)
      rw [h4 kv.1 hk] at this
      simp only [Option.some.injEq] at this
      rw [← this, ← singleKey_eq F hk]
      by_contra hc'
      have : kv.1 ∈ arrKeys args := List.mem_filter.mpr ⟨hk, by simpa using hc'⟩
      rw [hL] at this; simp at this
  · rw [if_neg hf]
    obtain ⟨st, g1, g2, g3, g4, g5⟩ := prodDims_loop (args := args) (arrKeys args).length
      (fun k => !singleKey args k) rfl (prodKeys args) []
      ⟨[], List.replicate (arrKeys args).length 1, pv'⟩ (nodup_arrays F G) (by simp [Dict.keys])
      (by
        intro k hk
        obtain ⟨s', hs', _⟩ := arr_valOf F hk
        exact ⟨s', by rw [← hs']; exact h4 k (List.mem_filter.mp hk).1⟩) rfl
    have hst : st.dims = arrDims args := by rw [g2]; rfl
    have hsh : st.shape = arrShape args := by rw [g3]; rfl
    have hV : ProductVals args st.vals := by
      refine ⟨by rw [g4]; exact h3, ?_, ?_⟩
      · intro k hk
        rw [g5 k]
        refine (if_pos hk).trans ?_
        simp only [List.length_nil, Nat.zero_add]; rfl
      · intro k hk hna
        rw [g5 k]
        exact (if_neg hna).trans (h4 k hk)
    have g1' : List.foldlM (prodDimsStep args (arrKeys args).length)
        ⟨[], List.replicate (arrKeys args).length 1, pv'⟩
        ((prodKeys args).zip (cumFlags 0 ((prodKeys args).map fun k => !singleKey args k))) = .ok st := g1
    unfold arrKeys at g1'
    simp only [g1', hst, hsh]
    obtain ⟨qs, q1, q2⟩ := mapM_forall₂ (P := fun (a : PD) (q : Arr) => FitsR q.shape (arrShape args) ∧
      (∀ k α, a.axis k = some α → Covers q.shape (arrShape args) ((arrKeys args).idxOf k)) ∧
      ∀ j ∈ idx (arrShape args), ∀ i ∈ idx a.shape,
        (∀ k α, a.axis k = some α → i[α]? = j[(arrKeys args).idxOf k]?) →
        q.bget j = a.prob.get i) args (fun a ha => placeProb_ok F G ha)
    have hm := forall₂_mem q2
    obtain ⟨prob, r1, r2, r3⟩ := prodRuleArr_ok (qs := qs) (ss := args.map PD.pscale)
      (S := arrShape args) (by
        rintro rfl
        cases q2
        exact hne rfl) (by simpa using q2.length_eq.symm)
      (fun q hq => by obtain ⟨a, _, h⟩ := hm.2 q hq; exact h.1)
      (by
        intro c hc
        rw [length_arrShape] at hc
        have hk : (arrKeys args)[c] ∈ arrKeys args := List.getElem_mem hc
        obtain ⟨a, ha, α, hα⟩ := arr_source F hk
        obtain ⟨q, hq, h⟩ := hm.1 a ha
        refine ⟨q, hq, ?_⟩
        have := h.2.1 _ _ hα
        have hi : (arrKeys args).idxOf (arrKeys args)[c] = c :=
          (nodup_arrays F G).idxOf_getElem c hc
        rwa [hi] at this) hs'
    obtain ⟨r, t1, t2⟩ := multiplied_of_init F G hp hV r2 (by
      intro j hj ix hix
      have e : (args.map fun a => a.pscale.spec) = (args.map PD.pscale).map PScale.spec := by
        rw [List.map_map]; rfl
      rw [e, ← r3 j hj]
      congr 1
      refine (zipWith_bget (R := fun a i => i ∈ idx a.shape ∧
        ∀ k α, a.axis k = some α → i[α]? = j[(arrKeys args).idxOf k]?) (q2.imp ?_) hix).symm
      intro a q hq i hi
      exact hq.2.2 j hj i hi.1 hi.2)
    refine ⟨r, ?_, t2⟩
    simp only [q1, r1]
    exact t1

theorem product_ok (F : Spec.Factors fmt args) (G : Spec.Plainly args) {s p : PScale}
    (hs : prodPscale (args.map fun a => a.pscale.spec) none = .ok (some s))
    (hp : evalPscale s.spec = .ok p) :
    ∃ r, product fmt args = .ok (some r) ∧ Multiplied fmt args s p r := by
  rcases hargs : args with _ | ⟨first, rest⟩
  · have := F.two; rw [hargs] at this; simp at this
  rw [← hargs]
  have hpp : productPscale args = .ok s := by simp [productPscale, hs, bind, Except.bind, pure, Except.pure]
  set fast := args.all (fun a => a.dist.issingleton) && args.all (fun a => s.numEq a.pscale)
      && s.zeroOne with hfast
  have hkind : fast = true → ∀ a ∈ args, a.pscale.iscomplex = s.iscomplex := by
    intro hf
    rw [hfast, Bool.and_eq_true, Bool.and_eq_true, List.all_eq_true] at hf
    obtain ⟨⟨_, hn⟩, hz⟩ := hf
    rw [List.all_eq_true] at hn
    have hcx := prodPscale_iscomplex hs
    have hst : ∀ a ∈ args, a.pscale ≠ .lin 0 ∧ a.pscale ≠ .log 1 0 := by
      intro a ha
      have := (F.wf a ha).stable
      constructor <;> intro he <;> rw [he] at this <;>
        simp [PScale.spec, evalPscale, complexZero] at this
    intro a ha
    rcases hsc : s.iscomplex
    · rw [hsc, eq_comm, List.any_eq_false] at hcx
      have := hcx _ (List.mem_map_of_mem ha)
      rw [spec_iscomplex] at this
      simpa using this
    · rw [hsc, eq_comm, List.any_eq_true] at hcx
      obtain ⟨_, hb, hbc⟩ := hcx
      obtain ⟨b, hbm, rfl⟩ := List.mem_map.mp hb
      rw [spec_iscomplex] at hbc
      rcases hsv : s with c | ⟨re, im⟩
      · rw [hsv] at hsc; simp [PScale.iscomplex] at hsc
      have hbn := hn b hbm
      have han := hn a ha
      obtain ⟨b1, b2⟩ := hst b hbm
      obtain ⟨a1, a2⟩ := hst a ha
      rw [hsv] at hbn han hz
      rcases hbv : b.pscale with c | ⟨re', im'⟩
      · rw [hbv] at hbc; simp [PScale.iscomplex] at hbc
      rw [hbv] at hbn b2
      simp only [PScale.numEq, decide_eq_true_eq] at hbn
      obtain ⟨rfl, rfl⟩ := hbn
      simp only [PScale.zeroOne, PScale.numEq, Bool.or_eq_true, decide_eq_true_eq] at hz
      rcases hz with ⟨rfl, rfl⟩ | ⟨rfl, rfl⟩
      · rcases hav : a.pscale with c | ⟨re', im'⟩
        · rw [hav] at han a1
          simp only [PScale.numEq, decide_eq_true_eq, and_true] at han
          exact absurd (by rw [han]) a1
        · rfl
      · exact absurd rfl b2
  obtain ⟨r, h1, h2⟩ := productGeneral_ok F G hs hp fast hkind
  refine ⟨r, ?_, h2⟩
  have hmg : ¬ args.all (fun a => a.marg.vals = first.marg.vals) = true := by
    intro hall
    rw [List.all_eq_true] at hall
    rcases rest with _ | ⟨b, rest⟩
    · have := F.two; rw [hargs] at this; simp at this
    have hb := hall b (by rw [hargs]; simp)
    simp only [decide_eq_true_eq] at hb
    have hfm : first ∈ args := by rw [hargs]; simp
    have hbm : b ∈ args := by rw [hargs]; simp
    have e : b.marg = first.marg := by
      rw [← splitNames_side _ (F.wf b hbm).margSide, hb, splitNames_side _ (F.wf first hfm).margSide]
    obtain ⟨kv, hkv⟩ := List.exists_mem_of_ne_nil _ (F.margNe first hfm)
    have hm := F.marg
    rw [hargs, List.flatMap_cons, List.flatMap_cons, List.nodup_append] at hm
    exact hm.2.2 kv.1 (List.mem_map_of_mem hkv) kv.1
      (by rw [e]; exact List.mem_append_left _ (List.mem_map_of_mem hkv)) rfl
  have hres : product fmt (first :: rest) = (do
      let s ← productPscale args
      let fast := args.all (fun a => a.dist.issingleton) && args.all (fun a => s.numEq a.pscale)
        && s.zeroOne
      let r ← if ¬ (args.flatMap fun a => a.marg.keys).Nodup then do
          match ← unitSets args none none none with
          | none => .error .assertion
          | some sets => productFast fmt args first s (some sets)
        else if fast ∧ args.all (fun a => a.marg.vals = first.marg.vals) ∧
            (args.all (fun a => a.cond.isEmpty) ∨
              args.all (fun a => a.cond.vals = first.cond.vals)) then
          productFast fmt args first s none
        else productGeneral fmt args s fast
      return some r) := by rw [hargs]; rfl
  have hres' : product fmt args = product fmt (first :: rest) := by rw [hargs]
  rw [hres', hres]
  simp only [hpp, bind, Except.bind, F.marg, not_true_eq_false, if_false, ← hfast]
  rw [if_neg (by rintro ⟨_, h, _⟩; exact hmg h), h1]
  rfl

end Probayes
