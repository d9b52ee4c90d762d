import Verif.Lemmas.PDProduct2

/-! A product in which an array variable occurs twice among the keys. -/

namespace Probayes

variable {fmt : Val → Str} {args : List PD}

/-- Where the loop over the keys leaves the axis of a key: at its last occurrence. -/
theorem prodDims_last (n : ℕ) {k : Str} (hk : singleKey args k = false) (l : List (Str × ℕ)) :
    ∀ {st st' : ProductState}, l.foldlM (prodDimsStep args n) st = .ok st' →
      (k ∉ l.map Prod.fst ∧ Dict.get? st'.dims k = Dict.get? st.dims k) ∨
        ∃ pre c post, l = pre ++ (k, c) :: post ∧ k ∉ post.map Prod.fst ∧
          Dict.get? st'.dims k = some (some (c - 1)) := by
  induction l with
  | nil =>
    intro st st' h
    obtain rfl := Except.ok.inj h
    exact .inl ⟨by simp, rfl⟩
  | cons kc l ih =>
    intro st st' h
    rw [List.foldlM_cons] at h
    rcases h1 : prodDimsStep args n st kc with e | st1
    · rw [h1] at h; cases h
    rw [h1] at h
    simp only [bind, Except.bind] at h
    rcases ih h with ⟨i1, i2⟩ | ⟨pre, c, post, i1, i2, i3⟩
    · by_cases hkc : kc.1 = k
      · refine .inr ⟨[], kc.2, l, by rw [← hkc]; rfl, i1, ?_⟩
        rw [i2]
        rw [prodDimsStep, hkc, if_neg (by simp [hk])] at h1
        split at h1
        · obtain rfl := Except.ok.inj h1
          rw [Dict.get?_set, if_pos rfl]
        · cases h1
      · refine .inl ⟨by simp [i1, Ne.symm hkc], ?_⟩
        rw [i2]
        rw [prodDimsStep] at h1
        split at h1
        · obtain rfl := Except.ok.inj h1; rfl
        split at h1
        · obtain rfl := Except.ok.inj h1
          rw [Dict.get?_set, if_neg hkc]
        · cases h1
    · exact .inr ⟨kc :: pre, c, post, by rw [i1]; rfl, i2, i3⟩

/-- Singleton keys never get an axis. -/
theorem prodDims_single (n : ℕ) {k : Str} (hk : singleKey args k = true) (l : List (Str × ℕ)) :
    ∀ {st st' : ProductState}, l.foldlM (prodDimsStep args n) st = .ok st' →
      Dict.get? st'.dims k = Dict.get? st.dims k := by
  induction l with
  | nil =>
    intro st st' h
    obtain rfl := Except.ok.inj h
    rfl
  | cons kc l ih =>
    intro st st' h
    rw [List.foldlM_cons] at h
    rcases h1 : prodDimsStep args n st kc with e | st1
    · rw [h1] at h; cases h
    rw [h1] at h
    simp only [bind, Except.bind] at h
    rw [ih h]
    rw [prodDimsStep] at h1
    split at h1
    · obtain rfl := Except.ok.inj h1; rfl
    rename_i hs
    split at h1
    · obtain rfl := Except.ok.inj h1
      rw [Dict.get?_set, if_neg (by rintro rfl; exact hs hk)]
    · cases h1

/-- The running count at a position is that of the flags up to it. -/
theorem zip_cumFlags (q : Str → Bool) (K : List Str) : ∀ {n : ℕ} {pre post : List (Str × ℕ)} {k : Str} {c : ℕ},
    K.zip (cumFlags n (K.map q)) = pre ++ (k, c) :: post →
    c = n + (pre.map Prod.fst).countP q + (q k).toNat := by
  induction K with
  | nil => intro n pre post k c h; simp at h
  | cons x K ih =>
    intro n pre post k c h
    rw [List.map_cons, cumFlags] at h
    simp only [List.zip_cons_cons] at h
    rcases pre with _ | ⟨y, pre⟩
    · simp only [List.nil_append, List.cons.injEq, Prod.mk.injEq] at h
      obtain ⟨⟨rfl, rfl⟩, _⟩ := h
      simp
    · simp only [List.cons_append, List.cons.injEq] at h
      obtain ⟨rfl, h⟩ := h
      rw [ih h]
      cases hq : q x <;> simp [List.countP_cons, hq]
      omega

theorem zip_cumFlags_keys (q : Str → Bool) (K : List Str) : ∀ (n : ℕ),
    (K.zip (cumFlags n (K.map q))).map Prod.fst = K := by
  induction K with
  | nil => intro n; rfl
  | cons x K ih =>
    intro n
    rw [List.map_cons, cumFlags]
    simp only [List.zip_cons_cons, List.map_cons, ih]

/-- An axis of no key is never given a size. -/
theorem dimsStep_hole {a : ℕ} (l : Dict Str Val) : ∀ {st st' : AxState},
    (∀ k, Dict.get? st.dims k ≠ some (some a)) → st.shape[a]? = some none →
    l.foldlM (dimsStep false) st = .ok st' → st'.shape[a]? = some none := by
  induction l with
  | nil =>
    intro st st' _ hs h
    obtain rfl := Except.ok.inj h
    exact hs
  | cons kv l ih =>
    intro st st' hd hs h
    rw [List.foldlM_cons] at h
    rcases h1 : dimsStep false st kv with e | st1
    · rw [h1] at h; cases h
    rw [h1] at h
    simp only [bind, Except.bind] at h
    rw [dimsStep] at h1
    split at h1
    · rw [dimsScalar, if_neg (by simp)] at h1
      split at h1
      · cases h1
      · obtain rfl := Except.ok.inj h1
        exact ih (by exact hd) (by exact hs) h
      · obtain rfl := Except.ok.inj h1
        refine ih ?_ (by exact hs) h
        intro k
        simp only [Dict.get?_set]
        split
        · simp
        · exact hd k
    · rcases kv with ⟨k0, v⟩
      rcases v with _ | _ | _ | ⟨s, data⟩ <;> simp only [dimsArray] at h1 <;> try cases h1
      · split at h1
        · cases h1
        rw [if_neg (by simp)] at h1
        rcases hg : Dict.get? st.dims k0 with _ | _ | b
        · rw [hg] at h1; cases h1
        · rw [hg] at h1; cases h1
        · rw [hg] at h1
          obtain rfl := Except.ok.inj h1
          refine ih (by exact hd) ?_ h
          simp only [dimsPlace]
          rw [List.getElem?_set_ne]
          · exact hs
          · rintro rfl; exact hd _ hg

theorem mapM_id_none {l : List (Option ℕ)} : ∀ {s : List ℕ}, l.mapM id = some s → none ∉ l := by
  induction l with
  | nil => intro s _; simp
  | cons o l ih =>
    intro s h
    rcases o with _ | o
    · simp [List.mapM_cons] at h
    · rcases h1 : l.mapM id with _ | s'
      · simp [List.mapM_cons, h1] at h
      · simpa using ih h1

/-- Given dimensions with a gap are refused. -/
theorem distDims_hole {vals : Dict Str Val} {dims : Dict Str (Option ℕ)} {a : ℕ} (hne : vals ≠ [])
    (ha : a < maxDim dims) (hd : ∀ k, Dict.get? dims k ≠ some (some a)) :
    Raises (distDims vals (some dims)) := by
  rw [distDims]
  simp only [Option.isNone_some, Option.getD_some]
  rw [if_neg (by simpa using hne)]
  split
  · exact ⟨_, rfl⟩
  generalize hl : (vals.map fun kv => (kv.1, kv.2.fixNone)) = l
  rcases hs : l.foldlM (dimsStep false) ⟨[], dims, List.replicate (maxDim dims) none, maxDim dims, 0, []⟩
    with e | st
  · exact ⟨e, rfl⟩
  have h0 := dimsStep_hole (a := a) l (by exact hd) (by simp [List.getElem?_replicate, ha]) hs
  have hm : st.shape.mapM id = none := by
    rcases h1 : st.shape.mapM id with _ | s
    · rfl
    exact absurd (List.mem_of_getElem? h0) (mapM_id_none h1)
  refine ⟨.type, ?_⟩
  simp only [bind, Except.bind, hm]

theorem pdInit_hole {name : Str} {vals : Dict Str Val} {dims : Dict Str (Option ℕ)} {prob : Arr} {ps : PSpec}
    {a : ℕ} (ha : a < maxDim dims) (hd : ∀ k, Dict.get? dims k ≠ some (some a)) :
    Raises (pdInit fmt name vals (some dims) prob ps) := by
  rw [pdInit]
  rcases strMargcond name with e | mc
  · exact ⟨e, rfl⟩
  by_cases hne : vals = []
  · subst hne
    simp only [bind, Except.bind, distDims, List.isEmpty_nil, if_true, List.foldlM_nil, pure, Except.pure]
    rcases evalPscale ps with e | p
    · exact ⟨e, rfl⟩
    · exact ⟨.assertion, by simp [probOK]⟩
  · obtain ⟨e, he⟩ := distDims_hole hne ha hd
    exact ⟨e, by simp only [bind, Except.bind, he]⟩

/-- A product is refused if an array variable occurs twice among its keys. -/
theorem productGeneral_repeat {s : PScale} {fast : Bool} {y : Str} {K1 K2 : List Str}
    (hsh : dimsShared args = false) (hK : prodKeys args = K1 ++ y :: K2) (h1 : y ∈ K2)
    (hy : singleKey args y = false) : Raises (productGeneral fmt args s fast) := by
  rcases hg : productGeneral fmt args s fast with e | r
  · exact ⟨e, rfl⟩
  exfalso
  rw [productGeneral] at hg
  simp only [bind, Except.bind] at hg
  split at hg
  · cases hg
  split at hg
  · cases hg
  split at hg
  · cases hg
  rw [newDims, if_neg (by simp [hsh])] at hg
  simp only at hg
  set q : Str → Bool := fun k => !singleKey args k with hq
  have hlast := cumFlags_last (prodKeys args) q 0 (by rw [hK]; simp)
  rw [hlast] at hg
  simp only at hg
  have hcnt : 0 < ((prodKeys args).filter q).length := by
    rw [List.length_pos_iff_exists_mem]
    exact ⟨y, List.mem_filter.mpr ⟨by rw [hK]; simp, by simp [hq, hy]⟩⟩
  rw [if_neg (by rintro ⟨_, h⟩; omega)] at hg
  rename_i pv _ 
  split at hg
  · cases hg
  rename_i st hst
  split at hg
  · cases hg
  split at hg
  · cases hg
  have hkeys := zip_cumFlags_keys q (prodKeys args) 0
  obtain ⟨Z1, ⟨y', c1⟩, Z2, hZ, hZ1, hy', hZ2⟩ : ∃ Z1 z Z2, (prodKeys args).zip (cumFlags 0 ((prodKeys args).map q)) =
      Z1 ++ z :: Z2 ∧ Z1.map Prod.fst = K1 ∧ z.1 = y ∧ Z2.map Prod.fst = K2 := by
    rw [hK] at hkeys
    obtain ⟨Z1, Z2, e1, e2, e3⟩ := List.map_eq_append_iff.mp hkeys
    obtain ⟨z, Z2, rfl, e4, e5⟩ := List.map_eq_cons_iff.mp e3
    exact ⟨Z1, z, Z2, by rw [hK]; exact e1, e2, e4, e5⟩
  obtain rfl : y' = y := hy'
  have hc1 := zip_cumFlags q _ hZ
  rw [hZ] at hst
  -- position of another occurrence
  have hdims : ∀ k a, Dict.get? st.dims k = some (some a) → ∃ pre c post, Z1 ++ (y', c1) :: Z2 = pre ++ (k, c) :: post ∧
      k ∉ post.map Prod.fst ∧ a = c - 1 ∧ singleKey args k = false := by
    intro k a hk
    rcases hs : singleKey args k with _ | _
    · rcases prodDims_last _ hs _ hst with ⟨_, h⟩ | ⟨pre, c, post, e1, e2, e3⟩
      · rw [h] at hk; cases hk
      · rw [e3] at hk
        exact ⟨pre, c, post, e1, e2, by simpa using hk.symm, rfl⟩
    · rw [prodDims_single _ hs _ hst] at hk; cases hk
  have hlate : ∀ k pre c post, Z1 ++ (y', c1) :: Z2 = pre ++ (k, c) :: post → k ∉ post.map Prod.fst →
      singleKey args k = false → c1 ≠ c ∧ (k = y' → c1 < c) := by
    intro k pre c post e1 e2 e3
    have hc := zip_cumFlags q _ (hZ.trans e1)
    have hqk : q k = true := by simp [hq, e3]
    have hqy : q y' = true := by simp [hq, hy]
    rw [hqk] at hc
    rw [hqy] at hc1
    rcases List.append_eq_append_iff.mp e1 with ⟨m, hm1, hm2⟩ | ⟨m, hm1, hm2⟩
    · rcases m with _ | ⟨z, m⟩
      · simp only [List.nil_append, List.cons.injEq, Prod.mk.injEq] at hm2
        obtain ⟨⟨rfl, rfl⟩, rfl⟩ := hm2
        exact absurd (by rw [hZ2]; exact h1) e2
      · simp only [List.cons_append, List.cons.injEq] at hm2
        obtain ⟨rfl, hm2⟩ := hm2
        have : c1 < c := by
          rw [hc, hc1, hm1]
          simp [List.countP_append, List.countP_cons, hqy]
        exact ⟨by omega, fun _ => this⟩
    · rcases m with _ | ⟨z, m⟩
      · simp only [List.nil_append, List.cons.injEq, Prod.mk.injEq] at hm2
        obtain ⟨⟨rfl, rfl⟩, rfl⟩ := hm2
        exact absurd (by rw [hZ2]; exact h1) e2
      · simp only [List.cons_append, List.cons.injEq] at hm2
        obtain ⟨rfl, hm2⟩ := hm2
        have : c < c1 := by
          rw [hc, hc1, hm1]
          simp [List.countP_append, List.countP_cons, hqk]
        refine ⟨by omega, ?_⟩
        rintro rfl
        exact absurd (by rw [hm2]; simp) e2
  have hc1p : 0 < c1 := by
    rw [hc1]; simp [hq, hy]
  obtain ⟨e, he⟩ := pdInit_hole (fmt := fmt) (name := productName args) (vals := st.vals) (dims := st.dims)
    (ps := s.spec) (a := c1 - 1) (by
      rcases prodDims_last _ hy _ hst with ⟨h, _⟩ | ⟨pre, c, post, e1, e2, e3⟩
      · simp at h
      · have := (hlate _ _ _ _ e1 e2 hy).2 rfl
        have h2 := lt_maxDim e3
        omega) (by
      intro k hk
      obtain ⟨pre, c, post, e1, e2, e3, e4⟩ := hdims k _ hk
      have h2 := (hlate _ _ _ _ e1 e2 e4).1
      have hc := zip_cumFlags q _ (hZ.trans e1)
      have hqk : q k = true := by simp [hq, e4]
      rw [hqk] at hc
      simp only [Bool.toNat_true] at hc
      omega)
  rw [he] at hg
  cases hg

end Probayes
