/-
Property C67: calling an expression evaluates it at the values given.
-/
import Verif.Lemmas.BroadcastAll
import Verif.Props.Args

namespace Probayes

namespace Spec

/-- The value of the expression depends on the numbers of its symbols only. -/
def Depends (E : ExprObj) : Prop := ∀ e e' : Str → ℝ, (∀ k ∈ E.syms, e k = e' k) → E.fn e = E.fn e'

/-- The call gives `v s` as value of every symbol `s`: by position, or by
dictionaries and keywords. -/
inductive Assigns (E : ExprObj) (v : Str → EVal) : List EArg → Dict Str EVal → Prop
  | positional : Assigns E v (E.syms.map fun s => .val (v s)) []
  | named (ds : List (List (ArgKey × EVal))) (kwds : Dict Str EVal) (items : List (Str × EVal)) :
      Collated (ds.map ArgDict.dict) items → kwds.keys.Nodup →
      (∀ s ∈ E.syms,
        lastGiven ((items.map fun tv => ((Dict.get? E.remap tv.1).getD tv.1, tv.2)) ++ kwds) s = some (v s)) →
      Assigns E v (ds.map EArg.dict) kwds

/-- The number a value that is not an array stands for. -/
def number : EVal → Option ℝ
  | .flag b => some (if b then 1 else 0)
  | .num x => some x
  | .arr _ => none

/-- The shape of a value. -/
def shapeOf : EVal → List ℕ
  | .arr a => a.shape
  | _ => []

/-- Shapes broadcast to `S`: aligned at the end, every size is one or that of
`S`, and every size of `S` comes from one of them. -/
def Broadcast (shapes : List (List ℕ)) (S : List ℕ) : Prop :=
  (∀ t ∈ shapes, t.length ≤ S.length ∧
    ∀ (c n : ℕ), t[c]? = some n → n = 1 ∨ S[S.length - t.length + c]? = some n) ∧
  ∀ c < S.length, ∃ t ∈ shapes, S.length ≤ t.length + c ∧ t[c - (S.length - t.length)]? = S[c]?

/-- `x` is the entry of a value at index `j` of the broadcast shape. -/
inductive EntryAt : EVal → List ℕ → ℝ → Prop
  | flag (b : Bool) (j : List ℕ) : EntryAt (.flag b) j (if b then 1 else 0)
  | num (x : ℝ) (j : List ℕ) : EntryAt (.num x) j x
  | arr (a : Arr) (i j : List ℕ) : i.length = a.shape.length →
      (∀ (c n : ℕ), a.shape[c]? = some n → i[c]? = if n = 1 then some 0 else j[j.length - a.shape.length + c]?) →
      EntryAt (.arr a) j (a.get i)

end Spec

/-! ### Helpers -/

/-- A value after booleans have become integers. -/
def EVal.plain : EVal → EVal
  | .flag b => .num (if b then 1 else 0)
  | v => v

theorem EVal.toArr_plain (v : EVal) : v.plain.toArr = v.toArr := by cases v <;> rfl
theorem EVal.isArr_plain (v : EVal) : v.plain.isArr = v.isArr := by cases v <;> rfl
theorem EVal.vecDim_plain (v : EVal) : v.plain.vecDim = v.vecDim := by cases v <;> rfl
theorem EVal.shape_toArr (v : EVal) : v.toArr.shape = Spec.shapeOf v := by cases v <;> rfl

theorem exprValues_ok (E : ExprObj) (v : Str → EVal) (hnd : E.syms.Nodup) (args : List EArg) (kwds : Dict Str EVal)
    (h : Spec.Assigns E v args kwds) :
    ∃ given, exprValues E args kwds = .ok given ∧ ∀ s ∈ E.syms, Dict.get? given s = some (v s) := by
  cases h with
  | positional =>
    refine ⟨E.syms.zip (E.syms.map v), ?_, ?_⟩
    · have : (E.syms.map fun s => EArg.val (v s)).filterMap EArg.val? = E.syms.map v := by
        rw [List.filterMap_map, ← List.filterMap_eq_map]
        rfl
      rw [exprValues, if_pos (by simp [EArg.val?]), this]
    · intro s hs
      apply Dict.get?_of_mem
      · rw [Dict.keys, List.map_fst_zip (by simp)]; exact hnd
      · obtain ⟨i, hi, rfl⟩ := List.mem_iff_getElem.mp hs
        exact List.mem_iff_getElem.mpr ⟨i, by simpa using hi, by simp⟩
  | named ds kwds items hc hk hv =>
    obtain ⟨r, h1, h2, _⟩ := C65_collated_partial _ kwds E.remap items hc hk
    unfold exprValues
    split
    · rename_i hcond
      simp only [Bool.and_eq_true, List.isEmpty_iff, decide_eq_true_eq, List.length_map] at hcond
      obtain ⟨⟨hk0, hl⟩, hall⟩ := hcond
      have hds : ds = [] := by
        rcases ds with _ | ⟨d, ds⟩
        · rfl
        · simp [EArg.val?] at hall
      subst hds
      have : E.syms = [] := List.length_eq_zero_iff.mp (by simpa using hl.symm)
      exact ⟨_, rfl, by simp [this]⟩
    · have : (ds.map EArg.dict).map EArg.asDict = ds.map ArgDict.dict := by
        rw [List.map_map]; rfl
      rw [this]
      exact ⟨r, h1, fun s hs => by rw [h2 s, hv s hs]⟩

theorem exprCheck_fold (v : Str → EVal) (syms : List Str) (hnd : syms.Nodup) : ∀ given : Dict Str EVal,
    (∀ s ∈ syms, Dict.get? given s = some (v s)) →
    ∃ values, syms.foldlM exprCheck given = .ok values ∧ (∀ s ∈ syms, Dict.get? values s = some (v s).plain) ∧
      (∀ k, k ∉ syms → Dict.get? values k = Dict.get? given k) ∧ values.keys = given.keys := by
  induction syms with
  | nil => intro given _; exact ⟨given, rfl, by simp, fun _ _ => rfl, rfl⟩
  | cons s syms ih =>
    intro given hg
    obtain ⟨hs, hnd'⟩ := List.nodup_cons.mp hnd
    have hgs := hg s (by simp)
    obtain ⟨g', hc, hg', hgo, hgk⟩ : ∃ g', exprCheck given s = .ok g' ∧ Dict.get? g' s = some (v s).plain ∧
        (∀ k, k ≠ s → Dict.get? g' k = Dict.get? given k) ∧ g'.keys = given.keys := by
      cases hvs : v s with
      | flag b =>
        rw [hvs] at hgs
        refine ⟨Dict.set given s (.num (if b then 1 else 0)), by rw [exprCheck, hgs], ?_, ?_, ?_⟩
        · rw [Dict.get?_set]; simp [EVal.plain]
        · intro k hk; rw [Dict.get?_set, if_neg (fun h => hk h.symm)]
        · rw [Dict.keys_set, if_pos]
          exact Dict.get?_isSome.mp (by rw [hgs]; rfl)
      | num x =>
        rw [hvs] at hgs
        exact ⟨given, by rw [exprCheck, hgs], hgs, fun _ _ => rfl, rfl⟩
      | arr a =>
        rw [hvs] at hgs
        exact ⟨given, by rw [exprCheck, hgs], hgs, fun _ _ => rfl, rfl⟩
    obtain ⟨values, h1, h2, h3, h4⟩ := ih hnd' g' (fun s' hs' => by
      rw [hgo s' (fun h => hs (h ▸ hs'))]
      exact hg s' (by simp [hs']))
    refine ⟨values, ?_, ?_, ?_, by rw [h4, hgk]⟩
    · rw [List.foldlM_cons, hc]; exact h1
    · intro s' hs'
      rcases List.mem_cons.mp hs' with rfl | hs'
      · rw [h3 s' hs, hg']
      · exact h2 s' hs'
    · intro k hk
      simp only [List.mem_cons, not_or] at hk
      rw [h3 k hk.2, hgo k hk.1]

/-- The values of the symbols in the call. -/
theorem callExpr_values (argsort : List ℝ → List ℕ) (E : ExprObj) (v : Str → EVal) (hnd : E.syms.Nodup)
    (args : List EArg) (kwds : Dict Str EVal) (h : Spec.Assigns E v args kwds) :
    ∃ values : Dict Str EVal, (∀ s ∈ E.syms, exprVal values s = (v s).plain) ∧
      callExpr argsort E args kwds =
        if E.syms.any fun k => (v k).isArr then
          if E.numpy then exprNumpy E values else exprMesh argsort E values
        else .ok (.num (E.fn fun k => (exprVal values k).toArr.get [])) := by
  obtain ⟨given, h1, h2⟩ := exprValues_ok E v hnd args kwds h
  obtain ⟨values, h3, h4, _, _⟩ := exprCheck_fold v E.syms hnd given h2
  have hval : ∀ s ∈ E.syms, exprVal values s = (v s).plain := fun s hs => by rw [exprVal, h4 s hs]; rfl
  refine ⟨values, hval, ?_⟩
  have hany : (E.syms.any fun k => (exprVal values k).isArr) = E.syms.any fun k => (v k).isArr := by
    rw [Bool.eq_iff_iff, List.any_eq_true, List.any_eq_true]
    constructor
    · rintro ⟨s, hs, hh⟩
      exact ⟨s, hs, by rwa [hval s hs, EVal.isArr_plain] at hh⟩
    · rintro ⟨s, hs, hh⟩
      exact ⟨s, hs, by rwa [hval s hs, EVal.isArr_plain]⟩
  rw [callExpr, h1]
  show (do let values ← E.syms.foldlM exprCheck given; _) = _
  rw [h3]
  show (if (E.syms.any fun k => (exprVal values k).isArr) = true then _ else _) = _
  rw [hany]
  rfl

theorem fits_iff (t S : List ℕ) : Fits t S ↔
    t.length = S.length ∧ ∀ (c n : ℕ), t[c]? = some n → n = 1 ∨ S[c]? = some n := by
  unfold Fits
  induction t generalizing S with
  | nil =>
    cases S with
    | nil => simp
    | cons _ _ => simp
  | cons m t ih =>
    cases S with
    | nil => simp
    | cons k S =>
      rw [List.forall₂_cons, ih]
      constructor
      · rintro ⟨h1, h2, h3⟩
        refine ⟨by simp [h2], ?_⟩
        intro c n hc
        rcases c with _ | c
        · simp only [List.getElem?_cons_zero, Option.some.injEq] at hc ⊢
          subst hc
          rcases h1 with h1 | h1
          · exact Or.inr h1.symm
          · exact Or.inl h1
        · exact h3 c n (by simpa using hc)
      · rintro ⟨h1, h2⟩
        refine ⟨?_, by simpa using h1, fun c n hc => h2 (c + 1) n (by simpa using hc)⟩
        rcases h2 0 m rfl with h | h
        · exact Or.inr h
        · exact Or.inl (by simpa using h.symm)

theorem getElem?_padTo {n : ℕ} {t : List ℕ} (h : t.length ≤ n) (c : ℕ) :
    (padTo n t)[c]? = if c < n - t.length then some 1 else t[c - (n - t.length)]? := by
  rw [padTo, List.getElem?_append, List.length_replicate]
  split
  · rename_i hc; simp [List.getElem?_replicate, hc]
  · rfl

theorem bshapeAll_ok {shapes : List (List ℕ)} {S : List ℕ} (h : Spec.Broadcast shapes S) :
    bshapeAll shapes = .ok S := by
  apply bshapeAll_of_fits
  · intro t ht
    obtain ⟨hl, hf⟩ := h.1 t ht
    refine ⟨hl, (fits_iff _ _).mpr ⟨length_padTo hl, ?_⟩⟩
    intro c n hc
    rw [getElem?_padTo hl] at hc
    split at hc
    · exact Or.inl (by simpa using hc.symm)
    · rename_i hge
      have := hf _ n hc
      rwa [show S.length - t.length + (c - (S.length - t.length)) = c by omega] at this
  · intro c hc
    obtain ⟨t, ht, hle, he⟩ := h.2 c hc
    refine ⟨t, ht, by omega, ?_⟩
    rw [Covers, getElem?_padTo (h.1 t ht).1, if_neg (by omega)]
    exact he

theorem bget_entry (v : EVal) (j : List ℕ) (x : ℝ) (h : Spec.EntryAt v j x) (hl : (Spec.shapeOf v).length ≤ j.length) :
    v.toArr.bget j = x := by
  cases h with
  | flag b => exact bget_scalar rfl j
  | num x => exact bget_scalar rfl j
  | arr a i _ hi hc =>
    show a.bget j = _
    rw [Arr.bget]
    congr 1
    have hl : a.shape.length ≤ j.length := hl
    apply List.ext_getElem?
    intro c
    rw [List.getElem?_zipWith, List.getElem?_drop]
    by_cases hcl : c < a.shape.length
    · rw [hc c _ (List.getElem?_eq_getElem hcl), List.getElem?_eq_getElem hcl]
      have hj : j.length - a.shape.length + c < j.length := by omega
      rw [List.getElem?_eq_getElem hj]
      simp only
      split <;> rfl
    · rw [List.getElem?_eq_none (by omega : a.shape.length ≤ c), List.getElem?_eq_none (by omega : i.length ≤ c)]

theorem filter_eq_of_sublist {syms ks : List Str} (hnd : syms.Nodup) (hs : ks.Sublist syms) (p : Str → Bool)
    (hp : ∀ k ∈ syms, (p k = true ↔ k ∈ ks)) : syms.filter p = ks := by
  have h1 : ks.Sublist (syms.filter p) := by
    have := hs.filter p
    rwa [List.filter_eq_self.mpr (fun k hk => (hp k (hs.subset hk)).mpr hk)] at this
  refine (h1.eq_of_length_le ?_).symm
  apply List.Subperm.length_le
  apply List.subperm_of_subset (hnd.filter p)
  intro k hk
  obtain ⟨hk1, hk2⟩ := List.mem_filter.mp hk
  exact (hp k hk1).mp hk2

/-- The arrays of a call that need not be sorted. -/
theorem exprMesh_unsorted (argsort : List ℝ → List ℕ) (E : ExprObj) (values : Dict Str EVal) (ks : List Str)
    (hks : (E.syms.filter fun k => (exprVal values k).isArr) = ks)
    (hr : rises (ks.filterMap fun k => (exprVal values k).vecDim) = false ∨ ks.length < 2) :
    exprMesh argsort E values = .ok (.arr ⟨meshShape (ks.map fun k => (exprVal values k).toArr.shape.prod),
      fun j => E.fn fun k =>
        match ks.findIdx? (fun k' => decide (k' = k)) with
        | some i => meshGet (ks.map fun k => (exprVal values k).toArr) i j
        | none => (exprVal values k).toArr.get []⟩) := by
  have hdims : ∀ syms : List Str, ((syms.map (exprVal values)).map EVal.vecDim).reduceOption =
      (syms.filter fun k => (exprVal values k).isArr).filterMap fun k => (exprVal values k).vecDim := by
    intro syms
    induction syms with
    | nil => rfl
    | cons k syms ih =>
      rw [List.map_cons, List.map_cons]
      by_cases h : (exprVal values k).isArr = true
      · rw [List.filter_cons_of_pos (by simpa using h)]
        cases hv : (exprVal values k).vecDim with
        | none => rw [List.filterMap_cons_none (f := fun k => (exprVal values k).vecDim) hv, ← ih]; rfl
        | some d => rw [List.filterMap_cons_some (f := fun k => (exprVal values k).vecDim) hv, ← ih]; rfl
      · rw [List.filter_cons_of_neg (by simpa using h), ← ih]
        cases hv : exprVal values k with
        | arr a => rw [hv] at h; exact absurd rfl h
        | num x => rfl
        | flag b => rfl
  have hmesh : ∀ syms : List Str, ((((syms.map (exprVal values)).zip ((syms.map (exprVal values)).map EVal.isArr)).filter
      fun vb => vb.2).map fun vb => vb.1.toArr) =
      (syms.filter fun k => (exprVal values k).isArr).map fun k => (exprVal values k).toArr := by
    intro syms
    induction syms with
    | nil => rfl
    | cons k syms ih =>
      rw [List.map_cons, List.map_cons, List.zip_cons_cons]
      by_cases h : (exprVal values k).isArr = true
      · rw [List.filter_cons_of_pos (by simpa using h), List.filter_cons_of_pos (by simpa using h), List.map_cons,
          List.map_cons, ih]
      · rw [List.filter_cons_of_neg (by simpa using h), List.filter_cons_of_neg (by simpa using h), ih]
  unfold exprMesh
  dsimp only
  rw [hdims, hks, if_neg]
  · show Except.ok _ = _
    rw [hmesh, hks]
    simp only [List.map_map]
    rfl
  · simp only [Bool.and_eq_true, decide_eq_true_eq, not_and, Bool.not_eq_true]
    intro h
    rcases hr with hr | hr
    · exact hr
    · have := List.length_filterMap_le (fun k => (exprVal values k).vecDim) ks
      omega

/-! ### C67 -/

/-- C67: numbers and booleans give the value of the expression at them. -/
theorem C67_numbers (argsort : List ℝ → List ℕ) (E : ExprObj) (hE : Spec.Depends E) (hnd : E.syms.Nodup)
    (v : Str → EVal) (args : List EArg) (kwds : Dict Str EVal) (h : Spec.Assigns E v args kwds)
    (x : Str → ℝ) (hx : ∀ s ∈ E.syms, Spec.number (v s) = some (x s)) :
    callExpr argsort E args kwds = .ok (.num (E.fn x)) := by
  obtain ⟨values, hv, he⟩ := callExpr_values argsort E v hnd args kwds h
  rw [he, if_neg]
  · congr 2
    apply hE
    intro k hk
    rw [hv k hk, EVal.toArr_plain]
    have := hx k hk
    cases hvk : v k <;> rw [hvk] at this <;> simp [Spec.number] at this
    · simpa [EVal.toArr] using this
    · simpa [EVal.toArr] using this
  · simp only [List.any_eq_true, not_exists, not_and]
    intro k hk
    have := hx k hk
    cases hvk : v k <;> rw [hvk] at this <;> simp [Spec.number] at this <;> simp [EVal.isArr]

/-- C67, when there is a function for arrays (missing: without one, see
`C67_claim`): the result has the broadcast shape, and at every index the value of
the expression at the entries of its symbols there. -/
theorem C67_arrays_partial (argsort : List ℝ → List ℕ) (E : ExprObj) (hE : Spec.Depends E) (hnd : E.syms.Nodup)
    (hn : E.numpy = true) (v : Str → EVal) (args : List EArg) (kwds : Dict Str EVal) (h : Spec.Assigns E v args kwds)
    (harr : ∃ s ∈ E.syms, ∃ a, v s = .arr a) (S : List ℕ)
    (hS : Spec.Broadcast (E.syms.map fun s => Spec.shapeOf (v s)) S) :
    ∃ a, callExpr argsort E args kwds = .ok (.arr a) ∧ a.shape = S ∧
      ∀ j ∈ idx S, ∀ x : Str → ℝ, (∀ s ∈ E.syms, Spec.EntryAt (v s) j (x s)) → a.get j = E.fn x := by
  obtain ⟨values, hv, he⟩ := callExpr_values argsort E v hnd args kwds h
  have hany : (E.syms.any fun k => (v k).isArr) = true := by
    obtain ⟨s, hs, a, ha⟩ := harr
    exact List.any_eq_true.mpr ⟨s, hs, by rw [ha]; rfl⟩
  have hshapes : (E.syms.map fun k => (exprVal values k).toArr.shape) = E.syms.map fun s => Spec.shapeOf (v s) :=
    List.map_congr_left fun k hk => by rw [hv k hk, EVal.toArr_plain, EVal.shape_toArr]
  rw [he, if_pos hany, if_pos hn, exprNumpy, hshapes, bshapeAll_ok hS]
  refine ⟨_, rfl, rfl, ?_⟩
  intro j hj x hx
  apply hE
  intro k hk
  rw [hv k hk, EVal.toArr_plain]
  apply bget_entry _ _ _ (hx k hk)
  rw [length_of_mem_idx hj]
  exact (hS.1 _ (List.mem_map.mpr ⟨k, hk, rfl⟩)).1

/-- C67: arrays that do not broadcast are refused. -/
theorem C67_mismatch_refused (argsort : List ℝ → List ℕ) (E : ExprObj) (hnd : E.syms.Nodup)
    (hn : E.numpy = true) (v : Str → EVal) (args : List EArg) (kwds : Dict Str EVal) (h : Spec.Assigns E v args kwds)
    (s t : Str) (hs : s ∈ E.syms) (ht : t ∈ E.syms) (a b : Arr) (ha : v s = .arr a) (hb : v t = .arr b)
    (d m n : ℕ) (hm : a.shape.reverse[d]? = some m) (hn' : b.shape.reverse[d]? = some n)
    (hmn : m ≠ n) (hm1 : m ≠ 1) (hn1 : n ≠ 1) : Raises (callExpr argsort E args kwds) := by
  obtain ⟨values, hv, he⟩ := callExpr_values argsort E v hnd args kwds h
  have hany : (E.syms.any fun k => (v k).isArr) = true :=
    List.any_eq_true.mpr ⟨s, hs, by rw [ha]; rfl⟩
  rw [he, if_pos hany, if_pos hn, exprNumpy]
  cases hb' : bshapeAll (E.syms.map fun k => (exprVal values k).toArr.shape) with
  | error e => exact ⟨e, rfl⟩
  | ok S =>
    exfalso
    have hfit := bshapeAll_ok_fits _ S hb'
    have size : ∀ (k : Str) (c : Arr) (q : ℕ), k ∈ E.syms → v k = .arr c → c.shape.reverse[d]? = some q → q ≠ 1 →
        S.reverse[d]? = some q := by
      intro k c q hk hc hq hq1
      obtain ⟨hl, hf⟩ := hfit c.shape (List.mem_map.mpr ⟨k, hk, by rw [hv k hk, EVal.toArr_plain, hc]; rfl⟩)
      have hd : d < c.shape.length := by
        by_contra hd
        rw [List.getElem?_eq_none (by simpa using hd)] at hq
        cases hq
      rw [List.getElem?_reverse hd] at hq
      rw [List.getElem?_reverse (by omega)]
      have hpad : (padTo S.length c.shape)[S.length - 1 - d]? = some q := by
        rw [getElem?_padTo hl, if_neg (by omega)]
        rw [← hq]
        congr 1
        omega
      rcases ((fits_iff _ _).mp hf).2 _ q hpad with h | h
      · exact absurd h hq1
      · exact h
    have e1 := size s a m hs ha hm hm1
    have e2 := size t b n ht hb hn' hn1
    rw [e1] at e2
    exact hmn (by simpa using e2)

/-- C67: a symbol without a value is refused. -/
theorem C67_missing_refused (argsort : List ℝ → List ℕ) (E : ExprObj) (hnd : E.syms.Nodup)
    (ds : List (List (ArgKey × EVal))) (kwds : Dict Str EVal) (items : List (Str × EVal))
    (hc : Spec.Collated (ds.map ArgDict.dict) items) (hk : kwds.keys.Nodup)
    (s : Str) (hs : s ∈ E.syms)
    (hno : Spec.lastGiven ((items.map fun tv => ((Dict.get? E.remap tv.1).getD tv.1, tv.2)) ++ kwds) s = none) :
    Raises (callExpr argsort E (ds.map EArg.dict) kwds) := by
  obtain ⟨r, h1, h2, _⟩ := C65_collated_partial _ kwds E.remap items hc hk
  have hev : exprValues E (ds.map EArg.dict) kwds = .ok r := by
    unfold exprValues
    rw [if_neg]
    · have : (ds.map EArg.dict).map EArg.asDict = ds.map ArgDict.dict := by
        rw [List.map_map]; rfl
      rw [this, h1]
    · simp only [Bool.and_eq_true, List.isEmpty_iff, decide_eq_true_eq, List.length_map]
      rintro ⟨⟨_, hl⟩, hall⟩
      rcases ds with _ | ⟨d, ds⟩
      · have : E.syms = [] := List.length_eq_zero_iff.mp (by simpa using hl.symm)
        rw [this] at hs; simp at hs
      · simp [EArg.val?] at hall
  have key : ∀ (syms : List Str) (g : Dict Str EVal), s ∈ syms → Dict.get? g s = none →
      Raises (syms.foldlM exprCheck g) := by
    intro syms
    induction syms with
    | nil => intro g h; simp at h
    | cons k syms ih =>
      intro g hsk hg
      rw [List.foldlM_cons]
      cases hck : exprCheck g k with
      | error e => exact ⟨e, rfl⟩
      | ok g' =>
        have hks : k ≠ s := by
          rintro rfl
          rw [exprCheck, hg] at hck
          cases hck
        have hg' : Dict.get? g' s = none := by
          rw [exprCheck] at hck
          split at hck
          · cases hck
          · cases hck; rw [Dict.get?_set, if_neg hks, hg]
          · cases hck; exact hg
        rcases List.mem_cons.mp hsk with h | h
        · exact absurd h.symm hks
        · exact ih g' h hg'
  obtain ⟨e, he⟩ := key E.syms r hs (by rw [h2 s, hno])
  rw [callExpr, hev]
  show Raises (do let values ← E.syms.foldlM exprCheck r; _)
  rw [he]
  exact ⟨e, rfl⟩

/-- C67: values by position must be as many as the symbols, without keywords. -/
theorem C67_position_refused (argsort : List ℝ → List ℕ) (E : ExprObj) (args : List EArg) (kwds : Dict Str EVal)
    (v : EVal) (hv : EArg.val v ∈ args)
    (h : kwds ≠ [] ∨ args.length ≠ E.syms.length ∨ ∃ items, EArg.dict items ∈ args) :
    Raises (callExpr argsort E args kwds) := by
  have : Raises (exprValues E args kwds) := by
    unfold exprValues
    rw [if_neg]
    · exact C65_refused _ _ _ (Or.inl (List.mem_map.mpr ⟨_, hv, rfl⟩))
    · simp only [Bool.and_eq_true, List.isEmpty_iff, decide_eq_true_eq, List.all_eq_true]
      rintro ⟨⟨h1, h2⟩, h3⟩
      rcases h with h | h | ⟨items, hi⟩
      · exact h h1
      · exact h h2
      · have := h3 _ hi
        simp [EArg.val?] at this
  obtain ⟨e, he⟩ := this
  rw [callExpr, he]
  exact ⟨e, rfl⟩

/-- C67, without a function for arrays: one vector among numbers is evaluated
entry by entry. -/
theorem C67_vector_partial (argsort : List ℝ → List ℕ) (E : ExprObj) (hE : Spec.Depends E) (hnd : E.syms.Nodup)
    (hn : E.numpy = false) (v : Str → EVal) (args : List EArg) (kwds : Dict Str EVal) (h : Spec.Assigns E v args kwds)
    (s : Str) (hs : s ∈ E.syms) (a : Arr) (ha : v s = .arr a) (n : ℕ) (hsh : a.shape = [n])
    (hoth : ∀ t ∈ E.syms, t ≠ s → ∃ y, Spec.number (v t) = some y) :
    ∃ r, callExpr argsort E args kwds = .ok (.arr r) ∧ r.shape = [n] ∧
      ∀ i < n, ∀ x : Str → ℝ, x s = a.get [i] → (∀ t ∈ E.syms, t ≠ s → Spec.number (v t) = some (x t)) →
        r.get [i] = E.fn x := by
  obtain ⟨values, hv, he⟩ := callExpr_values argsort E v hnd args kwds h
  have hany : (E.syms.any fun k => (v k).isArr) = true :=
    List.any_eq_true.mpr ⟨s, hs, by rw [ha]; rfl⟩
  have hvs : exprVal values s = .arr a := by rw [hv s hs, ha]; rfl
  have hks : (E.syms.filter fun k => (exprVal values k).isArr) = [s] := by
    apply filter_eq_of_sublist hnd (List.singleton_sublist.mpr hs)
    intro k hk
    rw [hv k hk, EVal.isArr_plain, List.mem_singleton]
    constructor
    · intro hk'
      by_contra hks
      obtain ⟨y, hy⟩ := hoth k hk hks
      cases hvk : v k <;> rw [hvk] at hy hk' <;> simp [Spec.number, EVal.isArr] at hy hk'
    · rintro rfl
      rw [ha]; rfl
  rw [he, if_pos hany, hn, if_neg (by simp), exprMesh_unsorted argsort E values [s] hks (Or.inr (by simp))]
  refine ⟨_, rfl, ?_, ?_⟩
  · simp [meshShape, hvs, EVal.toArr, hsh]
  · intro i hi x hxs hxo
    apply hE
    intro k hk
    by_cases hks' : k = s
    · subst hks'
      simp [List.findIdx?_cons, meshGet, meshAxis, hvs, EVal.toArr, hsh, unravelIx, hxs]
    · have hsk : s ≠ k := fun h => hks' h.symm
      simp only [List.findIdx?_cons, hsk, decide_false, List.findIdx?_nil, Option.map_none]
      rw [hv k hk, EVal.toArr_plain]
      have := hxo k hk hks'
      cases hvk : v k <;> rw [hvk] at this <;> simp [Spec.number] at this <;> simpa [EVal.toArr] using this

/-- C67, without a function for arrays: a row and a column, the row's symbol
coming first, are evaluated on the table they span. -/
theorem C67_table_partial (argsort : List ℝ → List ℕ) (E : ExprObj) (hE : Spec.Depends E) (hnd : E.syms.Nodup)
    (hn : E.numpy = false) (v : Str → EVal) (args : List EArg) (kwds : Dict Str EVal) (h : Spec.Assigns E v args kwds)
    (s t : Str) (hst : [s, t].Sublist E.syms) (a b : Arr) (ha : v s = .arr a) (hb : v t = .arr b)
    (m n : ℕ) (hm : 1 < m) (hn1 : 1 < n) (hsa : a.shape = [1, n]) (hsb : b.shape = [m, 1])
    (hoth : ∀ u ∈ E.syms, u ≠ s → u ≠ t → ∃ y, Spec.number (v u) = some y) :
    ∃ r, callExpr argsort E args kwds = .ok (.arr r) ∧ r.shape = [m, n] ∧
      ∀ i < m, ∀ k < n, ∀ x : Str → ℝ, x s = a.get [0, k] → x t = b.get [i, 0] →
        (∀ u ∈ E.syms, u ≠ s → u ≠ t → Spec.number (v u) = some (x u)) → r.get [i, k] = E.fn x := by
  obtain ⟨values, hv, he⟩ := callExpr_values argsort E v hnd args kwds h
  have hs : s ∈ E.syms := hst.subset (by simp)
  have ht : t ∈ E.syms := hst.subset (by simp)
  have hne : s ≠ t := by
    rintro rfl
    have := hst.nodup hnd
    simp at this
  have hany : (E.syms.any fun k => (v k).isArr) = true :=
    List.any_eq_true.mpr ⟨s, hs, by rw [ha]; rfl⟩
  have hvs : exprVal values s = .arr a := by rw [hv s hs, ha]; rfl
  have hvt : exprVal values t = .arr b := by rw [hv t ht, hb]; rfl
  have hks : (E.syms.filter fun k => (exprVal values k).isArr) = [s, t] := by
    apply filter_eq_of_sublist hnd hst
    intro k hk
    rw [hv k hk, EVal.isArr_plain]
    constructor
    · intro hk'
      by_contra hks
      simp only [List.mem_cons, List.not_mem_nil, or_false, not_or] at hks
      obtain ⟨y, hy⟩ := hoth k hk hks.1 hks.2
      cases hvk : v k <;> rw [hvk] at hy hk' <;> simp [Spec.number, EVal.isArr] at hy hk'
    · intro hk'
      simp only [List.mem_cons, List.not_mem_nil, or_false] at hk'
      rcases hk' with rfl | rfl
      · rw [ha]; rfl
      · rw [hb]; rfl
  have hdim : rises ([s, t].filterMap fun k => (exprVal values k).vecDim) = false := by
    have d1 : (exprVal values s).vecDim = some 1 := by
      rw [hvs]; simp [EVal.vecDim, hsa, List.findIdx?_cons, hn1]
    have d2 : (exprVal values t).vecDim = some 0 := by
      rw [hvt]; simp [EVal.vecDim, hsb, List.findIdx?_cons, hm]
    rw [List.filterMap_cons_some (f := fun k => (exprVal values k).vecDim) d1,
      List.filterMap_cons_some (f := fun k => (exprVal values k).vecDim) d2]
    simp [rises]
  rw [he, if_pos hany, hn, if_neg (by simp), exprMesh_unsorted argsort E values [s, t] hks (Or.inl hdim)]
  refine ⟨_, rfl, ?_, ?_⟩
  · simp [meshShape, hvs, hvt, EVal.toArr, hsa, hsb]
  · intro i hi k hk x hxs hxt hxo
    apply hE
    intro u hu
    by_cases hus : u = s
    · subst hus
      simp [List.findIdx?_cons, meshGet, meshAxis, hvs, EVal.toArr, hsa, unravelIx, hxs,
        Nat.div_eq_of_lt hk, Nat.mod_eq_of_lt hk]
    · by_cases hut : u = t
      · subst hut
        simp [List.findIdx?_cons, hne, meshGet, meshAxis, hvt, EVal.toArr, hsb, unravelIx, hxt, Nat.mod_one]
      · have hsu : s ≠ u := fun h => hus h.symm
        have htu : t ≠ u := fun h => hut h.symm
        simp only [List.findIdx?_cons, hsu, htu, decide_false, List.findIdx?_nil, Option.map_none]
        rw [hv u hu, EVal.toArr_plain]
        have := hxo u hu hus hut
        cases hvk : v u <;> rw [hvk] at this <;> simp [Spec.number] at this <;> simpa [EVal.toArr] using this

/-- C67: without a function for arrays, two vectors (even of one length) are not
combined entry by entry but give a table, the second along its first axis. -/
theorem C67_outer (argsort : List ℝ → List ℕ) (E : ExprObj) (hE : Spec.Depends E) (hnd : E.syms.Nodup)
    (hn : E.numpy = false) (v : Str → EVal) (args : List EArg) (kwds : Dict Str EVal) (h : Spec.Assigns E v args kwds)
    (s t : Str) (hst : [s, t].Sublist E.syms) (a b : Arr) (ha : v s = .arr a) (hb : v t = .arr b)
    (m n : ℕ) (hm : 1 < m) (hn1 : 1 < n) (hsa : a.shape = [n]) (hsb : b.shape = [m])
    (hoth : ∀ u ∈ E.syms, u ≠ s → u ≠ t → ∃ y, Spec.number (v u) = some y) :
    ∃ r, callExpr argsort E args kwds = .ok (.arr r) ∧ r.shape = [m, n] ∧
      ∀ i < m, ∀ k < n, ∀ x : Str → ℝ, x s = a.get [k] → x t = b.get [i] →
        (∀ u ∈ E.syms, u ≠ s → u ≠ t → Spec.number (v u) = some (x u)) → r.get [i, k] = E.fn x := by
  obtain ⟨values, hv, he⟩ := callExpr_values argsort E v hnd args kwds h
  have hs : s ∈ E.syms := hst.subset (by simp)
  have ht : t ∈ E.syms := hst.subset (by simp)
  have hne : s ≠ t := by
    rintro rfl
    have := hst.nodup hnd
    simp at this
  have hany : (E.syms.any fun k => (v k).isArr) = true :=
    List.any_eq_true.mpr ⟨s, hs, by rw [ha]; rfl⟩
  have hvs : exprVal values s = .arr a := by rw [hv s hs, ha]; rfl
  have hvt : exprVal values t = .arr b := by rw [hv t ht, hb]; rfl
  have hks : (E.syms.filter fun k => (exprVal values k).isArr) = [s, t] := by
    apply filter_eq_of_sublist hnd hst
    intro k hk
    rw [hv k hk, EVal.isArr_plain]
    constructor
    · intro hk'
      by_contra hks
      simp only [List.mem_cons, List.not_mem_nil, or_false, not_or] at hks
      obtain ⟨y, hy⟩ := hoth k hk hks.1 hks.2
      cases hvk : v k <;> rw [hvk] at hy hk' <;> simp [Spec.number, EVal.isArr] at hy hk'
    · intro hk'
      simp only [List.mem_cons, List.not_mem_nil, or_false] at hk'
      rcases hk' with rfl | rfl
      · rw [ha]; rfl
      · rw [hb]; rfl
  have hdim : rises ([s, t].filterMap fun k => (exprVal values k).vecDim) = false := by
    have d1 : (exprVal values s).vecDim = some 0 := by
      rw [hvs]; simp [EVal.vecDim, hsa, List.findIdx?_cons, hn1]
    have d2 : (exprVal values t).vecDim = some 0 := by
      rw [hvt]; simp [EVal.vecDim, hsb, List.findIdx?_cons, hm]
    rw [List.filterMap_cons_some (f := fun k => (exprVal values k).vecDim) d1,
      List.filterMap_cons_some (f := fun k => (exprVal values k).vecDim) d2]
    simp [rises]
  rw [he, if_pos hany, hn, if_neg (by simp), exprMesh_unsorted argsort E values [s, t] hks (Or.inl hdim)]
  refine ⟨_, rfl, ?_, ?_⟩
  · simp [meshShape, hvs, hvt, EVal.toArr, hsa, hsb]
  · intro i hi k hk x hxs hxt hxo
    apply hE
    intro u hu
    by_cases hus : u = s
    · subst hus
      simp [List.findIdx?_cons, meshGet, meshAxis, hvs, EVal.toArr, hsa, unravelIx, hxs,
        Nat.div_eq_of_lt hk, Nat.mod_eq_of_lt hk]
    · by_cases hut : u = t
      · subst hut
        simp [List.findIdx?_cons, hne, meshGet, meshAxis, hvt, EVal.toArr, hsb, unravelIx, hxt, ]
      · have hsu : s ≠ u := fun h => hus h.symm
        have htu : t ≠ u := fun h => hut h.symm
        simp only [List.findIdx?_cons, hsu, htu, decide_false, List.findIdx?_nil, Option.map_none]
        rw [hv u hu, EVal.toArr_plain]
        have := hxo u hu hus hut
        cases hvk : v u <;> rw [hvk] at this <;> simp [Spec.number] at this <;> simpa [EVal.toArr] using this

/-- C67 full claim: with or without a function for arrays, the result is that of
`C67_arrays_partial`. -/
def C67_claim : Prop :=
  ∀ (argsort : List ℝ → List ℕ) (E : ExprObj) (v : Str → EVal) (args : List EArg) (kwds : Dict Str EVal) (S : List ℕ),
    Spec.ArgsortR argsort → Spec.Depends E → E.syms.Nodup → Spec.Assigns E v args kwds →
    (∃ s ∈ E.syms, ∃ a, v s = .arr a) → Spec.Broadcast (E.syms.map fun s => Spec.shapeOf (v s)) S →
    ∃ a, callExpr argsort E args kwds = .ok (.arr a) ∧ a.shape = S ∧
      ∀ j ∈ idx S, ∀ x : Str → ℝ, (∀ s ∈ E.syms, Spec.EntryAt (v s) j (x s)) → a.get j = E.fn x

/-- Without a function for arrays, a column for the first symbol and a row for the
second are exchanged: the first symbol gets the values of the second. -/
theorem C67_exchanged (argsort : List ℝ → List ℕ) (ha : Spec.ArgsortR argsort) (E : ExprObj) (hE : Spec.Depends E)
    (s t : Str) (hst : E.syms = [s, t]) (hne : s ≠ t) (hn : E.numpy = false) (a b : Arr) (m n : ℕ) (hm : 1 < m)
    (hn1 : 1 < n) (hsa : a.shape = [m, 1]) (hsb : b.shape = [1, n]) :
    ∃ r, callExpr argsort E [.val (.arr a), .val (.arr b)] [] = .ok (.arr r) ∧ r.shape = [m, n] ∧
      ∀ i < m, ∀ k < n, ∀ x : Str → ℝ, x s = b.get [0, k] → x t = a.get [i, 0] → r.get [i, k] = E.fn x := by
  have hvals : exprValues E [.val (.arr a), .val (.arr b)] [] = .ok [(s, .arr a), (t, .arr b)] := by
    rw [exprValues, if_pos (by simp [hst, EArg.val?]), hst]
    rfl
  have g1 : Dict.get? [(s, EVal.arr a), (t, EVal.arr b)] s = some (.arr a) := by simp [Dict.get?]
  have g2 : Dict.get? [(s, EVal.arr a), (t, EVal.arr b)] t = some (.arr b) := by simp [Dict.get?, hne]
  have hcheck : E.syms.foldlM exprCheck [(s, .arr a), (t, .arr b)] = .ok [(s, .arr a), (t, .arr b)] := by
    rw [hst, List.foldlM_cons, exprCheck, g1]
    show List.foldlM _ _ _ = _
    rw [List.foldlM_cons, exprCheck, g2]
    rfl
  have v1 : exprVal [(s, EVal.arr a), (t, EVal.arr b)] s = .arr a := by rw [exprVal, g1]; rfl
  have v2 : exprVal [(s, EVal.arr a), (t, EVal.arr b)] t = .arr b := by rw [exprVal, g2]; rfl
  have d1 : (EVal.arr a).vecDim = some 0 := by simp [EVal.vecDim, hsa, List.findIdx?_cons, hm]
  have d2 : (EVal.arr b).vecDim = some 1 := by simp [EVal.vecDim, hsb, List.findIdx?_cons, hn1]
  have hsort : sortOrderedDict argsort [(s, EVal.arr a), (t, EVal.arr b)] (.list [some ((0 : ℕ) : ℝ), some ((1 : ℕ) : ℝ)])
      true = .ok [(t, EVal.arr b), (s, EVal.arr a)] := by
    obtain ⟨r, h1, h2, _, h4⟩ := C66_sorted argsort ha [(s, EVal.arr a), (t, EVal.arr b)] (by simp [Dict.keys, hne])
      (fun k => if k = s then some ((0 : ℕ) : ℝ) else some ((1 : ℕ) : ℝ))
      (.list [some ((0 : ℕ) : ℝ), some ((1 : ℕ) : ℝ)]) (by simp [Spec.OrderOf, Dict.keys, Ne.symm hne]) true
    rw [h1]
    congr 1
    rcases r with _ | ⟨p, _ | ⟨q, _ | ⟨_, _⟩⟩⟩
    · have := h2.length_eq; simp at this
    · have := h2.length_eq; simp at this
    · have hp : p ∈ [(s, EVal.arr a), (t, EVal.arr b)] := h2.subset (by simp)
      have hq : q ∈ [(s, EVal.arr a), (t, EVal.arr b)] := h2.subset (by simp)
      have hnd : [p, q].Nodup := h2.nodup_iff.mpr (by simp [hne])
      simp only [List.mem_cons, List.not_mem_nil, or_false] at hp hq
      rcases hp with rfl | rfl <;> rcases hq with rfl | rfl
      · simp at hnd
      · simp [Ne.symm hne] at h4
        linarith
      · rfl
      · simp at hnd
    · have := h2.length_eq; simp at this
  have hcall : callExpr argsort E [.val (.arr a), .val (.arr b)] [] =
      exprMesh argsort E [(s, .arr a), (t, .arr b)] := by
    rw [callExpr, hvals]
    show (do let values ← E.syms.foldlM exprCheck [(s, .arr a), (t, .arr b)]; _) = _
    rw [hcheck]
    show (if (E.syms.any fun k => (exprVal [(s, .arr a), (t, .arr b)] k).isArr) = true then _ else _) = _
    rw [if_pos (by simp [hst, v1, EVal.isArr]), hn, if_neg (by simp)]
  rw [hcall]
  refine ⟨⟨[m, n], fun j => E.fn fun k =>
    match [s, t].findIdx? (fun k' => decide (k' = k)) with
    | some i => meshGet [b, a] i j
    | none => (exprVal [(s, EVal.arr a), (t, EVal.arr b)] k).toArr.get []⟩, ?_, rfl, ?_⟩
  · unfold exprMesh
    dsimp only
    have hcond : (decide (1 < [some 0, some 1].reduceOption.length) && rises [some 0, some 1].reduceOption) = true := by
      decide
    simp only [hst, List.map_cons, List.map_nil, v1, v2, d1, d2, hcond, if_true, Option.map_some, hsort]
    show Except.ok _ = _
    simp [EVal.isArr, EVal.toArr, hsa, hsb, meshShape, v1, v2]
    rfl
  · intro i hi k hk x hxs hxt
    apply hE
    intro u hu
    rw [hst] at hu
    simp only [List.mem_cons, List.not_mem_nil, or_false] at hu
    rcases hu with rfl | rfl
    · simp [List.findIdx?_cons, meshGet, meshAxis, hsb, unravelIx, hxs, Nat.div_eq_of_lt hk, Nat.mod_eq_of_lt hk]
    · simp [List.findIdx?_cons, hne, meshGet, meshAxis, hsa, unravelIx, hxt, Nat.mod_one]

/-- The claim fails, for the difference of two symbols. -/
theorem C67_claim_fails : ¬ C67_claim := by
  intro hclaim
  obtain ⟨argsort, hargsort⟩ := argsortR_exists
  let E : ExprObj := ⟨[['x'], ['y']], fun e => e ['x'] - e ['y'], [], false⟩
  let a : Arr := ⟨[2, 1], fun _ => 0⟩
  let b : Arr := ⟨[1, 2], fun _ => 1⟩
  have hE : Spec.Depends E := by
    intro e e' h
    show e ['x'] - e ['y'] = e' ['x'] - e' ['y']
    rw [h ['x'] (by simp [E]), h ['y'] (by simp [E])]
  let v : Str → EVal := fun k => if k = ['x'] then .arr a else .arr b
  have hpos : Spec.Assigns E v [.val (.arr a), .val (.arr b)] [] := by
    have := Spec.Assigns.positional (E := E) (v := v)
    simpa [E, v] using this
  obtain ⟨r, h1, _, h3⟩ := hclaim argsort E v _ _ [2, 2] hargsort hE (by simp [E]) hpos
    ⟨['x'], by simp [E], a, by simp [v]⟩ (by
      refine ⟨?_, ?_⟩
      · intro t ht
        simp only [E, v, List.map_cons, List.map_nil, List.mem_cons, List.not_mem_nil, or_false, Spec.shapeOf] at ht
        rcases ht with rfl | rfl
        · refine ⟨by simp [a], ?_⟩
          intro c n hc
          rcases c with _ | _ | c <;> simp_all [a]
        · refine ⟨by simp [b], ?_⟩
          intro c n hc
          rcases c with _ | _ | c <;> simp_all [b]
      · intro c hc
        rcases c with _ | _ | c
        · exact ⟨[2, 1], by simp [E, v, Spec.shapeOf, a], by simp, by simp⟩
        · exact ⟨[1, 2], by simp [E, v, Spec.shapeOf, b], by simp, by simp⟩
        · simp at hc)
  obtain ⟨r', h1', _, h3'⟩ := C67_exchanged argsort hargsort E hE ['x'] ['y'] rfl (by simp) rfl a b 2 2 (by simp) (by simp)
    rfl rfl
  rw [h1] at h1'
  cases h1'
  have e1 := h3 [0, 0] (by rw [mem_idx]; simp) (fun k => if k = ['x'] then 0 else 1) (by
    intro s hs
    simp only [E, List.mem_cons, List.not_mem_nil, or_false] at hs
    rcases hs with rfl | rfl
    · have : Spec.EntryAt (.arr a) [0, 0] (a.get [0, 0]) := by
        refine Spec.EntryAt.arr a [0, 0] [0, 0] rfl ?_
        intro c n hc
        rcases c with _ | _ | c <;> simp [a] at hc ⊢ <;> omega
      simpa [v, a] using this
    · have : Spec.EntryAt (.arr b) [0, 0] (b.get [0, 0]) := by
        refine Spec.EntryAt.arr b [0, 0] [0, 0] rfl ?_
        intro c n hc
        rcases c with _ | _ | c <;> simp [b] at hc ⊢ <;> omega
      simpa [v, b] using this)
  have e2 := h3' 0 (by simp) 0 (by simp) (fun k => if k = ['x'] then 1 else 0) (by simp [b]) (by simp [a])
  rw [e1] at e2
  simp [E] at e2
  linarith

/-- Non-vacuity: two symbols given by name, one through a variable renamed, as a
vector and a column. -/
example : ∃ (E : ExprObj) (v : Str → EVal), Spec.Depends E ∧ E.syms.Nodup ∧ E.numpy = true ∧
    Spec.Assigns E v [.dict [(.text ['a'], .arr ⟨[3], fun _ => 1⟩)]] [(['y'], .arr ⟨[2, 1], fun _ => 2⟩)] ∧
    Spec.Broadcast (E.syms.map fun s => Spec.shapeOf (v s)) [2, 3] := by
  refine ⟨⟨[['x'], ['y']], fun e => e ['x'] - e ['y'], [(['a'], ['x'])], true⟩,
    fun k => if k = ['x'] then .arr ⟨[3], fun _ => 1⟩ else .arr ⟨[2, 1], fun _ => 2⟩, ?_, by simp, rfl, ?_, ?_⟩
  · intro e e' h
    show e ['x'] - e ['y'] = e' ['x'] - e' ['y']
    rw [h ['x'] (by simp), h ['y'] (by simp)]
  · refine Spec.Assigns.named [[(.text ['a'], .arr ⟨[3], fun _ => 1⟩)]] _ [(['a'], .arr ⟨[3], fun _ => 1⟩)]
      ⟨_, rfl, .cons ⟨.text _, rfl⟩ .nil⟩ (by simp [Dict.keys]) ?_
    intro s hs
    simp only [List.mem_cons, List.not_mem_nil, or_false] at hs
    rcases hs with rfl | rfl <;> simp [Spec.lastGiven, Dict.get?]
  · refine ⟨?_, ?_⟩
    · intro t ht
      simp [Spec.shapeOf] at ht
      rcases ht with rfl | rfl
      · refine ⟨by simp, ?_⟩
        intro c n hc
        rcases c with _ | c <;> simp_all
      · refine ⟨by simp, ?_⟩
        intro c n hc
        rcases c with _ | _ | c <;> simp_all
    · intro c hc
      rcases c with _ | _ | c
      · exact ⟨[2, 1], by simp [Spec.shapeOf], by simp, by simp⟩
      · exact ⟨[3], by simp [Spec.shapeOf], by simp, by simp⟩
      · simp at hc

end Probayes
