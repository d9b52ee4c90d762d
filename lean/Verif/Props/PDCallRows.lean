/-
Property C18: slicing by a value that occurs several times, or keeping dimensions.
-/
import Verif.Props.PDCall
import Verif.Props.PDCond

namespace Probayes

/-! ### Specification -/

/-- The values of all variables on the first axis run along it. -/
def Spec.Rows (d : PD) : Prop :=
  ∀ k, d.axis k = some 0 → ∃ t data, Dict.get? d.vals k = some (.arr (data.length :: t) data) ∧
    ∀ m ∈ t, m = 1

/-- `r` is `d` restricted to the given positions on the first axis. -/
structure Spec.Restricted (d : PD) (rows : List ℕ) (r : PD) : Prop where
  keylist : r.keylist = d.keylist
  marg : r.marg.keys = d.marg.keys
  cond : r.cond.keys = d.cond.keys
  pscale : r.pscale = d.pscale
  axis : ∀ k, r.axis k = d.axis k
  shape : r.shape = rows.length :: d.shape.tail
  /-- the variables on the first axis are restricted to the positions -/
  first : ∀ k data, d.axis k = some 0 → d.values k = some (.arr [data.length] data) →
    r.values k = some (.arr [rows.length] (rows.map fun p => data.getD p 0))
  /-- the others remain -/
  others : ∀ k, d.axis k ≠ some 0 → r.values k = d.values k
  entry : ∀ (p j : ℕ) (t : List ℕ), rows[j]? = some p → t ∈ idx d.shape.tail →
    (p :: t) ∈ idx d.shape ∧ (j :: t) ∈ idx r.shape ∧ r.at (j :: t) = d.at (p :: t)

/-- C18 as intended with dimensions kept: the variable given stays an array, of the
positions at which it has the given value. -/
def C18_keepdims_claim : Prop :=
  ∀ (fmt : Val → Str) (d : PD) (k : Str) (x : ℚ) (data : List ℚ), d.WF fmt → d.Pos → d.Placed →
    Spec.OwnAxis d k → (d.axis k).isSome → Spec.Entry k (k ++ '=' :: "[]".toList) →
    d.values k = some (.arr [data.length] data) → x ∈ data →
    ∃ r, d.call fmt [(k, .scalar x)] true = .ok r ∧ r.ndim = d.ndim ∧
      r.values k = some (.arr [data.count x] (List.replicate (data.count x) x))

/-! ### Helpers -/

/-- Values at the given positions of the first axis. -/
def rowsOf (ix : List ℕ) : Val → Val
  | .arr (_ :: t) data => .arr (ix.length :: t) (ix.map fun p => data.getD p 0)
  | v => v

theorem prod_ones (t : List ℕ) (h : ∀ m ∈ t, m = 1) : t.prod = 1 := by
  induction t with
  | nil => rfl
  | cons m t ih => rw [List.prod_cons, h m (by simp), ih fun x hx => h x (by simp [hx])]

theorem takeRows_ok (ix t : List ℕ) (data : List ℚ) (ht : ∀ m ∈ t, m = 1)
    (hix : ∀ p ∈ ix, p < data.length) :
    Val.takeRows (.arr (data.length :: t) data) ix = .ok (rowsOf ix (.arr (data.length :: t) data)) := by
  have h1 : ix.all (· < data.length) = true := by
    rw [List.all_eq_true]; intro p hp; simpa using hix p hp
  simp only [Val.takeRows, h1, if_true, rowsOf, prod_ones t ht, mul_one]
  congr 2
  clear h1
  induction ix with
  | nil => rfl
  | cons p ix ih =>
    have hp := hix p (by simp)
    rw [List.flatMap_cons, List.map_cons, ih fun q hq => hix q (by simp [hq])]
    have : (data.drop p).take 1 = [data.getD p 0] := by
      rw [List.take_one, List.head?_drop, List.getD, List.getElem?_eq_getElem hp]
      rfl
    rw [this]; rfl

theorem mem_matching {data : List ℚ} {x : ℚ} {p : ℕ} : p ∈ matching data x ↔ data[p]? = some x := by
  simp only [matching, List.mem_filter, List.mem_range, decide_eq_true_eq]
  constructor
  · exact fun h => h.2
  · exact fun h => ⟨(List.getElem?_eq_some_iff.mp h).1, h⟩

theorem length_matching (data : List ℚ) (x : ℚ) : (matching data x).length = data.count x := by
  unfold matching
  induction data with
  | nil => rfl
  | cons y data ih =>
    rw [List.length_cons, List.range_succ_eq_map, List.filter_cons, List.filter_map, List.count_cons]
    simp only [List.getElem?_cons_zero, Option.some.injEq, Function.comp_def, List.getElem?_cons_succ]
    by_cases hy : y = x
    · simp [hy, ih]
    · simp [hy, ih]

theorem foldlM_skip {f : CallState → Str × Val → Py CallState} (l : List (Str × Val)) (st : CallState)
    (h : ∀ kv ∈ l, f st kv = .ok st) : l.foldlM f st = .ok st := by
  induction l with
  | nil => rfl
  | cons kv l ih =>
    rw [List.foldlM_cons, h kv (by simp)]
    exact ih fun kv' hkv' => h kv' (by simp [hkv'])

/-- The loop of `callShared`. -/
theorem callShared_ok {fmt : Val → Str} {d : PD} (h : d.WF fmt) (hr : Spec.Rows d)
    (values : Dict Str Val) (ix : List ℕ)
    (hix : ∀ p ∈ ix, ∀ n, d.shape[0]? = some n → p < n) (vals : Dict Str Val)
    (hk : Dict.keys vals = Dict.keys d.vals) :
    ∃ vals', callShared d values 0 ix vals = .ok vals' ∧ Dict.keys vals' = Dict.keys d.vals ∧
      ∀ k, Dict.get? vals' k = if d.axis k = some 0 ∧ k ∉ Dict.keys values
        then (Dict.get? d.vals k).map (rowsOf ix) else Dict.get? vals k := by
  obtain ⟨vals', h1, h2, h3⟩ := foldlM_prefix (l := d.vals) (s0 := vals)
    (f := fun acc kv => do
      let o ← dimOf d.dims kv.1
      if o = some 0 ∧ kv.1 ∉ values.keys then
        let w ← kv.2.takeRows ix
        return Dict.set acc kv.1 w
      else return acc)
    (fun pre st => Dict.keys st = Dict.keys d.vals ∧ ∀ k, Dict.get? st k =
      if k ∈ Dict.keys pre ∧ d.axis k = some 0 ∧ k ∉ Dict.keys values
        then (Dict.get? d.vals k).map (rowsOf ix) else Dict.get? vals k)
    ⟨hk, by simp⟩ (by
      rintro pre ⟨k, v⟩ post st hl ⟨i1, i2⟩
      have hv : Dict.get? d.vals k = some v := Dict.get?_of_mem h.nodup (by rw [hl]; simp)
      have hkin : k ∈ Dict.keys d.vals := Dict.mem_keys_of_get? hv
      have hkp : ∀ k', k' ∈ Dict.keys (pre ++ [(k, v)]) ↔ k' ∈ Dict.keys pre ∨ k' = k := by
        intro k'; rw [Dict.keys_append]; simp
      have hdim : ∃ o, dimOf d.dims k = .ok o ∧ d.axis k = o := by
        rcases hs : v.issingleton with _ | _
        · obtain ⟨a, s, data, _, _, h2, _⟩ := h.array k v hv hs
          exact ⟨some a, by simp [dimOf, h2], by simp [PD.axis, h2]⟩
        · obtain ⟨h2, _⟩ := h.single k v hv hs
          exact ⟨none, by simp [dimOf, h2], by simp [PD.axis, h2]⟩
      obtain ⟨o, ho1, ho2⟩ := hdim
      by_cases hc : o = some 0 ∧ k ∉ Dict.keys values
      · obtain ⟨t, data, e1, e2⟩ := hr k (by rw [ho2, hc.1])
        rw [hv] at e1
        simp only [Option.some.injEq] at e1
        subst e1
        obtain ⟨s', data', f1, _, f3, _⟩ := h.axis_some (k := k) (a := 0) (by rw [ho2, hc.1])
        rw [hv] at f1
        simp only [Option.some.injEq, Val.arr.injEq] at f1
        obtain ⟨rfl, rfl⟩ := f1
        have htk := takeRows_ok ix t data e2 fun p hp => hix p hp _ f3
        refine ⟨Dict.set st k (rowsOf ix (.arr (data.length :: t) data)), ?_, ?_, ?_⟩
        · simp only [ho1, bind, Except.bind, if_pos hc, htk, pure, Except.pure]
        · rw [Dict.keys_set, if_pos (by rw [i1]; exact hkin), i1]
        · intro k'
          rw [Dict.get?_set, i2]
          simp only [hkp]
          by_cases hkk : k = k'
          · subst hkk
            simp [hc.2, ho2, hc.1, hv]
          · simp [hkk, Ne.symm hkk]
      · refine ⟨st, ?_, i1, ?_⟩
        · simp only [ho1, bind, Except.bind, if_neg hc, pure, Except.pure]
        · intro k'
          rw [i2]
          simp only [hkp]
          by_cases hkk : k' = k
          · subst hkk
            rw [ho2]
            simp [hc]
          · simp [hkk])
  refine ⟨vals', h1, h2, fun k => ?_⟩
  rw [h3 k]
  by_cases hk' : k ∈ Dict.keys d.vals
  · simp [hk']
  · have : d.axis k ≠ some 0 := by
      intro ha
      obtain ⟨_, _, e1, _⟩ := h.axis_some ha
      exact hk' (Dict.mem_keys_of_get? e1)
    simp [hk', this]

theorem all_shape (t : List ℕ) : basicShape (List.replicate t.length Slice.all) t = t := by
  induction t with
  | nil => rfl
  | cons m t ih => simp [List.replicate_succ, basicShape, ih]

theorem all_source (q : ℕ) (t : List ℕ) :
    sourceIx q (List.replicate t.length Slice.all) t = t := by
  induction t with
  | nil => rfl
  | cons m t ih => simp [List.replicate_succ, sourceIx, ih]

theorem all_ixLength (n : ℕ) : ixLength (List.replicate n Slice.all) = .ok 1 := by
  induction n with
  | zero => rfl
  | succ n ih => simp [List.replicate_succ, ixLength, ih]

/-- Indexing the first axis with an array. -/
theorem index_rows (a : Arr) (m : ℕ) (t ix : List ℕ) (hs : a.shape = m :: t) (hix : ∀ p ∈ ix, p < m) :
    ∃ b, a.index (.ix ix :: List.replicate t.length .all) = .ok b ∧ b.shape = ix.length :: t ∧
      ∀ (p j : ℕ) (u : List ℕ), ix[j]? = some p → u.length = t.length → b.get (j :: u) = a.get (p :: u) := by
  have h1 : (Slice.ix ix :: List.replicate t.length Slice.all).length = a.shape.length := by simp [hs]
  have h2 : ((Slice.ix ix :: List.replicate t.length Slice.all).zip a.shape).all
      (fun q => q.1.inRange q.2) = true := by
    rw [hs, List.zip_cons_cons, List.all_cons, Bool.and_eq_true]
    constructor
    · simp only [Slice.inRange, List.all_eq_true, decide_eq_true_eq]; exact hix
    · rw [List.all_eq_true]
      intro q hq
      have := List.eq_of_mem_replicate (List.of_mem_zip (a := q.1) (b := q.2) hq).1
      rw [this]; rfl
  have hl : ixLength (.ix ix :: List.replicate t.length .all) = .ok ix.length := by
    simp [ixLength, all_ixLength, bind, Except.bind, pure, Except.pure]
  have hp : ixPlace (.ix ix :: List.replicate t.length .all) = 0 := by
    simp [ixPlace, Slice.basic]
  refine ⟨⟨(basicShape (.ix ix :: List.replicate t.length .all) a.shape).insertIdx 0 ix.length,
    fun j => a.get (sourceIx (j.getD 0 0) (.ix ix :: List.replicate t.length .all) (j.eraseIdx 0))⟩,
    ?_, ?_, ?_⟩
  · unfold Arr.index
    rw [if_neg (by rw [h1]; simp), if_neg (by rw [h2]; simp), if_pos (by simp [Slice.isIx])]
    simp only [hl, hp, bind, Except.bind, pure, Except.pure]
  · simp [hs, basicShape, all_shape]
  · intro p j u hj hu
    have hjl : j < ix.length := (List.getElem?_eq_some_iff.mp hj).1
    simp only [List.getD_cons_zero, List.eraseIdx_zero, List.tail_cons, sourceIx]
    rw [← hu, all_source]
    congr 2
    by_cases h1 : ix.length = 1
    · have : j = 0 := by omega
      subst this
      simp [List.getD, hj]
    · simp [h1, List.getD, hj]

/-- C18, proved part for values on the first axis: with dimensions kept, or if the
variable has the value several times, it stays an array, of the positions at which it
has the value, variables sharing its axis being taken along. -/
theorem C18_rows_partial (fmt : Val → Str) (d : PD) (k : Str) (x : ℚ) (data : List ℚ) (keepdims : Bool)
    (h : d.WF fmt) (hp : d.Pos) (hr : Spec.Rows d) (ha : d.axis k = some 0)
    (hent : Spec.Entry k (k ++ '=' :: "[]".toList))
    (hd : d.values k = some (.arr [data.length] data)) (hx : x ∈ data)
    (hkeep : keepdims = true ∨ 2 ≤ data.count x) :
    ∃ r rows, d.call fmt [(k, .scalar x)] keepdims = .ok r ∧ r.WF fmt ∧
      rows.Pairwise (· < ·) ∧ (∀ p, p ∈ rows ↔ data[p]? = some x) ∧ Spec.Restricted d rows r := by
  obtain ⟨t0, data', hv, ht0⟩ := hr k ha
  have hdd : data' = data := by
    simp only [PD.values, hv, Option.map_some, Val.flat, Option.some.injEq, Val.arr.injEq] at hd
    exact hd.2
  subst hdd
  obtain ⟨s', data'', e1, _, e3, hnd, e5⟩ := h.axis_some ha
  rw [hv] at e1
  simp only [Option.some.injEq, Val.arr.injEq] at e1
  obtain ⟨rfl, rfl⟩ := e1
  set ix := matching data' x with hix
  have hixlt : ∀ p ∈ ix, p < data'.length := fun p hp =>
    (List.getElem?_eq_some_iff.mp (mem_matching.mp hp)).1
  have hixn : ∀ p ∈ ix, ∀ n, d.shape[0]? = some n → p < n := by
    intro p hp n hn
    rw [e3] at hn
    simp only [Option.some.injEq] at hn
    rw [← hn]; exact hixlt p hp
  have hixne : ix ≠ [] := by
    intro hc
    obtain ⟨p, hp⟩ := List.mem_iff_getElem?.mp hx
    have := mem_matching.mpr hp
    rw [← hix, hc] at this
    simp at this
  have hkin : k ∈ Dict.keys d.vals := Dict.mem_keys_of_get? hv
  -- the step of the key
  set v0 : Val := .arr (data'.length :: t0) data' with hv0
  have htk : v0.takeRows ix = .ok (rowsOf ix v0) := takeRows_ok ix t0 data' ht0 hixlt
  obtain ⟨vals', hs1, hs2, hs3⟩ := callShared_ok h hr [(k, .scalar x)] ix hixn
    (Dict.set d.vals k (rowsOf ix v0)) (by rw [Dict.keys_set, if_pos hkin])
  set st0 : CallState := ⟨d.marg, d.cond, d.dims, d.vals, List.replicate d.ndim .all, 0⟩ with hst0
  set st1 : CallState := CallState.retext { st0 with slices := st0.slices.set 0 (.ix ix), vals := vals' } k
    "[]".toList with hst1
  have hkey : callKey fmt d [(k, .scalar x)] keepdims st0 k data' v0 0 (.scalar x) = .ok st1 := by
    have hrow : (do
        let w ← v0.takeRows ix
        let vals ← callShared d [(k, .scalar x)] 0 ix (Dict.set st0.vals k w)
        return CallState.retext { st0 with slices := st0.slices.set 0 (.ix ix), vals := vals } k
          "[]".toList : Py CallState) = .ok st1 := by
      simp only [htk, bind, Except.bind]
      rw [show st0.vals = d.vals from rfl, hs1]
      rfl
    simp only [callKey, ← hix]
    rcases hm : ix with _ | ⟨n, l⟩
    · exact absurd hm hixne
    · rcases l with _ | ⟨n', l⟩
      · have hkd : keepdims = true := by
          rcases hkeep with hk | hk
          · exact hk
          · rw [← length_matching, ← hix, hm] at hk
            simp at hk
        rw [hm] at hrow
        simp only [hkd, Bool.not_true, Bool.false_eq_true, if_false]
        exact hrow
      · rw [hm] at hrow
        exact hrow
  -- the loop
  obtain ⟨pre, post, hsplit⟩ := List.append_of_mem (Dict.get?_mem hv)
  have hnodup := h.nodup
  rw [hsplit, Dict.keys_append, Dict.keys_cons, List.nodup_append] at hnodup
  have hskip : ∀ (st : CallState), st.delta = 0 → ∀ kv ∈ d.vals, kv.1 ≠ k →
      callStep fmt d [(k, .scalar x)] keepdims st kv = .ok st := by
    rintro st hst ⟨k', v'⟩ hkv hne
    have hg := Dict.get?_of_mem h.nodup hkv
    unfold callStep
    simp only at hne ⊢
    rcases hs : v'.issingleton with _ | _
    · obtain ⟨a, s, data, _, _, h2, _⟩ := h.array k' v' hg hs
      have : Dict.get? [(k, Val.scalar x)] k' = none := by simp [Dict.get?, Ne.symm hne]
      simp [dimOf, h2, this, hst, bind, Except.bind]
    · simp
  have hdelta1 : st1.delta = 0 := by
    rw [hst1, CallState.retext]; split <;> (try split) <;> rfl
  have hloop : d.vals.foldlM (callStep fmt d [(k, .scalar x)] keepdims) st0 = .ok st1 := by
    have hstep : callStep fmt d [(k, .scalar x)] keepdims st0 (k, v0) = .ok st1 := by
      unfold callStep
      have hns : v0.issingleton = false := by simp [hv0, Val.issingleton]
      have : Dict.get? [(k, Val.scalar x)] k = some (.scalar x) := by simp [Dict.get?]
      simp only [hns, Bool.false_eq_true, if_false, dimOf, e5, this, bind, Except.bind]
      exact hkey
    have hpre : pre.foldlM (callStep fmt d [(k, .scalar x)] keepdims) st0 = .ok st0 := by
      refine foldlM_skip _ _ fun kv hkv => hskip st0 rfl kv (by rw [hsplit]; simp [hkv]) ?_
      intro hc
      exact hnodup.2.2 kv.1 (List.mem_map.mpr ⟨kv, hkv, rfl⟩) k (by simp) hc
    have hpost : post.foldlM (callStep fmt d [(k, .scalar x)] keepdims) st1 = .ok st1 := by
      refine foldlM_skip _ _ fun kv hkv => hskip st1 hdelta1 kv (by rw [hsplit]; simp [hkv]) ?_
      intro hc
      have := (List.nodup_cons.mp hnodup.2.1).1
      exact this (hc ▸ List.mem_map.mpr ⟨kv, hkv, rfl⟩)
    rw [hsplit, List.foldlM_append, hpre]
    simp only [bind, Except.bind, List.foldlM_cons, hstep]
    exact hpost
  -- the parts of the final state
  have hm1 : st1.marg = if k ∈ Dict.keys d.marg then Dict.set d.marg k (k ++ '=' :: "[]".toList)
      else d.marg := by
    rw [hst1, CallState.retext]
    by_cases h1 : k ∈ Dict.keys d.marg
    · rw [if_pos h1, if_pos h1]
    · rw [if_neg h1, if_neg h1]; split <;> rfl
  have hc1 : st1.cond = if k ∈ Dict.keys d.cond then Dict.set d.cond k (k ++ '=' :: "[]".toList)
      else d.cond := by
    rw [hst1, CallState.retext]
    by_cases h1 : k ∈ Dict.keys d.marg
    · rw [if_pos h1, if_neg (h.disj k h1)]
    · rw [if_neg h1]
      by_cases h2 : k ∈ Dict.keys d.cond
      · rw [if_pos h2, if_pos h2]
      · rw [if_neg h2, if_neg h2]
  have hd1 : st1.dims = d.dims := by
    rw [hst1, CallState.retext]; split <;> (try split) <;> rfl
  have hvv1 : st1.vals = vals' := by
    rw [hst1, CallState.retext]; split <;> (try split) <;> rfl
  have hsl1 : st1.slices = (List.replicate d.ndim .all).set 0 (.ix ix) := by
    rw [hst1, CallState.retext]; split <;> (try split) <;> rfl
  -- shapes
  obtain ⟨m, t, hsh⟩ : ∃ m t, d.shape = m :: t := by
    rcases hs : d.shape with _ | ⟨m, t⟩
    · rw [hs] at e3; simp at e3
    · exact ⟨m, t, rfl⟩
  have hmlen : m = data'.length := by rw [hsh] at e3; simpa using e3
  have hndim : d.ndim = t.length + 1 := by rw [← h.rank, hsh]; rfl
  have hsl : st1.slices = .ix ix :: List.replicate t.length .all := by
    rw [hsl1, hndim, List.replicate_succ]; rfl
  obtain ⟨q, q1, q2, q3⟩ := index_rows d.prob m t ix (by rw [h.probShape, hsh])
    (by rw [hmlen]; exact hixlt)
  rw [← hsl] at q1
  have hvals' : ∀ k', Dict.get? vals' k' = if d.axis k' = some 0 then (Dict.get? d.vals k').map (rowsOf ix)
      else Dict.get? d.vals k' := by
    intro k'
    rw [hs3 k']
    by_cases hkk : k' = k
    · subst hkk
      simp [ha, Dict.get?_set, hv]
    · by_cases h0 : d.axis k' = some 0
      · simp [h0, hkk]
      · simp [h0, Dict.get?_set, Ne.symm hkk]
  have hside : ∀ {side : Dict Str Str}, Spec.Side side →
      Spec.Side (if k ∈ Dict.keys side then Dict.set side k (k ++ '=' :: "[]".toList) else side) ∧
      Dict.keys (if k ∈ Dict.keys side then Dict.set side k (k ++ '=' :: "[]".toList) else side) =
        Dict.keys side ∧
      ∀ k', k' ≠ k → Dict.get? (if k ∈ Dict.keys side then Dict.set side k (k ++ '=' :: "[]".toList)
        else side) k' = Dict.get? side k' := by
    intro side hside
    by_cases h1 : k ∈ Dict.keys side
    · have hkeys : Dict.keys (Dict.set side k (k ++ '=' :: "[]".toList)) = Dict.keys side := by
        rw [Dict.keys_set, if_pos h1]
      rw [if_pos h1]
      refine ⟨⟨by rw [hkeys]; exact hside.1, ?_⟩, hkeys, ?_⟩
      · rintro ⟨k', t'⟩ hkt
        have hg := Dict.get?_of_mem (by rw [hkeys]; exact hside.1) hkt
        rw [Dict.get?_set] at hg
        by_cases hkk : k = k'
        · rw [if_pos hkk] at hg
          simp only [Option.some.injEq] at hg
          subst hkk; subst hg
          exact hent
        · rw [if_neg hkk] at hg
          exact hside.2 _ (Dict.get?_mem hg)
      · intro k' hkk; rw [Dict.get?_set, if_neg (Ne.symm hkk)]
    · rw [if_neg h1]
      exact ⟨hside, rfl, fun _ _ => rfl⟩
  obtain ⟨ms1, ms2, ms3⟩ := hside h.margSide
  obtain ⟨cs1, cs2, cs3⟩ := hside h.condSide
  rw [← hm1] at ms1 ms2 ms3
  rw [← hc1] at cs1 cs2 cs3
  have hixpos : 0 < ix.length := List.length_pos_iff.mpr hixne
  have hbuild : BuildArgs fmt st1.marg st1.cond st1.vals st1.dims (ix.length :: t) := by
    rw [hd1, hvv1]
    refine ⟨?_, by rw [hs2]; exact h.nodup, by rw [hs2]; exact h.allowed, ms1, cs1, ?_, ?_,
      h.dimNodup, by rw [hs2]; exact h.dimKeys, ?_, ?_, ?_⟩
    · intro hc; rw [hc] at hs2; rw [← hs2] at hkin; simp at hkin
    · rw [ms2, cs2]; exact h.disj
    · rw [hs2, ms2, cs2]; exact h.keys
    · intro k' v hv' hsing
      rw [hvals'] at hv'
      have h0 : d.axis k' ≠ some 0 := by
        intro h0
        obtain ⟨t', data, f1, _⟩ := hr k' h0
        rw [if_pos h0, f1] at hv'
        simp only [Option.map_some, rowsOf, Option.some.injEq] at hv'
        subst hv'
        simp [Val.issingleton] at hsing
      rw [if_neg h0] at hv'
      obtain ⟨g1, g2⟩ := h.single k' v hv' hsing
      have hkk : k' ≠ k := by rintro rfl; exact h0 ha
      rw [ms3 k' hkk, cs3 k' hkk]
      exact ⟨by rw [g1]; rfl, g2⟩
    · intro k' v hv' hsing
      rw [hvals'] at hv'
      by_cases h0 : d.axis k' = some 0
      · obtain ⟨t', data, f1, f2⟩ := hr k' h0
        rw [if_pos h0, f1] at hv'
        simp only [Option.map_some, rowsOf, Option.some.injEq] at hv'
        subst hv'
        refine ⟨_, _, 0, rfl, ?_, join_eq_some.mp h0, by simp⟩
        rw [List.length_map, List.foldl_cons]
        have h1 := foldl_max_bound t' ix.length (fun y hy => by rw [f2 y hy]; omega) (max 0 ix.length)
          (by omega)
        have h2 := (foldl_max_le t' (max 0 ix.length)).1
        omega
      · rw [if_neg h0] at hv'
        obtain ⟨s, data, a, f1, f2, f3, f4⟩ := h.size_ok hp hv' hsing
        refine ⟨s, data, a, f1, f2, f3, ?_⟩
        rcases a with _ | a
        · exact absurd (by simp [PD.axis, f3]) h0
        · rw [hsh] at f4; simpa using f4
    · intro a hal
      exact h.cover a (by rw [hndim]; simpa using hal)
  obtain ⟨r, b1, b2, b3, b4, b5, b6, b7, b8, b9⟩ := pdInit_ok hbuild q q2 d.pscale.spec d.pscale h.stable
  refine ⟨r, ix, ?_, b2, ?_, fun p => mem_matching, ?_⟩
  · unfold PD.call
    have hall : (Dict.keys [(k, Val.scalar x)]).all (· ∈ d.keylist) = true := by
      simp only [Dict.keys_cons, Dict.keys_nil, List.all_cons, List.all_nil, Bool.and_true, decide_eq_true_eq]; exact hkin
    rw [if_pos hall]
    rw [hloop]
    simp only [bind, Except.bind, q1]
    exact b1
  · rw [hix, matching]
    exact List.Pairwise.filter _ List.pairwise_lt_range
  · refine ⟨?_, by rw [b3, ms2], by rw [b4, cs2], b9, ?_, ?_, ?_, ?_, ?_⟩
    · simp only [PD.keylist, b5, Dict.keys_map]
      rw [hvv1, hs2]
    · intro k'; rw [b6, hd1]; rfl
    · rw [b7, hsh]; rfl
    · intro k' dat ha' hd'
      obtain ⟨t', dat', f1, f2⟩ := hr k' ha'
      rw [PD.values, f1] at hd'
      simp only [Option.map_some, Val.flat, Option.some.injEq, Val.arr.injEq] at hd'
      rw [hbuild.values b5, hvv1, hvals', if_pos ha', f1]
      simp only [Option.map_some, rowsOf, Val.flat, List.length_map, hd'.2]
    · intro k' ha'
      rw [hbuild.values b5, hvv1, hvals', if_neg ha']; rfl
    · intro p j u hj hu
      rw [hsh] at hu ⊢
      simp only [List.tail_cons] at hu
      have hjl : j < ix.length := (List.getElem?_eq_some_iff.mp hj).1
      have hpl : p < m := by rw [hmlen]; exact hixlt p (List.mem_of_getElem? hj)
      refine ⟨mem_idx.mpr (.cons hpl (mem_idx.mp hu)), ?_, ?_⟩
      · rw [b7]; exact mem_idx.mpr (.cons hjl (mem_idx.mp hu))
      · unfold PD.at
        rw [b8, b9, q3 p j u hj (length_of_mem_idx hu)]

/-- C18, when the values of two variables on the first two axes are both kept as arrays of
positions: positions of equal number are paired, a single position is paired with each of the
others, and other numbers of positions are refused. -/
theorem C18_paired_rows (a : Arr) (m n : ℕ) (t ix jx : List ℕ) (hs : a.shape = m :: n :: t)
    (hix : ∀ p ∈ ix, p < m) (hjx : ∀ p ∈ jx, p < n) :
    (ix.length ≠ jx.length → ix.length ≠ 1 → jx.length ≠ 1 →
      a.index (.ix ix :: .ix jx :: List.replicate t.length .all) = .error .index) ∧
    (ix.length = jx.length → ∃ b,
      a.index (.ix ix :: .ix jx :: List.replicate t.length .all) = .ok b ∧ b.shape = ix.length :: t ∧
      ∀ (l p q : ℕ) (u : List ℕ), ix[l]? = some p → jx[l]? = some q → u.length = t.length →
        b.get (l :: u) = a.get (p :: q :: u)) ∧
    (∀ p, ix = [p] → ∃ b,
      a.index (.ix ix :: .ix jx :: List.replicate t.length .all) = .ok b ∧ b.shape = jx.length :: t ∧
      ∀ (l q : ℕ) (u : List ℕ), jx[l]? = some q → u.length = t.length →
        b.get (l :: u) = a.get (p :: q :: u)) ∧
    (∀ q, jx = [q] → ∃ b,
      a.index (.ix ix :: .ix jx :: List.replicate t.length .all) = .ok b ∧ b.shape = ix.length :: t ∧
      ∀ (l p : ℕ) (u : List ℕ), ix[l]? = some p → u.length = t.length →
        b.get (l :: u) = a.get (p :: q :: u)) := by
  set sl : List Slice := .ix ix :: .ix jx :: List.replicate t.length .all with hsl
  have h1 : sl.length = a.shape.length := by simp [hs, hsl]
  have h2 : (sl.zip a.shape).all (fun q => q.1.inRange q.2) = true := by
    rw [hs, hsl, List.zip_cons_cons, List.all_cons, List.zip_cons_cons, List.all_cons, Bool.and_eq_true,
      Bool.and_eq_true]
    refine ⟨?_, ?_, ?_⟩
    · simp only [Slice.inRange, List.all_eq_true, decide_eq_true_eq]; exact hix
    · simp only [Slice.inRange, List.all_eq_true, decide_eq_true_eq]; exact hjx
    · rw [List.all_eq_true]
      intro q hq
      have := List.eq_of_mem_replicate (List.of_mem_zip (a := q.1) (b := q.2) hq).1
      rw [this]; rfl
  have hp : ixPlace sl = 0 := by simp [hsl, ixPlace, Slice.basic]
  have hb : basicShape sl a.shape = t := by simp [hsl, hs, basicShape, all_shape]
  have hu : a.index sl = (do
      let n ← ixLength sl
      return ⟨t.insertIdx 0 n, fun j => a.get (sourceIx (j.getD 0 0) sl (j.eraseIdx 0))⟩) := by
    unfold Arr.index
    rw [if_neg (by rw [h1]; simp), if_neg (by rw [h2]; simp), if_pos (by simp [hsl, Slice.isIx]), hp, hb]
  have hg : ∀ (l : ℕ) (u : List ℕ), u.length = t.length →
      sourceIx l sl u = ix.getD (if ix.length = 1 then 0 else l) 0 ::
        jx.getD (if jx.length = 1 then 0 else l) 0 :: u := by
    intro l u hu
    simp only [hsl, sourceIx]
    rw [← hu, all_source]
  have hget : ∀ (l p : ℕ) (k : List ℕ), k[l]? = some p → k.getD (if k.length = 1 then 0 else l) 0 = p := by
    intro l p k hk
    have hl := (List.getElem?_eq_some_iff.mp hk).1
    by_cases h : k.length = 1
    · have : l = 0 := by omega
      subst this
      simp [List.getD, hk]
    · simp [h, List.getD, hk]
  refine ⟨fun g1 g2 g3 => ?_, fun g => ?_, fun p g => ?_, fun q g => ?_⟩
  · rw [hu]
    simp [hsl, ixLength, all_ixLength, bind, Except.bind, pure, Except.pure, g1, g2, g3]
  · refine ⟨⟨ix.length :: t, fun j => a.get (sourceIx (j.getD 0 0) sl (j.eraseIdx 0))⟩, ?_, rfl, ?_⟩
    · rw [hu]
      simp [hsl, ixLength, all_ixLength, bind, Except.bind, pure, Except.pure, g]
    · intro l p q u e1 e2 e3
      simp only [List.getD_cons_zero, List.eraseIdx_zero, List.tail_cons]
      rw [hg l u e3, hget l p ix e1, hget l q jx e2]
  · subst g
    refine ⟨⟨jx.length :: t, fun j => a.get (sourceIx (j.getD 0 0) sl (j.eraseIdx 0))⟩, ?_, rfl, ?_⟩
    · rw [hu]
      by_cases h : jx.length = 1
      · simp [hsl, ixLength, all_ixLength, bind, Except.bind, pure, Except.pure, h]
      · simp [hsl, ixLength, all_ixLength, bind, Except.bind, pure, Except.pure, h, Ne.symm h]
    · intro l q u e2 e3
      simp only [List.getD_cons_zero, List.eraseIdx_zero, List.tail_cons]
      rw [hg l u e3, hget l q jx e2]
      simp
  · subst g
    refine ⟨⟨ix.length :: t, fun j => a.get (sourceIx (j.getD 0 0) sl (j.eraseIdx 0))⟩, ?_, rfl, ?_⟩
    · rw [hu]
      simp [hsl, ixLength, all_ixLength, bind, Except.bind, pure, Except.pure]
    · intro l p u e1 e3
      simp only [List.getD_cons_zero, List.eraseIdx_zero, List.tail_cons]
      rw [hg l u e3, hget l p ix e1]
      simp

/-- Non-vacuity: two and three positions are refused, two and two paired. -/
example (a : Arr) (hs : a.shape = [3, 4]) :
    a.index [.ix [0, 2], .ix [0, 1, 3]] = .error .index ∧
    ∃ b, a.index [.ix [0, 2], .ix [1, 3]] = .ok b ∧ b.get [1] = a.get [2, 3] := by
  refine ⟨(C18_paired_rows a 3 4 [] [0, 2] [0, 1, 3] hs (by simp) (by simp)).1 (by simp) (by simp) (by simp), ?_⟩
  obtain ⟨b, h1, -, h3⟩ := (C18_paired_rows a 3 4 [] [0, 2] [1, 3] hs (by simp) (by simp)).2.1 rfl
  exact ⟨b, h1, h3 1 2 3 [] rfl rfl rfl⟩

/-- p(x, w, y) with x and w sharing an axis, x taking a value twice. -/
noncomputable def twicePD : PD :=
  ⟨['x', ',', 'w', ',', 'y'], [(['x'], ['x']), (['w'], ['w']), (['y'], ['y'])], [],
   ⟨[(['x'], .arr [3, 1] [1, 2, 1]), (['w'], .arr [3, 1] [7, 8, 9]), (['y'], .arr [1, 2] [4, 5])],
    [(['x'], some 0), (['w'], some 0), (['y'], some 1)],
    2, [3, 2], [3, 2], 6, [false, false, false], false⟩,
   ⟨[3, 2], fun _ => 1 / 6⟩, .lin 1⟩

/-- Keeping dimensions is refused for a variable on another axis: the positions on its
axis are looked up on the first axis of its array of values (pd.py:541). -/
theorem C18_keepdims_raises :
    twicePD.call (fun _ => []) [(['y'], .scalar 5)] true = .error .index := by
  unfold PD.call
  rw [if_pos (by decide)]
  have : twicePD.vals.foldlM (callStep (fun _ => []) twicePD [(['y'], .scalar 5)] true)
      ⟨twicePD.marg, twicePD.cond, twicePD.dims, twicePD.vals, List.replicate twicePD.ndim .all, 0⟩ =
      .error .index := by rfl
  rw [this]; rfl

theorem C18_keepdims_claim_fails : ¬ C18_keepdims_claim := by
  intro hc
  obtain ⟨r, h1, _⟩ := hc (fun _ => []) twicePD ['y'] 5 [4, 5] (PD.wf_of_check (by decide) rfl lin1_stable)
    (by intro n hn; simp only [twicePD, PD.shape, List.mem_cons, List.not_mem_nil, or_false] at hn; omega)
    (by
      intro k a ha
      have hkk := Dict.mem_keys_of_get? (join_eq_some.mp ha)
      simp only [twicePD, PD.dims, Dict.keys, List.map_cons, List.map_nil, List.mem_cons,
        List.not_mem_nil, or_false] at hkk
      rcases hkk with rfl | rfl | rfl <;> cases ha
      · exact ⟨[1, 2, 1], rfl⟩
      · exact ⟨[7, 8, 9], rfl⟩
      · exact ⟨[4, 5], rfl⟩)
    (by
      intro k' a ha ha'
      have hkk := Dict.mem_keys_of_get? (join_eq_some.mp ha')
      simp only [twicePD, PD.dims, Dict.keys, List.map_cons, List.map_nil, List.mem_cons,
        List.not_mem_nil, or_false] at hkk
      rcases hkk with rfl | rfl | rfl <;> cases ha <;> cases ha' <;> rfl)
    rfl (entry_value (by decide) (by decide) (by decide) (by decide) (by decide) (by decide))
    rfl (by decide)
  rw [C18_keepdims_raises] at h1
  simp at h1

/-- Non-vacuity: the value taken twice leaves the entries 0 and 2, also of w. -/
example : ∃ r, twicePD.call (fun _ => []) [(['x'], .scalar 1)] false = .ok r ∧ r.WF (fun _ => []) ∧
    r.shape = [2, 2] ∧ r.values ['x'] = some (.arr [2] [1, 1]) ∧
    r.values ['w'] = some (.arr [2] [7, 9]) ∧ r.at [1, 0] = twicePD.at [2, 0] := by
  obtain ⟨r, rows, h1, h2, h3, h4, h5⟩ := C18_rows_partial (fun _ => []) twicePD ['x'] 1 [1, 2, 1] false
    (PD.wf_of_check (by decide) rfl lin1_stable)
    (by intro n hn; simp only [twicePD, PD.shape, List.mem_cons, List.not_mem_nil, or_false] at hn; omega)
    (by
      intro k hk
      have hkk := Dict.mem_keys_of_get? (join_eq_some.mp hk)
      simp only [twicePD, PD.dims, Dict.keys, List.map_cons, List.map_nil, List.mem_cons,
        List.not_mem_nil, or_false] at hkk
      rcases hkk with rfl | rfl | rfl
      · exact ⟨[1], [1, 2, 1], rfl, by simp⟩
      · exact ⟨[1], [7, 8, 9], rfl, by simp⟩
      · exact absurd hk (by decide))
    rfl (entry_value (by decide) (by decide) (by decide) (by decide) (by decide) (by decide))
    rfl (by decide) (Or.inr (by decide))
  have hrows : rows = [0, 2] := by
    apply List.Perm.eq_of_pairwise (le := (· < ·)) (fun a b _ _ h h' => by omega) h3 (by simp)
    rw [List.perm_ext_iff_of_nodup (h3.imp fun h => Nat.ne_of_lt h) (by simp)]
    intro p
    rw [h4]
    rcases p with _ | _ | _ | p <;> simp
  subst hrows
  refine ⟨r, h1, h2, h5.shape, h5.first ['x'] [1, 2, 1] rfl rfl, h5.first ['w'] [7, 8, 9] rfl rfl,
    (h5.entry 2 1 [0] rfl ?_).2.2⟩
  exact mem_idx.mpr (.cons (by decide) .nil)

end Probayes
