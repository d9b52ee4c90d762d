/-
C18 (slicing by value).
-/
import Verif.Model.PDCall
import Verif.Lemmas.PDDrop
import Verif.Props.PDSort
import Verif.Props.PDMarg3

namespace Probayes

/-- A dictionary of scalars as given to the call. -/
def Spec.scalars (values : Dict Str ℚ) : Dict Str Val := values.map fun kv => (kv.1, .scalar kv.2)

/-- At entry `i` of `d` every array variable with a given value has that value. -/
def Spec.HasValues (d : PD) (values : Dict Str ℚ) (i : List ℕ) : Prop :=
  ∀ k x a data, Dict.get? values k = some x → d.axis k = some a →
    d.values k = some (.arr [data.length] data) → ∃ p : ℕ, i[a]? = some p ∧ data[p]? = some x

/-- `r` is `d` at the given values. -/
structure Spec.Sliced (d : PD) (values : Dict Str ℚ) (r : PD) : Prop where
  keylist : r.keylist = d.keylist
  marg : r.marg.keys = d.marg.keys
  cond : r.cond.keys = d.cond.keys
  /-- array variables with a given value become scalars of that value -/
  fixed : ∀ k x, Dict.get? values k = some x → (d.axis k).isSome →
    r.axis k = none ∧ r.values k = some (.scalar x)
  /-- the others remain -/
  kept : ∀ k, (d.axis k = none ∨ k ∉ values.keys) →
    r.values k = d.values k ∧ (r.axis k).isSome = (d.axis k).isSome
  keptText : ∀ k, (d.axis k = none ∨ k ∉ values.keys) →
    Dict.get? r.marg k = Dict.get? d.marg k ∧ Dict.get? r.cond k = Dict.get? d.cond k
  order : ∀ k k' a a' b b', d.axis k = some a → d.axis k' = some a' → r.axis k = some b →
    r.axis k' = some b' → (b < b' ↔ a < a')
  sizes : ∀ n ∈ r.shape, n ∈ d.shape
  pscale : r.pscale = d.pscale
  /-- every entry of `r` is the entry of `d` with the given values and the same
  positions of the other variables -/
  entry : ∀ j ∈ idx r.shape, ∃! i, (i ∈ idx d.shape ∧ Spec.Agree d r i j ∧ Spec.HasValues d values i)
  value : ∀ i ∈ idx d.shape, ∀ j ∈ idx r.shape, Spec.Agree d r i j → Spec.HasValues d values i →
    r.at j = d.at i
  /-- every entry of `d` with the given values is there, once -/
  onto : ∀ i ∈ idx d.shape, Spec.HasValues d values i → ∃! j, j ∈ idx r.shape ∧ Spec.Agree d r i j

/-! ### integer and full slices -/

/-- Integers `pos` on the axes `p`, full slices elsewhere. -/
def atSlices (p : ℕ → Bool) (pos : ℕ → ℕ) (n : ℕ) : List Slice :=
  (List.range n).map fun b => if p b then .at (pos b) else .all

theorem atSlices_succ (p : ℕ → Bool) (pos : ℕ → ℕ) (n : ℕ) : atSlices p pos (n + 1) =
    (if p 0 then .at (pos 0) else .all) :: atSlices (fun b => p (b + 1)) (fun b => pos (b + 1)) n := by
  simp [atSlices, List.range_succ_eq_map, List.map_map, Function.comp_def]

theorem basicShape_at (s : List ℕ) : ∀ (p : ℕ → Bool) (pos : ℕ → ℕ),
    basicShape (atSlices p pos s.length) s = dropAxes p s := by
  induction s with
  | nil => intro p pos; rfl
  | cons m s ih =>
    intro p pos
    rw [List.length_cons, atSlices_succ]
    by_cases h : p 0 = true
    · simp [h, basicShape, dropAxes, ih]
    · simp [h, basicShape, dropAxes, ih]

theorem sourceIx_at (s : List ℕ) : ∀ (p : ℕ → Bool) (pos : ℕ → ℕ) (j : List ℕ),
    (∀ b m, p b = true → s[b]? = some m → pos b < m) → j ∈ idx (dropAxes p s) →
    sourceIx 0 (atSlices p pos s.length) j ∈ idx s ∧
      dropAxes p (sourceIx 0 (atSlices p pos s.length) j) = j ∧
      ∀ b < s.length, p b = true → (sourceIx 0 (atSlices p pos s.length) j)[b]? = some (pos b) := by
  induction s with
  | nil =>
    intro p pos j _ hj
    simp only [dropAxes_nil] at hj
    have : j = [] := List.eq_nil_of_length_eq_zero (length_of_mem_idx hj)
    subst this
    simp [atSlices, sourceIx, hj]
  | cons m s ih =>
    intro p pos j hpos hj
    have hpos' : ∀ b m, p (b + 1) = true → s[b]? = some m → pos (b + 1) < m :=
      fun b m' h1 h2 => hpos (b + 1) m' h1 (by simpa using h2)
    rw [List.length_cons, atSlices_succ]
    by_cases h : p 0 = true
    · simp only [dropAxes, h, if_true] at hj
      obtain ⟨h1, h2, h3⟩ := ih (fun b => p (b + 1)) (fun b => pos (b + 1)) j hpos' hj
      simp only [h, if_true, sourceIx, dropAxes]
      refine ⟨?_, h2, ?_⟩
      · rw [mem_idx] at h1 ⊢
        exact List.Forall₂.cons (hpos 0 m h rfl) h1
      · intro b hb hpb
        cases b with
        | zero => simp
        | succ b => simpa using h3 b (by simpa using hb) hpb
    · simp only [dropAxes, h, Bool.false_eq_true, if_false] at hj
      rcases j with _ | ⟨i, j⟩
      · simp [mem_idx] at hj
      · rw [mem_idx] at hj
        cases hj with
        | cons hi hj =>
          obtain ⟨h1, h2, h3⟩ := ih (fun b => p (b + 1)) (fun b => pos (b + 1)) j hpos' (mem_idx.mpr hj)
          simp only [h, Bool.false_eq_true, if_false, sourceIx, dropAxes, h2]
          refine ⟨?_, trivial, ?_⟩
          · rw [mem_idx] at h1 ⊢
            exact List.Forall₂.cons hi h1
          · intro b hb hpb
            cases b with
            | zero => exact absurd hpb h
            | succ b => simpa using h3 b (by simpa using hb) hpb

theorem index_at {a : Arr} (p : ℕ → Bool) (pos : ℕ → ℕ)
    (hpos : ∀ b m, p b = true → a.shape[b]? = some m → pos b < m) :
    a.index (atSlices p pos a.shape.length) = .ok ⟨dropAxes p a.shape,
      fun j => a.get (sourceIx 0 (atSlices p pos a.shape.length) j)⟩ := by
  have h1 : (atSlices p pos a.shape.length).length = a.shape.length := by simp [atSlices]
  have h2 : ((atSlices p pos a.shape.length).zip a.shape).all (fun q => q.1.inRange q.2) = true := by
    rw [List.all_eq_true]
    intro q hq
    obtain ⟨b, hb⟩ := List.mem_iff_getElem?.mp hq
    rw [List.getElem?_zip_eq_some] at hb
    obtain ⟨hb1, hb2⟩ := hb
    simp only [atSlices, List.getElem?_map, Option.map_eq_some_iff] at hb1
    obtain ⟨c, hc, hq1⟩ := hb1
    have hcb : c = b := by
      rw [List.getElem?_eq_some_iff] at hc
      obtain ⟨hl, hc⟩ := hc
      simpa using hc.symm
    subst hcb
    rw [← hq1]
    split
    · rename_i hp; simpa [Slice.inRange] using hpos _ _ hp hb2
    · rfl
  have h3 : (atSlices p pos a.shape.length).any Slice.isIx = false := by
    rw [List.any_eq_false]
    intro x hx
    obtain ⟨b, _, rfl⟩ := List.mem_map.mp hx
    split <;> simp [Slice.isIx]
  simp only [Arr.index, h1, h2, h3, ne_eq, not_true_eq_false, if_false, Bool.not_true,
    Bool.false_eq_true, basicShape_at]

theorem matching_unique {data : List ℚ} {x : ℚ} {n : ℕ} (h1 : data[n]? = some x)
    (h2 : ∀ m : ℕ, data[m]? = some x → m = n) : matching data x = [n] := by
  have hp : (matching data x).Perm [n] := by
    unfold matching
    rw [List.perm_ext_iff_of_nodup (List.nodup_range.filter _) (List.nodup_singleton n)]
    intro m
    simp only [List.mem_filter, List.mem_range, List.mem_singleton, decide_eq_true_eq]
    constructor
    · rintro ⟨_, hm⟩; exact h2 m hm
    · rintro rfl
      refine ⟨?_, h1⟩
      by_contra hc
      rw [List.getElem?_eq_none (by omega)] at h1
      simp at h1
  exact List.perm_singleton.mp hp

/-! ### the loop -/

/-- Does the call fix the variable? -/
def fixes (d : PD) (values : Dict Str ℚ) (k : Str) : Bool :=
  decide (k ∈ values.keys) && (d.axis k).isSome

/-- The new text of a variable. -/
def callText (fmt : Val → Str) (d : PD) (values : Dict Str ℚ) (side : Dict Str Str) (k : Str) : Option Str :=
  if fixes d values k then (Dict.get? side k).map fun _ => eqText fmt k (.scalar ((Dict.get? values k).getD 0))
  else Dict.get? side k

/-- The new value of a variable. -/
def callVal (d : PD) (values : Dict Str ℚ) (k : Str) : Option Val :=
  if fixes d values k then (Dict.get? d.vals k).map fun _ => .scalar ((Dict.get? values k).getD 0)
  else Dict.get? d.vals k

/-- Invariant of the loop; `axes` are the fixed axes met. -/
structure CallInv (fmt : Val → Str) (d : PD) (values : Dict Str ℚ) (p : ℕ → Bool) (pos : ℕ → ℕ)
    (pre : Dict Str Val) (st : CallState) (axes : List ℕ) : Prop where
  margKeys : Dict.keys st.marg = Dict.keys d.marg
  condKeys : Dict.keys st.cond = Dict.keys d.cond
  marg : ∀ k, Dict.get? st.marg k = if k ∈ Dict.keys pre then callText fmt d values d.marg k
    else Dict.get? d.marg k
  cond : ∀ k, Dict.get? st.cond k = if k ∈ Dict.keys pre then callText fmt d values d.cond k
    else Dict.get? d.cond k
  valKeys : Dict.keys st.vals = Dict.keys d.vals
  vals : ∀ k, Dict.get? st.vals k = if k ∈ Dict.keys pre then callVal d values k else Dict.get? d.vals k
  dimKeys : Dict.keys st.dims = Dict.keys d.dims
  dims : ∀ k, Dict.get? st.dims k = if k ∈ Dict.keys pre then
      (Dict.get? d.dims k).map fun _ => (d.axis k).bind fun a => if p a then none else some (a - dropped p a)
    else Dict.get? d.dims k
  delta : st.delta = axes.length
  nodup : axes.Nodup
  memAxes : ∀ b, b ∈ axes ↔ p b = true ∧ ∃ k' ∈ Dict.keys pre, d.axis k' = some b
  slices : st.slices = atSlices (fun b => p b && decide (b ∈ axes)) pos d.ndim

/-- What is assumed of the given values: every array variable among them is alone
on its axis and takes the given value exactly once; and the given value can be
written in a name. -/
def Spec.Given (fmt : Val → Str) (d : PD) (values : Dict Str ℚ) : Prop :=
  ∀ k x, Dict.get? values k = some x → k ∈ d.keylist ∧
    ∀ a, d.axis k = some a → Spec.OwnAxis d k ∧ Spec.Entry k (eqText fmt k (.scalar x)) ∧
      ∀ data, d.values k = some (.arr [data.length] data) → ∃! n : ℕ, data[n]? = some x

theorem atSlices_set (p : ℕ → Bool) (pos : ℕ → ℕ) (n a x : ℕ) (hx : pos a = x) :
    (atSlices p pos n).set a (.at x) = atSlices (fun b => p b || decide (b = a)) pos n := by
  apply List.ext_getElem?
  intro b
  rw [List.getElem?_set]
  simp only [atSlices, List.length_map, List.length_range, List.getElem?_map]
  by_cases hb : b < n
  · rw [List.getElem?_range hb]
    by_cases hab : a = b
    · subst hab; simp [hb, hx]
    · have : ¬ b = a := fun hh => hab hh.symm
      simp [hab, this]
  · rw [List.getElem?_eq_none (by simpa using hb)]
    by_cases hab : a = b
    · subst hab; simp [hb]
    · simp [hab]

theorem callLoop {fmt : Val → Str} {d : PD} {values : Dict Str ℚ} (h : d.WF fmt)
    (hord : Spec.Ordered d) {p : ℕ → Bool} {pos : ℕ → ℕ}
    (hp : ∀ k a, d.axis k = some a → (p a = true ↔ k ∈ values.keys))
    (hpos : ∀ k a x s data, Dict.get? values k = some x → d.axis k = some a →
      Dict.get? d.vals k = some (.arr s data) → matching data x = [pos a])
    (hown : ∀ k ∈ values.keys, ∀ k' a, d.axis k = some a → d.axis k' = some a → k' = k) :
    ∃ st, d.vals.foldlM (callStep fmt d (Spec.scalars values) false)
      ⟨d.marg, d.cond, d.dims, d.vals, List.replicate d.ndim .all, 0⟩ = .ok st ∧
      ∃ axes, CallInv fmt d values p pos d.vals st axes := by
  refine foldlM_prefix (fun pre st => ∃ axes, CallInv fmt d values p pos pre st axes) ?_ ?_
  · refine ⟨[], rfl, rfl, by simp, by simp, rfl, by simp, rfl, by simp, rfl, by simp, by simp, ?_⟩
    simp [atSlices, List.map_const']
  · rintro pre ⟨k, v⟩ post st hl ⟨axes, hI⟩
    have hkl : Dict.keys d.vals = Dict.keys pre ++ k :: Dict.keys post := by
      rw [hl, Dict.keys_append]; rfl
    have hnd := h.nodup
    rw [hkl] at hnd
    have hkpre : k ∉ Dict.keys pre := by
      rw [List.nodup_append] at hnd
      intro hc
      exact hnd.2.2 k hc k (by simp) rfl
    have hv : Dict.get? d.vals k = some v := Dict.get?_of_mem h.nodup (by rw [hl]; simp)
    have hkin : k ∈ Dict.keys d.vals := Dict.mem_keys_of_get? hv
    have hkp : ∀ k', k' ∈ Dict.keys (pre ++ [(k, v)]) ↔ k' ∈ Dict.keys pre ∨ k' = k := by
      intro k'; rw [Dict.keys_append]; simp
    have hgs : Dict.get? (Spec.scalars values) k = (Dict.get? values k).map .scalar :=
      Dict.get?_map (fun _ x => Val.scalar x) _ _
    -- adding a key whose parts do not change
    have hsame : ∀ {α : Type} (f g : Str → Option α) (s : Str → Option α), f k = g k →
        (∀ k', s k' = if k' ∈ Dict.keys pre then f k' else g k') →
        ∀ k', s k' = if k' ∈ Dict.keys (pre ++ [(k, v)]) then f k' else g k' := by
      intro α f g s hfg hs k'
      rw [hs k']
      simp only [hkp]
      by_cases h1 : k' ∈ Dict.keys pre
      · simp [h1]
      · by_cases h2 : k' = k
        · subst h2; simp [h1, hfg]
        · simp [h1, h2]
    -- replacing the part of the key
    have hrepl : ∀ {α : Type} (f g : Str → Option α) (s : Str → Option α) (y : α), f k = some y →
        (∀ k', s k' = if k' ∈ Dict.keys pre then f k' else g k') →
        ∀ k', (if k = k' then some y else s k') = if k' ∈ Dict.keys (pre ++ [(k, v)]) then f k' else g k' := by
      intro α f g s y hf hs k'
      simp only [hkp]
      by_cases h2 : k = k'
      · subst h2; simp [hf]
      · have h3 : ¬ k' = k := fun hh => h2 hh.symm
        rw [if_neg h2, hs k']; simp [h3]
    rcases hs : v.issingleton with _ | _
    · obtain ⟨a, ha⟩ := h.axis_isSome hv hs
      obtain ⟨s, data, e1, e2, e3, e4, e5⟩ := h.axis_some ha
      rw [hv] at e1
      simp only [Option.some.injEq] at e1
      subst e1
      rcases hx : Dict.get? values k with _ | x
      · -- kept
        have hkv : k ∉ values.keys := Dict.get?_eq_none.mp hx
        have hpa : p a = false := by
          by_contra hc; exact hkv ((hp k a ha).mp (by simpa using hc))
        have hfix : fixes d values k = false := by simp [fixes, hkv]
        have hdel : st.delta = dropped p a := by
          rw [hI.delta]; exact prefix_dropped h hl hord hI.nodup hI.memAxes ha hpa
        have hax : ∀ b, b ∈ axes ↔ p b = true ∧ ∃ k' ∈ Dict.keys (pre ++ [(k, .arr s data)]), d.axis k' = some b := by
          intro b
          rw [hI.memAxes]
          constructor
          · rintro ⟨h1, k', h2, h3⟩; exact ⟨h1, k', (hkp k').mpr (Or.inl h2), h3⟩
          · rintro ⟨h1, k', h2, h3⟩
            rcases (hkp k').mp h2 with h2 | rfl
            · exact ⟨h1, k', h2, h3⟩
            · rw [ha] at h3; simp only [Option.some.injEq] at h3; subst h3; rw [hpa] at h1; simp at h1
        have hnew : (Dict.get? d.dims k).map (fun _ => (d.axis k).bind fun a => if p a then none
            else some (a - dropped p a)) = some (some (a - dropped p a)) := by
          rw [e5, ha]; simp [hpa]
        have hfields : ∀ (D : Dict Str (Option ℕ)), Dict.keys D = Dict.keys d.dims →
            (∀ k', Dict.get? D k' = if k' ∈ Dict.keys (pre ++ [(k, .arr s data)]) then
              (Dict.get? d.dims k').map (fun _ => (d.axis k').bind fun a => if p a then none
                else some (a - dropped p a)) else Dict.get? d.dims k') →
            CallInv fmt d values p pos (pre ++ [(k, .arr s data)]) { st with dims := D } axes := by
          intro D hD1 hD2
          refine ⟨hI.margKeys, hI.condKeys, ?_, ?_, hI.valKeys, ?_, hD1, hD2, hI.delta, hI.nodup, hax, hI.slices⟩
          · exact hsame (callText fmt d values d.marg) (Dict.get? d.marg) _ (by simp [callText, hfix]) hI.marg
          · exact hsame (callText fmt d values d.cond) (Dict.get? d.cond) _ (by simp [callText, hfix]) hI.cond
          · exact hsame (callVal d values) (Dict.get? d.vals) _ (by simp [callVal, hfix]) hI.vals
        by_cases hd0 : st.delta = 0
        · refine ⟨st, ?_, axes, ?_⟩
          · simp [callStep, hs, dimOf, e5, hgs, hx, hd0, bind, Except.bind]
          · refine hfields st.dims hI.dimKeys ?_
            exact hsame (fun k' => (Dict.get? d.dims k').map (fun _ => (d.axis k').bind fun a => if p a then none
                else some (a - dropped p a))) (Dict.get? d.dims) _ (by
                  show _ = Dict.get? d.dims k
                  rw [hnew, e5, ← hdel, hd0, Nat.sub_zero]) hI.dims
        · have hle := dropped_le p a
          refine ⟨{ st with dims := Dict.set st.dims k (some (a - st.delta)) }, ?_, axes, ?_⟩
          · have hsh : shiftDim (some a) st.delta = .ok (a - st.delta) := by
              rw [hdel]; simp [shiftDim, hle]
            simp [callStep, hs, dimOf, e5, hgs, hx, hd0, bind, Except.bind, hsh, pure, Except.pure]
          · refine hfields _ ?_ ?_
            · rw [Dict.keys_set_of_mem (by rw [hI.dimKeys]; exact Dict.mem_keys_of_get? e5), hI.dimKeys]
            · intro k'
              rw [Dict.get?_set]
              exact hrepl (fun k' => (Dict.get? d.dims k').map (fun _ => (d.axis k').bind fun a => if p a then none
                else some (a - dropped p a))) (Dict.get? d.dims) (Dict.get? st.dims) (some (a - st.delta)) (by
                  rw [hdel]; exact hnew) hI.dims k'
      · -- fixed
        have hkv : k ∈ values.keys := Dict.mem_keys_of_get? hx
        have hpa : p a = true := (hp k a ha).mpr hkv
        have hfix : fixes d values k = true := by simp [fixes, hkv, ha]
        have hmatch := hpos k a x s data hx ha hv
        have haax : a ∉ axes := by
          intro hc
          obtain ⟨_, k', h2, h3⟩ := (hI.memAxes a).mp hc
          have := hown k hkv k' a ha h3
          subst this
          exact hkpre h2
        have hgv : (Dict.get? values k).getD 0 = x := by rw [hx]; rfl
        set M := if k ∈ Dict.keys d.marg then Dict.set st.marg k (k ++ '=' :: fmt (.scalar x)) else st.marg with hM
        set C := if k ∈ Dict.keys d.marg then st.cond else Dict.set st.cond k (k ++ '=' :: fmt (.scalar x)) with hC
        have hside : k ∉ Dict.keys d.marg → k ∈ Dict.keys d.cond := fun hk =>
          ((h.keys k).mp hkin).resolve_left hk
        refine ⟨⟨M, C, Dict.set st.dims k none, Dict.set st.vals k (.scalar x), st.slices.set a (.at (pos a)),
          st.delta + 1⟩, ?_, axes ++ [a], ?_⟩
        · simp only [callStep, hs, Bool.false_eq_true, if_false, dimOf, e5, bind, Except.bind, hgs, hx,
            Option.map_some, callKey, hmatch, Bool.not_false, if_true, CallState.retext, hI.margKeys, hI.condKeys]
          by_cases hk : k ∈ Dict.keys d.marg
          · simp [hM, hC, hk]
          · simp [hM, hC, hk, hside hk]
        · refine ⟨?_, ?_, ?_, ?_, ?_, ?_, ?_, ?_, ?_, ?_, ?_, ?_⟩
          · show Dict.keys M = _
            rw [hM]; split
            · rename_i hk; rw [Dict.keys_set_of_mem (by rw [hI.margKeys]; exact hk), hI.margKeys]
            · exact hI.margKeys
          · show Dict.keys C = _
            rw [hC]; split
            · exact hI.condKeys
            · rename_i hk; rw [Dict.keys_set_of_mem (by rw [hI.condKeys]; exact hside hk), hI.condKeys]
          · show ∀ k', Dict.get? M k' = _
            rw [hM]
            by_cases hk : k ∈ Dict.keys d.marg
            · intro k'
              rw [if_pos hk, Dict.get?_set]
              obtain ⟨t, ht⟩ := Dict.get?_of_mem_keys hk
              exact hrepl (callText fmt d values d.marg) (Dict.get? d.marg) (Dict.get? st.marg) _
                (by simp only [callText, hfix, if_true, ht, hgv, Option.map_some]; rfl) hI.marg k'
            · rw [if_neg hk]
              exact hsame (callText fmt d values d.marg) (Dict.get? d.marg) _
                (by simp [callText, hfix, Dict.get?_eq_none.mpr hk]) hI.marg
          · show ∀ k', Dict.get? C k' = _
            rw [hC]
            by_cases hk : k ∈ Dict.keys d.marg
            · rw [if_pos hk]
              have hkc : k ∉ Dict.keys d.cond := h.disj k hk
              exact hsame (callText fmt d values d.cond) (Dict.get? d.cond) _
                (by simp [callText, hfix, Dict.get?_eq_none.mpr hkc]) hI.cond
            · intro k'
              rw [if_neg hk, Dict.get?_set]
              obtain ⟨t, ht⟩ := Dict.get?_of_mem_keys (hside hk)
              exact hrepl (callText fmt d values d.cond) (Dict.get? d.cond) (Dict.get? st.cond) _
                (by simp only [callText, hfix, if_true, ht, hgv, Option.map_some]; rfl) hI.cond k'
          · show Dict.keys (Dict.set st.vals k _) = _
            rw [Dict.keys_set_of_mem (by rw [hI.valKeys]; exact hkin), hI.valKeys]
          · intro k'
            show Dict.get? (Dict.set st.vals k _) k' = _
            rw [Dict.get?_set]
            exact hrepl (callVal d values) (Dict.get? d.vals) (Dict.get? st.vals) _
              (by simp only [callVal, hfix, if_true, hv, hgv, Option.map_some]) hI.vals k'
          · show Dict.keys (Dict.set st.dims k _) = _
            rw [Dict.keys_set_of_mem (by rw [hI.dimKeys]; exact Dict.mem_keys_of_get? e5), hI.dimKeys]
          · intro k'
            show Dict.get? (Dict.set st.dims k none) k' = _
            rw [Dict.get?_set]
            exact hrepl (fun k' => (Dict.get? d.dims k').map (fun _ => (d.axis k').bind fun a => if p a then none
                else some (a - dropped p a))) (Dict.get? d.dims) (Dict.get? st.dims) none
                (by simp only [e5, ha, Option.map_some, Option.bind_some, hpa, if_true]) hI.dims k'
          · show st.delta + 1 = _
            rw [hI.delta]; simp
          · rw [List.nodup_append]
            refine ⟨hI.nodup, by simp, ?_⟩
            intro y hy z hz
            simp only [List.mem_singleton] at hz
            subst hz
            rintro rfl; exact haax hy
          · intro b
            rw [List.mem_append, hI.memAxes, List.mem_singleton]
            constructor
            · rintro (⟨h1, k', h2, h3⟩ | rfl)
              · exact ⟨h1, k', (hkp k').mpr (Or.inl h2), h3⟩
              · exact ⟨hpa, k, (hkp k).mpr (Or.inr rfl), ha⟩
            · rintro ⟨h1, k', h2, h3⟩
              rcases (hkp k').mp h2 with h2 | rfl
              · exact Or.inl ⟨h1, k', h2, h3⟩
              · rw [ha] at h3; simp only [Option.some.injEq] at h3; exact Or.inr h3.symm
          · show st.slices.set a (.at (pos a)) = _
            rw [hI.slices, atSlices_set _ _ _ _ _ rfl]
            unfold atSlices
            apply List.map_congr_left
            intro b _
            have : ((p b && decide (b ∈ axes)) || decide (b = a)) = (p b && decide (b ∈ axes ++ [a])) := by
              by_cases hb : b = a
              · subst hb; simp [hpa]
              · simp [hb]
            simp only [this]
    · -- a scalar
      have hax := h.axis_none hv hs
      have hfix : fixes d values k = false := by simp [fixes, hax]
      have hg := (h.single k v hv hs).1
      refine ⟨st, by simp [callStep, hs], axes, ?_⟩
      refine ⟨hI.margKeys, hI.condKeys, ?_, ?_, hI.valKeys, ?_, hI.dimKeys, ?_, hI.delta, hI.nodup, ?_, hI.slices⟩
      · exact hsame (callText fmt d values d.marg) (Dict.get? d.marg) _ (by simp [callText, hfix]) hI.marg
      · exact hsame (callText fmt d values d.cond) (Dict.get? d.cond) _ (by simp [callText, hfix]) hI.cond
      · exact hsame (callVal d values) (Dict.get? d.vals) _ (by simp [callVal, hfix]) hI.vals
      · exact hsame (fun k' => (Dict.get? d.dims k').map (fun _ => (d.axis k').bind fun a => if p a then none
                else some (a - dropped p a))) (Dict.get? d.dims) _ (by simp [hg, hax]) hI.dims
      · intro b
        rw [hI.memAxes]
        constructor
        · rintro ⟨h1, k', h2, h3⟩; exact ⟨h1, k', (hkp k').mpr (Or.inl h2), h3⟩
        · rintro ⟨h1, k', h2, h3⟩
          rcases (hkp k').mp h2 with h2 | rfl
          · exact ⟨h1, k', h2, h3⟩
          · rw [hax] at h3; simp at h3

/-- C18 as intended: any consistent distribution, given values that occur once. -/
def C18_claim : Prop :=
  ∀ (fmt : Val → Str) (d : PD) (values : Dict Str ℚ), d.WF fmt → d.Pos → Spec.Given fmt d values →
    ∃ r, d.call fmt (Spec.scalars values) false = .ok r ∧ r.WF fmt ∧ Spec.Sliced d values r

/-- C18, proved part: axes in key order.  Slicing by values: the array variables among the given become scalars of
the given values, and the entries are those of the original at those values. -/
theorem C18_sliced_partial (fmt : Val → Str) (d : PD) (values : Dict Str ℚ) (h : d.WF fmt) (hpos : d.Pos)
    (hord : Spec.Ordered d) (hg : Spec.Given fmt d values) :
    ∃ r, d.call fmt (Spec.scalars values) false = .ok r ∧ r.WF fmt ∧ Spec.Sliced d values r := by
  set p : ℕ → Bool := fun b => values.keys.any fun k => decide (d.axis k = some b) with hp0
  have hown : ∀ k ∈ values.keys, ∀ k' a, d.axis k = some a → d.axis k' = some a → k' = k := by
    intro k hk k' a ha ha'
    obtain ⟨x, hx⟩ := Dict.get?_of_mem_keys hk
    exact ((hg k x hx).2 a ha).1 k' a ha ha'
  have hp : ∀ k a, d.axis k = some a → (p a = true ↔ k ∈ values.keys) := by
    intro k a ha
    simp only [hp0, List.any_eq_true, decide_eq_true_eq]
    constructor
    · rintro ⟨k', h1, h2⟩; exact (hown k' h1 k a h2 ha) ▸ h1
    · intro hk; exact ⟨k, hk, ha⟩
  have hex : ∀ a : ℕ, ∃ n : ℕ, ∀ k x s data, Dict.get? values k = some x → d.axis k = some a →
      Dict.get? d.vals k = some (.arr s data) → matching data x = [n] := by
    intro a
    by_cases hc : ∃ k x s data, Dict.get? values k = some x ∧ d.axis k = some a ∧
        Dict.get? d.vals k = some (.arr s data)
    · obtain ⟨k, x, s, data, h1, h2, h3⟩ := hc
      obtain ⟨s', data', e1, e2, _⟩ := h.axis_some h2
      rw [h3] at e1
      simp only [Option.some.injEq, Val.arr.injEq] at e1
      obtain ⟨rfl, rfl⟩ := e1
      obtain ⟨m, s, rfl⟩ := List.exists_cons_of_ne_nil e2
      obtain ⟨n, hn1, hn2⟩ := ((hg k x h1).2 a h2).2.2 data (by simp [PD.values, h3, Val.flat])
      refine ⟨n, ?_⟩
      intro k' x' s' data' h1' h2' h3'
      have := hown k (Dict.mem_keys_of_get? h1) k' a h2 h2'
      subst this
      rw [h1] at h1'
      rw [h3] at h3'
      simp only [Option.some.injEq, Val.arr.injEq] at h1' h3'
      obtain ⟨rfl, rfl⟩ := h3'
      subst h1'
      exact matching_unique hn1 hn2
    · refine ⟨0, ?_⟩
      intro k x s data h1 h2 h3
      exact absurd ⟨k, x, s, data, h1, h2, h3⟩ hc
  choose pos hposn using hex
  obtain ⟨st, g1, axes, hI⟩ := callLoop h hord hp (fun k a x s data => hposn a k x s data) hown
  have hcase : ∀ k, fixes d values k = true ↔ ∃ a, d.axis k = some a ∧ p a = true := by
    intro k
    simp only [fixes, Bool.and_eq_true, decide_eq_true_eq]
    constructor
    · rintro ⟨h1, h2⟩
      obtain ⟨a, ha⟩ := Option.isSome_iff_exists.mp h2
      exact ⟨a, ha, (hp k a ha).mpr h1⟩
    · rintro ⟨a, ha, hpa⟩; exact ⟨(hp k a ha).mp hpa, by simp [ha]⟩
  have hpaxes : (fun b => p b && decide (b ∈ axes)) = p := by
    funext b
    by_cases hb : p b = true
    · have : b ∈ axes := by
        rw [hI.memAxes]
        refine ⟨hb, ?_⟩
        simp only [hp0, List.any_eq_true, decide_eq_true_eq] at hb
        obtain ⟨k, _, h2⟩ := hb
        obtain ⟨_, _, e1, _⟩ := h.axis_some h2
        exact ⟨k, Dict.mem_keys_of_get? e1, h2⟩
      simp [hb, this]
    · simp [hb]
  have hsl : st.slices = atSlices p pos d.prob.shape.length := by
    rw [hI.slices, hpaxes, h.probShape, h.rank]
  have hvk : ∀ k, Dict.get? st.vals k = callVal d values k := by
    intro k
    rw [hI.vals k]
    by_cases hk : k ∈ Dict.keys d.vals
    · rw [if_pos hk]
    · rw [if_neg hk, callVal, Dict.get?_eq_none.mpr hk]; simp
  have hside : ∀ {side : Dict Str Str} {k : Str}, (∀ k ∈ Dict.keys side, k ∈ Dict.keys d.vals) →
      (if k ∈ Dict.keys d.vals then callText fmt d values side k else Dict.get? side k) =
        callText fmt d values side k := by
    intro side k hs
    by_cases hk : k ∈ Dict.keys d.vals
    · rw [if_pos hk]
    · rw [if_neg hk, callText, Dict.get?_eq_none.mpr (fun hc => hk (hs k hc))]; simp
  have hmk : ∀ k, Dict.get? st.marg k = callText fmt d values d.marg k := by
    intro k; rw [hI.marg k, hside fun k hk => (h.keys k).mpr (Or.inl hk)]
  have hck : ∀ k, Dict.get? st.cond k = callText fmt d values d.cond k := by
    intro k; rw [hI.cond k, hside fun k hk => (h.keys k).mpr (Or.inr hk)]
  have hfixed : ∀ k, fixes d values k = true → ∃ x, Dict.get? values k = some x ∧
      Spec.Entry k (eqText fmt k (.scalar x)) := by
    intro k hk
    obtain ⟨a, ha, hpa⟩ := (hcase k).mp hk
    obtain ⟨x, hx⟩ := Dict.get?_of_mem_keys ((hp k a ha).mp hpa)
    exact ⟨x, hx, ((hg k x hx).2 a ha).2.1⟩
  have hsideOk : ∀ {side new : Dict Str Str}, Spec.Side side → Dict.keys new = Dict.keys side →
      (∀ k, Dict.get? new k = callText fmt d values side k) → Spec.Side new := by
    intro side new h1 h2 h3
    have hn : (Dict.keys new).Nodup := by rw [h2]; exact h1.1
    refine ⟨hn, ?_⟩
    rintro ⟨k, t⟩ hkt
    have hgt := Dict.get?_of_mem hn hkt
    rw [h3, callText] at hgt
    split at hgt
    · rename_i hf
      obtain ⟨x, hx, he⟩ := hfixed k hf
      obtain ⟨_, _, hgt⟩ := Option.map_eq_some_iff.mp hgt
      rw [hx] at hgt
      subst hgt
      exact he
    · exact h1.2 _ (Dict.get?_mem hgt)
  have hdims : ∀ k, (Dict.get? st.dims k).join =
      (d.axis k).bind fun a => if p a then none else some (a - dropped p a) := by
    intro k
    rw [hI.dims k]
    by_cases hk : k ∈ Dict.keys d.vals
    · rw [if_pos hk]
      rcases hd : Dict.get? d.dims k with _ | o
      · simp [PD.axis, hd]
      · simp
    · have h1 : Dict.get? d.dims k = none := Dict.get?_eq_none.mpr fun hc => hk (h.dimKeys k hc)
      rw [if_neg hk]
      simp [PD.axis, h1]
  have hbuild : BuildArgs fmt st.marg st.cond st.vals st.dims (dropAxes p d.shape) := by
    refine dropBuild h hpos p hI.valKeys hI.margKeys hI.condKeys
      (hsideOk h.margSide hI.margKeys hmk) (hsideOk h.condSide hI.condKeys hck)
      (by rw [hI.dimKeys]; exact h.dimNodup) (by rw [hI.dimKeys]; exact h.dimKeys) hdims ?_ ?_
    · intro k hk
      have hf : fixes d values k = false := by
        by_contra hc
        obtain ⟨a, ha, hpa⟩ := (hcase k).mp (by simpa using hc)
        rw [hk a ha] at hpa; simp at hpa
      rw [hvk, hmk, hck]
      simp [callVal, callText, hf]
    · intro k a ha hpa
      have hf := (hcase k).mpr ⟨a, ha, hpa⟩
      obtain ⟨x, hx, _⟩ := hfixed k hf
      obtain ⟨s, data, e1, _⟩ := h.axis_some ha
      refine ⟨.scalar x, by rw [hvk, callVal, if_pos hf, e1, hx]; rfl, rfl, ?_⟩
      rcases (h.keys k).mp (Dict.mem_keys_of_get? e1) with hk | hk
      · left
        obtain ⟨t, ht⟩ := Dict.get?_of_mem_keys hk
        rw [hmk, callText, if_pos hf, ht, hx]; rfl
      · right
        obtain ⟨t, ht⟩ := Dict.get?_of_mem_keys hk
        rw [hck, callText, if_pos hf, ht, hx]; rfl
  have hrange : ∀ b m, p b = true → d.prob.shape[b]? = some m → pos b < m := by
    intro b m hb hm
    simp only [hp0, List.any_eq_true, decide_eq_true_eq] at hb
    obtain ⟨k, h1, h2⟩ := hb
    obtain ⟨x, hx⟩ := Dict.get?_of_mem_keys h1
    obtain ⟨s, data, e1, _, e3, _⟩ := h.axis_some h2
    have := hposn b k x s data hx h2 e1
    have hin : pos b ∈ matching data x := by rw [this]; simp
    simp only [matching, List.mem_filter, List.mem_range] at hin
    rw [h.probShape, e3] at hm
    simp only [Option.some.injEq] at hm
    omega
  have hindex := index_at (a := d.prob) p pos hrange
  rw [← hsl] at hindex
  obtain ⟨r, b1, b2, b3, b4, b5, b6, b7, b8, b9⟩ := pdInit_ok hbuild
    ⟨dropAxes p d.prob.shape, fun j => d.prob.get (sourceIx 0 st.slices j)⟩ (by rw [h.probShape])
    d.pscale.spec d.pscale h.stable
  have hdrop : Dropped d r p := ⟨b7, fun k => by rw [b6]; exact hdims k⟩
  -- having the given values is having the given positions
  have hhv : ∀ i, Spec.HasValues d values i ↔ ∀ b, p b = true → i[b]? = some (pos b) := by
    intro i
    constructor
    · intro hi b hb
      simp only [hp0, List.any_eq_true, decide_eq_true_eq] at hb
      obtain ⟨k, h1, h2⟩ := hb
      obtain ⟨x, hx⟩ := Dict.get?_of_mem_keys h1
      obtain ⟨s, data, e1, e2, _⟩ := h.axis_some h2
      obtain ⟨m, s, rfl⟩ := List.exists_cons_of_ne_nil e2
      have hm := hposn b k x _ data hx h2 e1
      obtain ⟨q, hq1, hq2⟩ := hi k x b data hx h2 (by simp [PD.values, e1, Val.flat])
      have hin : q ∈ matching data x := by
        simp only [matching, List.mem_filter, List.mem_range, decide_eq_true_eq]
        exact ⟨(List.getElem?_eq_some_iff.mp hq2).1, hq2⟩
      rw [hm, List.mem_singleton] at hin
      rw [hq1, hin]
    · intro hi k x a data hx ha hd
      have hpa := (hp k a ha).mpr (Dict.mem_keys_of_get? hx)
      obtain ⟨s, data', e1, e2, _⟩ := h.axis_some ha
      obtain ⟨m, s, rfl⟩ := List.exists_cons_of_ne_nil e2
      have : data' = data := by
        simp only [PD.values, e1, Option.map_some, Val.flat, Option.some.injEq, Val.arr.injEq] at hd
        exact hd.2
      subst this
      have hm := hposn a k x _ data' hx ha e1
      have hin : pos a ∈ matching data' x := by rw [hm]; simp
      simp only [matching, List.mem_filter, List.mem_range, decide_eq_true_eq] at hin
      exact ⟨pos a, hi a hpa, hin.2⟩
  have hsrc : ∀ j ∈ idx r.shape, sourceIx 0 st.slices j ∈ idx d.shape ∧
      dropAxes p (sourceIx 0 st.slices j) = j ∧ Spec.HasValues d values (sourceIx 0 st.slices j) := by
    intro j hj
    rw [b7, ← h.probShape] at hj
    obtain ⟨c1, c2, c3⟩ := sourceIx_at d.prob.shape p pos j hrange hj
    rw [← hsl] at c1 c2 c3
    refine ⟨by rw [← h.probShape]; exact c1, c2, (hhv _).mpr ?_⟩
    intro b hb
    apply c3 b _ hb
    have hb' := hb
    simp only [hp0, List.any_eq_true, decide_eq_true_eq] at hb'
    obtain ⟨k, _, h2⟩ := hb'
    rw [h.probShape, h.rank]; exact h.axis_lt h2
  have hsame : ∀ i ∈ idx d.shape, ∀ i' ∈ idx d.shape, dropAxes p i = dropAxes p i' →
      Spec.HasValues d values i → Spec.HasValues d values i' → i = i' := by
    intro i hi i' hi' hdd hv hv'
    have hj : dropAxes p i' ∈ idx (dropAxes p d.shape) := dropAxes_mem_idx p hi'
    have e1 := (dropAxes_eq_of_agree hi hj).mp hdd
    have e2 := (dropAxes_eq_of_agree hi' hj).mp rfl
    apply List.ext_getElem?
    intro b
    by_cases hb : b < d.shape.length
    · by_cases hpb : p b = true
      · rw [(hhv i).mp hv b hpb, (hhv i').mp hv' b hpb]
      · rw [e1 b hb (by simpa using hpb), e2 b hb (by simpa using hpb)]
    · rw [List.getElem?_eq_none (by rw [length_of_mem_idx hi]; omega),
        List.getElem?_eq_none (by rw [length_of_mem_idx hi']; omega)]
  refine ⟨r, ?_, b2, ⟨?_, by rw [b3, hI.margKeys], by rw [b4, hI.condKeys], ?_, ?_, ?_, hdrop.order, hdrop.sizes, b9, ?_, ?_, ?_⟩⟩
  · have hall : (Spec.scalars values).keys.all (· ∈ d.keylist) = true := by
      rw [List.all_eq_true]
      intro k hk
      rw [show Dict.keys (Spec.scalars values) = Dict.keys values from
        Dict.keys_map (fun _ x => Val.scalar x) _] at hk
      obtain ⟨x, hx⟩ := Dict.get?_of_mem_keys hk
      simpa using (hg k x hx).1
    rw [PD.call, if_pos hall]
    simp only [g1, hindex, b1, bind, Except.bind]
  · show Dict.keys r.vals = Dict.keys d.vals
    rw [b5, Dict.keys_map, hI.valKeys]
  · intro k x hx ha
    obtain ⟨a, ha⟩ := Option.isSome_iff_exists.mp ha
    have hpa := (hp k a ha).mpr (Dict.mem_keys_of_get? hx)
    refine ⟨by rw [hdrop.axis, ha]; simp [hpa], ?_⟩
    obtain ⟨s, data, e1, _⟩ := h.axis_some ha
    rw [hbuild.values b5, hvk, callVal, if_pos ((hcase k).mpr ⟨a, ha, hpa⟩), e1, hx]; rfl
  · intro k hk
    have hf : fixes d values k = false := by
      rcases hk with hk | hk
      · simp [fixes, hk]
      · simp [fixes, hk]
    constructor
    · rw [hbuild.values b5, hvk, callVal, hf]; rfl
    · rw [hdrop.axis]
      rcases ha : d.axis k with _ | a
      · rfl
      · have : p a = false := by
          by_contra hc
          have := (hcase k).mpr ⟨a, ha, by simpa using hc⟩
          rw [hf] at this; simp at this
        simp [this]
  · intro k hk
    have hf : fixes d values k = false := by
      rcases hk with hk | hk
      · simp [fixes, hk]
      · simp [fixes, hk]
    rw [b3, b4, hmk, hck]
    simp [callText, hf]
  · intro j hj
    obtain ⟨c1, c2, c3⟩ := hsrc j hj
    refine ⟨_, ⟨c1, (hdrop.agree h c1 hj).mpr c2, c3⟩, ?_⟩
    rintro i ⟨hi, hag, hv⟩
    exact hsame i hi _ c1 (by rw [c2]; exact (hdrop.agree h hi hj).mp hag) hv c3
  · intro i hi j hj hag hv
    obtain ⟨c1, c2, c3⟩ := hsrc j hj
    have := hsame i hi _ c1 (by rw [c2]; exact (hdrop.agree h hi hj).mp hag) hv c3
    rw [PD.at, PD.at, b8, b9, this]
  · intro i hi _
    exact hdrop.unique h i hi

/-! ### one after the other -/

section
variable {fmt : Val → Str} {d r r' : PD} {A B : Dict Str ℚ}

theorem Spec.Sliced.axis_d (h : Spec.Sliced d A r) {k : Str} {b : ℕ} (hb : r.axis k = some b) :
    (∃ a, d.axis k = some a) ∧ k ∉ A.keys := by
  have h1 : ∃ a, d.axis k = some a := by
    rcases ha : d.axis k with _ | a
    · have := (h.kept k (Or.inl ha)).2
      rw [hb, ha] at this; simp at this
    · exact ⟨a, rfl⟩
  refine ⟨h1, fun hk => ?_⟩
  obtain ⟨x, hx⟩ := Dict.get?_of_mem_keys hk
  obtain ⟨a, ha⟩ := h1
  have := (h.fixed k x hx (by simp [ha])).1
  rw [hb] at this; simp at this

theorem get?_append_right {k : Str} (hk : k ∉ A.keys) : Dict.get? (A ++ B) k = Dict.get? B k := by
  rw [Dict.get?_append, Dict.get?_eq_none.mpr hk]; rfl

theorem Spec.HasValues.left {i : List ℕ} (h : Spec.HasValues d (A ++ B) i) : Spec.HasValues d A i := by
  intro k x a data hx ha hd
  exact h k x a data (by rw [Dict.get?_append, hx]; rfl) ha hd

/-- Taking an entry through the first slice. -/
theorem Spec.Sliced.through (h1 : Spec.Sliced d A r) (h2 : Spec.Sliced r B r') {i j : List ℕ}
    (hij : Spec.Agree d r i j) :
    (Spec.HasValues d (A ++ B) i ↔ Spec.HasValues d A i ∧ Spec.HasValues r B j) ∧
    ∀ j', Spec.Agree d r' i j' ↔ Spec.Agree r r' j j' := by
  constructor
  · constructor
    · intro hv
      refine ⟨hv.left, ?_⟩
      intro k x b data hx hb hd
      obtain ⟨⟨a, ha⟩, hk⟩ := h1.axis_d hb
      rw [← hij k a b ha hb]
      exact hv k x a data (by rw [get?_append_right hk]; exact hx) ha
        (by rw [← (h1.kept k (Or.inr hk)).1]; exact hd)
    · rintro ⟨hv1, hv2⟩ k x a data hx ha hd
      by_cases hk : k ∈ A.keys
      · obtain ⟨y, hy⟩ := Dict.get?_of_mem_keys hk
        rw [Dict.get?_append, hy] at hx
        exact hv1 k x a data (by rw [hy]; exact hx) ha hd
      · rw [get?_append_right hk] at hx
        have hb := (h1.kept k (Or.inr hk)).2
        rw [ha] at hb
        obtain ⟨b, hb⟩ := Option.isSome_iff_exists.mp hb
        rw [hij k a b ha hb]
        exact hv2 k x b data hx hb (by rw [(h1.kept k (Or.inr hk)).1]; exact hd)
  · intro j'
    constructor
    · intro hh k b b' hb hb'
      obtain ⟨⟨a, ha⟩, _⟩ := h1.axis_d hb
      rw [← hij k a b ha hb]
      exact hh k a b' ha hb'
    · intro hh k a b' ha hb'
      obtain ⟨⟨b, hb⟩, _⟩ := h2.axis_d hb'
      rw [hij k a b ha hb]
      exact hh k b b' hb hb'

/-- Two slices in a row are one. -/
theorem Spec.Sliced.trans (h1 : Spec.Sliced d A r) (h2 : Spec.Sliced r B r') :
    Spec.Sliced d (A ++ B) r' := by
  have hkeys : ∀ k, k ∉ Dict.keys (A ++ B) → k ∉ A.keys ∧ k ∉ B.keys := by
    intro k hk
    rw [Dict.keys_append, List.mem_append] at hk
    exact ⟨fun h => hk (Or.inl h), fun h => hk (Or.inr h)⟩
  have hkeep : ∀ k, (d.axis k = none ∨ k ∉ Dict.keys (A ++ B)) →
      (d.axis k = none ∨ k ∉ A.keys) ∧ (r.axis k = none ∨ k ∉ B.keys) := by
    rintro k (hk | hk)
    · refine ⟨Or.inl hk, Or.inl ?_⟩
      have := (h1.kept k (Or.inl hk)).2
      rw [hk] at this
      simpa using this
    · exact ⟨Or.inr (hkeys k hk).1, Or.inr (hkeys k hk).2⟩
  refine ⟨by rw [h2.keylist, h1.keylist], by rw [h2.marg, h1.marg], by rw [h2.cond, h1.cond], ?_, ?_, ?_,
    ?_, fun n hn => h1.sizes n (h2.sizes n hn), by rw [h2.pscale, h1.pscale], ?_, ?_, ?_⟩
  · intro k x hx ha
    by_cases hk : k ∈ A.keys
    · obtain ⟨y, hy⟩ := Dict.get?_of_mem_keys hk
      rw [Dict.get?_append, hy] at hx
      obtain ⟨e1, e2⟩ := h1.fixed k y hy ha
      obtain ⟨e3, e4⟩ := h2.kept k (Or.inl e1)
      refine ⟨by rw [e1] at e4; simpa using e4, ?_⟩
      rw [e3, e2]
      simp only [Option.some_or, Option.some.injEq] at hx
      rw [hx]
    · rw [get?_append_right hk] at hx
      exact (by
        obtain ⟨e1, e2⟩ := h1.kept k (Or.inr hk)
        exact h2.fixed k x hx (by rw [e2]; exact ha))
  · intro k hk
    obtain ⟨e1, e2⟩ := hkeep k hk
    obtain ⟨e3, e4⟩ := h1.kept k e1
    obtain ⟨e5, e6⟩ := h2.kept k e2
    exact ⟨by rw [e5, e3], by rw [e6, e4]⟩
  · intro k hk
    obtain ⟨e1, e2⟩ := hkeep k hk
    obtain ⟨e3, e4⟩ := h1.keptText k e1
    obtain ⟨e5, e6⟩ := h2.keptText k e2
    exact ⟨by rw [e5, e3], by rw [e6, e4]⟩
  · intro k k' a a' b b' ha ha' hb hb'
    obtain ⟨⟨c, hc⟩, _⟩ := h2.axis_d hb
    obtain ⟨⟨c', hc'⟩, _⟩ := h2.axis_d hb'
    rw [h2.order k k' c c' b b' hc hc' hb hb', h1.order k k' a a' c c' ha ha' hc hc']
  · intro j' hj'
    obtain ⟨j, ⟨hj, hjj, hvj⟩, hu⟩ := h2.entry j' hj'
    obtain ⟨i, ⟨hi, hij, hvi⟩, hu'⟩ := h1.entry j hj
    have ht := h1.through h2 hij
    refine ⟨i, ⟨hi, (ht.2 j').mpr hjj, ht.1.mpr ⟨hvi, hvj⟩⟩, ?_⟩
    rintro i' ⟨hi', hij', hv'⟩
    obtain ⟨l, ⟨hl, hil⟩, _⟩ := h1.onto i' hi' hv'.left
    have ht' := h1.through h2 hil
    have : l = j := hu l ⟨hl, (ht'.2 j').mp hij', (ht'.1.mp hv').2⟩
    subst this
    exact hu' i' ⟨hi', hil, hv'.left⟩
  · intro i hi j' hj' hij' hv'
    obtain ⟨l, ⟨hl, hil⟩, _⟩ := h1.onto i hi hv'.left
    have ht' := h1.through h2 hil
    rw [h2.value l hl j' hj' ((ht'.2 j').mp hij') (ht'.1.mp hv').2, h1.value i hi l hl hil hv'.left]
  · intro i hi hv'
    obtain ⟨l, ⟨hl, hil⟩, _⟩ := h1.onto i hi hv'.left
    have ht' := h1.through h2 hil
    obtain ⟨j', ⟨hj', hlj⟩, hu⟩ := h2.onto l hl (ht'.1.mp hv').2
    refine ⟨j', ⟨hj', (ht'.2 j').mpr hlj⟩, ?_⟩
    rintro j'' ⟨hj'', hh⟩
    exact hu j'' ⟨hj'', (ht'.2 j'').mp hh⟩

/-- The same values give the same slice. -/
theorem Spec.Sliced.same (hd : d.WF fmt) (hr : r.WF fmt) (hr' : r'.WF fmt)
    (hAB : ∀ k, Dict.get? A k = Dict.get? B k)
    (h1 : Spec.Sliced d A r) (h2 : Spec.Sliced d B r') : Spec.Same r r' := by
  have hkAB : ∀ k, k ∈ A.keys ↔ k ∈ B.keys := by
    intro k
    rw [← Dict.get?_isSome, ← Dict.get?_isSome, hAB]
  have hvAB : ∀ i, Spec.HasValues d A i ↔ Spec.HasValues d B i := by
    intro i; unfold Spec.HasValues; simp only [hAB]
  have hcase : ∀ k, (∃ x, Dict.get? A k = some x ∧ (d.axis k).isSome) ∨ (d.axis k = none ∨ k ∉ A.keys) := by
    intro k
    rcases hx : Dict.get? A k with _ | x
    · exact Or.inr (Or.inr (Dict.get?_eq_none.mp hx))
    · rcases ha : d.axis k with _ | a
      · exact Or.inr (Or.inl rfl)
      · exact Or.inl ⟨x, rfl, rfl⟩
  have hkeep : ∀ k, (d.axis k = none ∨ k ∉ A.keys) → (d.axis k = none ∨ k ∉ B.keys) := by
    rintro k (h | h)
    · exact Or.inl h
    · exact Or.inr fun hc => h ((hkAB k).mpr hc)
  have hvals : ∀ k, r.values k = r'.values k := by
    intro k
    rcases hcase k with ⟨x, hx, ha⟩ | hk
    · rw [(h1.fixed k x hx ha).2, (h2.fixed k x (by rw [← hAB]; exact hx) ha).2]
    · rw [(h1.kept k hk).1, (h2.kept k (hkeep k hk)).1]
  have hsome : ∀ k, (r.axis k).isSome = (r'.axis k).isSome := by
    intro k
    rcases hcase k with ⟨x, hx, ha⟩ | hk
    · rw [(h1.fixed k x hx ha).1, (h2.fixed k x (by rw [← hAB]; exact hx) ha).1]
    · rw [(h1.kept k hk).2, (h2.kept k (hkeep k hk)).2]
  have htext : ∀ k, Dict.get? r.marg k = Dict.get? r'.marg k ∧ Dict.get? r.cond k = Dict.get? r'.cond k := by
    intro k
    rcases hcase k with ⟨x, hx, ha⟩ | hk
    · have e1 := (h1.fixed k x hx ha).2
      have e2 := (h2.fixed k x (by rw [← hAB]; exact hx) ha).2
      have scal : ∀ {q : PD}, q.values k = some (.scalar x) → Dict.get? q.vals k = some (.scalar x) := by
        intro q hq
        unfold PD.values at hq
        rcases hv : Dict.get? q.vals k with _ | v
        · rw [hv] at hq; simp at hq
        · rw [hv] at hq
          simp only [Option.map_some, Option.some.injEq] at hq
          unfold Val.flat at hq
          split at hq
          · simp at hq
          · simp at hq
          · rw [hq]
      have t1 := (hr.single k _ (scal e1) rfl).2
      have t2 := (hr'.single k _ (scal e2) rfl).2
      rcases t1 with t1 | t1
      · have hm : k ∈ Dict.keys r'.marg := by
          have := Dict.mem_keys_of_get? t1
          rw [h1.marg] at this; rw [h2.marg]; exact this
        have hc : k ∉ Dict.keys r'.cond := hr'.disj k hm
        have hc' : k ∉ Dict.keys r.cond := hr.disj k (Dict.mem_keys_of_get? t1)
        rw [Dict.get?_eq_none.mpr hc] at t2
        rcases t2 with t2 | t2
        · rw [t1, t2, Dict.get?_eq_none.mpr hc, Dict.get?_eq_none.mpr hc']; exact ⟨rfl, rfl⟩
        · simp at t2
      · have hm : k ∈ Dict.keys r'.cond := by
          have := Dict.mem_keys_of_get? t1
          rw [h1.cond] at this; rw [h2.cond]; exact this
        have hc : k ∉ Dict.keys r'.marg := fun hh => hr'.disj k hh hm
        have hc' : k ∉ Dict.keys r.marg := fun hh => hr.disj k hh (Dict.mem_keys_of_get? t1)
        rw [Dict.get?_eq_none.mpr hc] at t2
        rcases t2 with t2 | t2
        · simp at t2
        · rw [t1, t2, Dict.get?_eq_none.mpr hc, Dict.get?_eq_none.mpr hc']; exact ⟨rfl, rfl⟩
    · obtain ⟨e1, e2⟩ := h1.keptText k hk
      obtain ⟨e3, e4⟩ := h2.keptText k (hkeep k hk)
      rw [e1, e2, e3, e4]; exact ⟨rfl, rfl⟩
  have key : ∀ i, ∀ j j', Spec.Agree d r i j → Spec.Agree d r' i j' → Spec.Agree r r' j j' := by
    intro i j j' h3 h4 k b b' hb hb'
    obtain ⟨⟨a, ha⟩, _⟩ := h1.axis_d hb
    rw [← h3 k a b ha hb, h4 k a b' ha hb']
  have key2 : ∀ i, ∀ j j', Spec.Agree r r' j j' → (Spec.Agree d r i j ↔ Spec.Agree d r' i j') := by
    intro i j j' h3
    constructor
    · intro h4 k a b' ha hb'
      obtain ⟨b, hb⟩ := Option.isSome_iff_exists.mp (by rw [hsome k, hb']; rfl : (r.axis k).isSome = true)
      rw [h4 k a b ha hb, h3 k b b' hb hb']
    · intro h4 k a b ha hb
      obtain ⟨b', hb'⟩ := Option.isSome_iff_exists.mp (by rw [← hsome k, hb]; rfl : (r'.axis k).isSome = true)
      rw [h4 k a b' ha hb', h3 k b b' hb hb']
  refine ⟨by rw [h1.keylist, h2.keylist],
    Dict.ext_get? hr.margSide.1 (h1.marg.trans h2.marg.symm) fun k => (htext k).1,
    Dict.ext_get? hr.condSide.1 (h1.cond.trans h2.cond.symm) fun k => (htext k).2,
    hvals, by rw [h1.pscale, h2.pscale], ?_, ?_, ?_⟩
  · intro j hj
    obtain ⟨i, ⟨hi, hij, hv⟩, _⟩ := h1.entry j hj
    obtain ⟨j', ⟨hj', haj'⟩, hu⟩ := h2.onto i hi ((hvAB i).mp hv)
    refine ⟨j', ⟨hj', key i j j' hij haj'⟩, ?_⟩
    rintro l ⟨hl, hal⟩
    exact hu l ⟨hl, (key2 i j l hal).mp hij⟩
  · intro j' hj'
    obtain ⟨i, ⟨hi, hij, hv⟩, _⟩ := h2.entry j' hj'
    obtain ⟨j, ⟨hj, haj⟩, hu⟩ := h1.onto i hi ((hvAB i).mpr hv)
    refine ⟨j, ⟨hj, key i j j' haj hij⟩, ?_⟩
    rintro l ⟨hl, hal⟩
    exact hu l ⟨hl, (key2 i l j' hal).mpr hij⟩
  · intro j hj j' hj' hjj
    obtain ⟨i, ⟨hi, hij, hv⟩, _⟩ := h1.entry j hj
    rw [h1.value i hi j hj hij hv, h2.value i hi j' hj' ((key2 i j j' hjj).mp hij) ((hvAB i).mp hv)]

theorem Spec.Sliced.ordered (h : Spec.Sliced d A r) (ho : Spec.Ordered d) : Spec.Ordered r := by
  unfold Spec.Ordered at ho ⊢
  rw [h.keylist]
  refine ho.imp ?_
  intro k k' hkk b b' hb hb'
  obtain ⟨⟨a, ha⟩, _⟩ := h.axis_d hb
  obtain ⟨⟨a', ha'⟩, _⟩ := h.axis_d hb'
  have h1 := hkk a a' ha ha'
  have h2 := h.order k' k a' a b' b ha' ha hb' hb
  omega

theorem Spec.Sliced.given (h : Spec.Sliced d A r) (hg : Spec.Given fmt d B) : Spec.Given fmt r B := by
  intro k x hx
  obtain ⟨h1, h2⟩ := hg k x hx
  refine ⟨by rw [h.keylist]; exact h1, ?_⟩
  intro b hb
  obtain ⟨⟨a, ha⟩, hk⟩ := h.axis_d hb
  obtain ⟨e1, e2, e3⟩ := h2 a ha
  refine ⟨?_, e2, ?_⟩
  · intro k' b' hb1 hb'
    obtain ⟨⟨a', ha'⟩, _⟩ := h.axis_d hb'
    have h3 := h.order k k' a a' b' b' ha ha' hb1 hb'
    have h4 := h.order k' k a' a b' b' ha' ha hb' hb1
    have : a' = a := by omega
    subst this
    exact e1 k' a' ha ha'
  · intro data hd
    exact e3 data (by rw [← (h.kept k (Or.inr hk)).1]; exact hd)

end

/-- C18, proved part: axes in key order.  Slicing by several values at once is slicing one after the other, in
either order. -/
theorem C18_stages_partial (fmt : Val → Str) (d : PD) (A B : Dict Str ℚ) (h : d.WF fmt) (hpos : d.Pos)
    (hord : Spec.Ordered d) (hA : Spec.Given fmt d A) (hB : Spec.Given fmt d B)
    (hdisj : ∀ k ∈ A.keys, k ∉ B.keys) :
    ∃ rA rB rAB rBA r, d.call fmt (Spec.scalars A) false = .ok rA ∧
      rA.call fmt (Spec.scalars B) false = .ok rAB ∧
      d.call fmt (Spec.scalars B) false = .ok rB ∧ rB.call fmt (Spec.scalars A) false = .ok rBA ∧
      d.call fmt (Spec.scalars (A ++ B)) false = .ok r ∧
      Spec.Sliced d (A ++ B) r ∧ Spec.Same rAB r ∧ Spec.Same rBA r := by
  have hAB : Spec.Given fmt d (A ++ B) := by
    intro k x hx
    by_cases hk : k ∈ A.keys
    · obtain ⟨y, hy⟩ := Dict.get?_of_mem_keys hk
      rw [Dict.get?_append, hy] at hx
      exact hA k x (by rw [hy]; exact hx)
    · rw [get?_append_right hk] at hx
      exact hB k x hx
  obtain ⟨rA, a1, a2, a3⟩ := C18_sliced_partial fmt d A h hpos hord hA
  obtain ⟨rB, b1, b2, b3⟩ := C18_sliced_partial fmt d B h hpos hord hB
  obtain ⟨rAB, ab1, ab2, ab3⟩ := C18_sliced_partial fmt rA B a2 (fun n hn => hpos n (a3.sizes n hn))
    (a3.ordered hord) (a3.given hB)
  obtain ⟨rBA, ba1, ba2, ba3⟩ := C18_sliced_partial fmt rB A b2 (fun n hn => hpos n (b3.sizes n hn))
    (b3.ordered hord) (b3.given hA)
  obtain ⟨r, r1, r2, r3⟩ := C18_sliced_partial fmt d (A ++ B) h hpos hord hAB
  refine ⟨rA, rB, rAB, rBA, r, a1, ab1, b1, ba1, r1, r3, ?_, ?_⟩
  · exact (a3.trans ab3).same h ab2 r2 (fun _ => rfl) r3
  · refine (b3.trans ba3).same h ba2 r2 ?_ r3
    intro k
    rw [Dict.get?_append, Dict.get?_append]
    rcases hx : Dict.get? A k with _ | x
    · simp
    · rw [Dict.get?_eq_none.mpr (hdisj k (Dict.mem_keys_of_get? hx))]; rfl

/-! ### values that do not occur -/

theorem foldlM_inv {σ α : Type _} {f : σ → α → Py σ} (I : List α → σ → Prop) {l : List α} {s0 s1 : σ}
    (h0 : I [] s0) (h : l.foldlM f s0 = .ok s1)
    (hstep : ∀ pre x post st st', l = pre ++ x :: post → I pre st → f st x = .ok st' → I (pre ++ [x]) st') :
    I l s1 := by
  have aux : ∀ post pre st, l = pre ++ post → I pre st → post.foldlM f st = .ok s1 → I l s1 := by
    intro post
    induction post with
    | nil =>
      intro pre st hl hI hf
      simp only [List.foldlM_nil, pure, Except.pure, Except.ok.injEq] at hf
      subst hf
      rw [hl]; simpa using hI
    | cons x post ih =>
      intro pre st hl hI hf
      rw [List.foldlM_cons] at hf
      rcases hx : f st x with e | st'
      · rw [hx] at hf; simp [bind, Except.bind] at hf
      · rw [hx] at hf
        exact ih (pre ++ [x]) st' (by simpa using hl) (hstep pre x post st st' hl hI hx) hf
  exact aux l [] s0 rfl h0 h

theorem retext_slices (st : CallState) (k s : Str) : (st.retext k s).slices = st.slices := by
  unfold CallState.retext
  split
  · rfl
  · split <;> rfl

theorem callKey_slices {fmt : Val → Str} {d : PD} {values : Dict Str Val} {keepdims : Bool}
    {st st' : CallState} {k : Str} {data : List ℚ} {v : Val} {dim : ℕ} {x : Val}
    (h : callKey fmt d values keepdims st k data v dim x = .ok st') :
    ∃ y, st'.slices = st.slices.set dim y ∧
      ∀ q, x = .scalar q → matching data q = [] → y = .empty := by
  unfold callKey at h
  split at h
  · rename_i q
    split at h
    · simp only [Except.ok.injEq] at h
      subst h
      exact ⟨.empty, by rw [retext_slices], fun _ _ _ => rfl⟩
    · rename_i n hm
      have hne : ∀ q', Val.scalar q = .scalar q' → matching data q' = [] → (Slice.at n) = .empty ∧ (Slice.ix [n]) = .empty := by
        intro q' hq hm'
        simp only [Val.scalar.injEq] at hq
        subst hq
        rw [hm] at hm'; simp at hm'
      split at h
      · simp only [Except.ok.injEq] at h
        subst h
        exact ⟨.at n, by rw [retext_slices], fun q' h1 h2 => (hne q' h1 h2).1⟩
      · rcases hw : v.takeRows [n] with e | w <;> simp only [hw, bind, Except.bind] at h
        · simp at h
        rcases hv : callShared d values dim [n] (Dict.set st.vals k w) with e | vs <;> simp only [hv] at h
        · simp at h
        simp only [pure, Except.pure, Except.ok.injEq] at h
        subst h
        exact ⟨.ix [n], by rw [retext_slices], fun q' h1 h2 => (hne q' h1 h2).2⟩
    · rename_i hm _
      rcases hw : v.takeRows (matching data q) with e | w <;> simp only [hw, bind, Except.bind] at h
      · simp at h
      rcases hv : callShared d values dim (matching data q) (Dict.set st.vals k w) with e | vs <;>
        simp only [hv] at h
      · simp at h
      simp only [pure, Except.pure, Except.ok.injEq] at h
      subst h
      refine ⟨.ix (matching data q), by rw [retext_slices], ?_⟩
      intro q' hq hm'
      simp only [Val.scalar.injEq] at hq
      subst hq
      exact absurd hm' (by assumption)
  · simp at h

theorem zero_mem_basicShape {s : List Slice} : ∀ {t : List ℕ} {a : ℕ}, s[a]? = some .empty →
    s.length = t.length → 0 ∈ basicShape s t := by
  induction s with
  | nil => intro t a h; simp at h
  | cons x s ih =>
    intro t a h hl
    rcases t with _ | ⟨m, t⟩
    · simp at hl
    rcases a with _ | a
    · simp only [List.getElem?_cons_zero, Option.some.injEq] at h
      subst h
      simp [basicShape]
    · have := ih (by simpa using h) (by simpa using hl)
      cases x <;> simp [basicShape, this]

theorem index_empty {a : Arr} {s : List Slice} {n : ℕ} {b : Arr} (h : a.index s = .ok b)
    (hs : s[n]? = some .empty) : 0 ∈ b.shape := by
  unfold Arr.index at h
  split at h
  · simp at h
  rename_i hl
  have hz : 0 ∈ basicShape s a.shape := zero_mem_basicShape hs (by simpa using hl)
  split at h
  · simp at h
  split at h
  · rcases hn : ixLength s with e | m <;> simp only [hn, bind, Except.bind] at h
    · simp at h
    simp only [pure, Except.pure, Except.ok.injEq] at h
    subst h
    by_cases hp : ixPlace s ≤ (basicShape s a.shape).length
    · simp [List.mem_insertIdx hp, hz]
    · show 0 ∈ (basicShape s a.shape).insertIdx (ixPlace s) m
      rw [List.insertIdx_of_length_lt (by omega)]; exact hz
  · simp only [Except.ok.injEq] at h
    subst h
    exact hz

/-- **C18**, proved part on absent values: if an array variable does not take the
given value, and no other given variable lies on its axis, then either the call is
refused or the result has no entries (for both settings of `keepdims`). -/
theorem C18_absent_partial (fmt : Val → Str) (d r : PD) (values : Dict Str Val) (keepdims : Bool)
    (h : d.WF fmt) (k : Str) (x : ℚ) (data : List ℚ) (hx : Dict.get? values k = some (.scalar x))
    (hk : (d.axis k).isSome) (hd : d.values k = some (.arr [data.length] data)) (hno : x ∉ data)
    (hown : ∀ k' ∈ values.keys, d.axis k' = d.axis k → k' = k)
    (hr : d.call fmt values keepdims = .ok r) :
    0 ∈ r.shape ∧ idx r.prob.shape = ∅ := by
  obtain ⟨a, ha⟩ := Option.isSome_iff_exists.mp hk
  obtain ⟨s, data', e1, e2, e3, e4, e5⟩ := h.axis_some ha
  obtain ⟨m, s, rfl⟩ := List.exists_cons_of_ne_nil e2
  have hdata : data' = data := by
    simp only [PD.values, e1, Option.map_some, Val.flat, Option.some.injEq, Val.arr.injEq] at hd
    exact hd.2
  subst hdata
  have hm : matching data' x = [] := by
    rw [matching, List.filter_eq_nil_iff]
    intro i _
    simp only [decide_eq_true_eq]
    intro hi
    exact hno (List.mem_iff_getElem?.mpr ⟨i, hi⟩)
  unfold PD.call at hr
  split at hr
  · rcases hf : List.foldlM (callStep fmt d values keepdims)
      ⟨d.marg, d.cond, d.dims, d.vals, List.replicate d.ndim .all, 0⟩ d.vals with e | st <;>
      simp only [hf, bind, Except.bind] at hr
    · simp at hr
    have hI := foldlM_inv (fun pre (st : CallState) => st.slices.length = d.ndim ∧
      (k ∈ Dict.keys pre → st.slices[a]? = some .empty)) (by simp) hf (by
        rintro pre ⟨k', v⟩ post st st' hl ⟨i1, i2⟩ hst
        have hv : Dict.get? d.vals k' = some v := Dict.get?_of_mem h.nodup (by rw [hl]; simp)
        have hkp : k ∈ Dict.keys (pre ++ [(k', v)]) ↔ k ∈ Dict.keys pre ∨ k = k' := by
          rw [Dict.keys_append]; simp
        rw [hkp]
        simp only [callStep] at hst
        split at hst
        · rename_i hs
          simp only [Except.ok.injEq] at hst
          subst hst
          refine ⟨i1, ?_⟩
          rintro (hh | rfl)
          · exact i2 hh
          · rw [e1] at hv
            simp only [Option.some.injEq] at hv
            subst hv
            simp [Val.issingleton] at hs
        · rename_i hs
          obtain ⟨a', ha'⟩ := h.axis_isSome hv (by simpa using hs)
          obtain ⟨s', dat, f1, f2, f3, f4, f5⟩ := h.axis_some ha'
          rw [hv] at f1
          simp only [Option.some.injEq] at f1
          subst f1
          simp only [dimOf, f5, bind, Except.bind] at hst
          rcases hx' : Dict.get? values k' with _ | x'
          · simp only [hx'] at hst
            have hne : k ≠ k' := by rintro rfl; rw [hx] at hx'; simp at hx'
            have hsl : st'.slices = st.slices := by
              split at hst
              · simp only [Except.ok.injEq] at hst; subst hst; rfl
              · rcases hsh : shiftDim (some a') st.delta with e | b <;> simp only [hsh] at hst
                · simp at hst
                · simp only [pure, Except.pure, Except.ok.injEq] at hst; subst hst; rfl
            rw [hsl]
            exact ⟨i1, fun hh => i2 (hh.resolve_right hne)⟩
          · simp only [hx'] at hst
            obtain ⟨y, y1, y2⟩ := callKey_slices hst
            rw [y1]
            refine ⟨by simpa using i1, ?_⟩
            intro hh
            rw [List.getElem?_set]
            by_cases hkk : k = k'
            · subst hkk
              rw [ha] at ha'
              simp only [Option.some.injEq] at ha'
              subst ha'
              rw [hx] at hx'
              rw [e1] at hv
              simp only [Option.some.injEq, Val.arr.injEq] at hx' hv
              rw [if_pos rfl, if_pos (by omega), y2 x hx'.symm (by rw [← hv.2]; exact hm)]
            · have : a' ≠ a := by
                rintro rfl
                exact hkk (hown k' (Dict.mem_keys_of_get? hx') (by rw [ha, ha'])).symm
              rw [if_neg this]
              exact i2 (hh.resolve_right hkk))
    have hemp := hI.2 (Dict.mem_keys_of_get? e1)
    rcases hq : d.prob.index st.slices with e | q <;> simp only [hq] at hr
    · simp at hr
    have hz := index_empty hq hemp
    obtain ⟨_, p2, p3, _⟩ := pdInit_inv hr
    have hsh : q.shape = r.shape := by
      unfold probOK at p2
      split at p2
      · have : q.shape = [] := by simpa [Arr.isscalar] using p2
        rw [this] at hz; simp at hz
      · simp only [Bool.and_eq_true, beq_iff_eq] at p2
        exact p2.2.symm
    refine ⟨by rw [← hsh]; exact hz, ?_⟩
    rw [p3]
    ext i
    simp only [Finset.notMem_empty, iff_false]
    intro hi
    obtain ⟨n, hn⟩ := List.mem_iff_getElem?.mp hz
    have hl : n < i.length := by
      rw [length_of_mem_idx hi]; exact (List.getElem?_eq_some_iff.mp hn).1
    exact absurd (getElem?_lt_of_mem_idx hi (List.getElem?_eq_getElem hl) hn) (by omega)
  · simp at hr

/-- Does the variable take the value? -/
def Spec.Occurs (d : PD) (k : Str) (x : ℚ) : Prop :=
  d.values k = some (.scalar x) ∨ ∃ s data, d.values k = some (.arr s data) ∧ x ∈ data

/-- C18 as intended for absent values: the call is refused or gives no entries. -/
def C18_absent_claim : Prop :=
  ∀ (fmt : Val → Str) (d r : PD) (values : Dict Str ℚ) (k : Str) (x : ℚ), d.WF fmt → d.Pos →
    Spec.Ordered d → (∀ k', Spec.OwnAxis d k') → Dict.get? values k = some x → ¬ Spec.Occurs d k x →
    d.call fmt (Spec.scalars values) false = .ok r → idx r.shape = ∅

/-! ### examples -/

theorem sample3_given : Spec.Given (fun _ => ['1']) sample3 [(['z'], 8), (['x'], 1), (['u'], 2)] := by
  intro k x hx
  have hk : (k = ['z'] ∧ x = 8) ∨ (k = ['x'] ∧ x = 1) ∨ (k = ['u'] ∧ x = 2) := by
    simp only [Dict.get?] at hx
    split at hx
    · rename_i h; left; simp at hx; exact ⟨h.symm, hx.symm⟩
    · split at hx
      · rename_i h; right; left; simp at hx; exact ⟨h.symm, hx.symm⟩
      · split at hx
        · rename_i h; right; right; simp at hx; exact ⟨h.symm, hx.symm⟩
        · simp at hx
  have he : ∀ c : Char, c ∈ ['z', 'x'] → ∀ v, Spec.Entry [c] (eqText (fun _ => ['1']) [c] v) := by
    intro c hc v
    simp only [List.mem_cons, List.not_mem_nil, or_false] at hc
    rcases hc with rfl | rfl <;>
      exact entry_value (v := ['1']) (by decide) (by decide) (by decide) (by decide) (by decide) (by decide)
  rcases hk with ⟨rfl, rfl⟩ | ⟨rfl, rfl⟩ | ⟨rfl, rfl⟩
  · refine ⟨by decide, fun a _ => ⟨sample3_wf.2.2 _, he 'z' (by simp) _, ?_⟩⟩
    intro data hd
    have : [7, 8] = data := by
      have : some (Val.arr [2] [7, 8]) = some (.arr [data.length] data) := hd
      simp only [Option.some.injEq, Val.arr.injEq] at this
      exact this.2
    subst this
    refine ⟨1, rfl, ?_⟩
    intro n hn
    rcases n with _ | _ | n <;> simp at hn ⊢
  · refine ⟨by decide, fun a _ => ⟨sample3_wf.2.2 _, he 'x' (by simp) _, ?_⟩⟩
    intro data hd
    have : [1, 2] = data := by
      have : some (Val.arr [2] [1, 2]) = some (.arr [data.length] data) := hd
      simp only [Option.some.injEq, Val.arr.injEq] at this
      exact this.2
    subst this
    refine ⟨0, rfl, ?_⟩
    intro n hn
    rcases n with _ | _ | n <;> simp at hn ⊢
  · refine ⟨by decide, fun a ha => ?_⟩
    have : sample3.axis ['u'] = none := rfl
    rw [this] at ha; simp at ha

/-- The hypotheses of `C18_sliced_partial` hold of p(x,y,u=1|z) at z = 8 and x = 1 (and a
value for the scalar u). -/
example : ∃ r, sample3.call (fun _ => ['1']) (Spec.scalars [(['z'], 8), (['x'], 1), (['u'], 2)]) false = .ok r ∧
    r.WF (fun _ => ['1']) ∧ Spec.Sliced sample3 [(['z'], 8), (['x'], 1), (['u'], 2)] r :=
  C18_sliced_partial _ _ _ sample3_wf.1 sample3_pos sample3_wf.2.1 sample3_given

theorem Spec.Given.sub {fmt : Val → Str} {d : PD} {A B : Dict Str ℚ} (h : Spec.Given fmt d B)
    (hs : ∀ k x, Dict.get? A k = some x → Dict.get? B k = some x) : Spec.Given fmt d A :=
  fun k x hx => h k x (hs k x hx)

example : ∃ rA rB rAB rBA r, sample3.call (fun _ => ['1']) (Spec.scalars [(['z'], 8)]) false = .ok rA ∧
      rA.call (fun _ => ['1']) (Spec.scalars [(['x'], 1)]) false = .ok rAB ∧
      sample3.call (fun _ => ['1']) (Spec.scalars [(['x'], 1)]) false = .ok rB ∧
      rB.call (fun _ => ['1']) (Spec.scalars [(['z'], 8)]) false = .ok rBA ∧
      sample3.call (fun _ => ['1']) (Spec.scalars [(['z'], 8), (['x'], 1)]) false = .ok r ∧
      Spec.Sliced sample3 [(['z'], 8), (['x'], 1)] r ∧ Spec.Same rAB r ∧ Spec.Same rBA r :=
  C18_stages_partial _ _ [(['z'], 8)] [(['x'], 1)] sample3_wf.1 sample3_pos sample3_wf.2.1
    (sample3_given.sub (by
      intro k x hx; simp only [Dict.get?] at hx ⊢; split at hx
      · rename_i h; rw [if_pos h]; exact hx
      · simp at hx))
    (sample3_given.sub (by
      intro k x hx; simp only [Dict.get?] at hx ⊢; split at hx
      · rename_i h; subst h; exact hx
      · simp at hx)) (by decide)

/-- A value given for a scalar variable is ignored, whether it is the variable's or
not: p(x,y,u=1|z) at u = 2 is p(x,y,u=1|z), with all its entries. -/
theorem C18_absent_claim_fails : ¬ C18_absent_claim := by
  intro hc
  have hg : Spec.Given (fun _ => ['1']) sample3 [(['u'], 2)] := sample3_given.sub (by
      intro k x hx; simp only [Dict.get?] at hx ⊢; split at hx
      · rename_i h; subst h; exact hx
      · simp at hx)
  obtain ⟨r, h1, _, h3⟩ := C18_sliced_partial _ _ _ sample3_wf.1 sample3_pos sample3_wf.2.1 hg
  have h4 := hc _ _ r _ ['u'] 2 sample3_wf.1 sample3_pos sample3_wf.2.1 sample3_wf.2.2 rfl (by
    have hu : sample3.values ['u'] = some (.scalar 1) := rfl
    rintro (h | ⟨_, _, h, _⟩)
    · rw [hu] at h; simp at h
    · rw [hu] at h; simp at h) h1
  obtain ⟨j, ⟨hj, _⟩, _⟩ := h3.onto [0, 0, 0] (by decide) (by
    intro k x a data hx ha
    simp only [Dict.get?] at hx
    split at hx
    · rename_i h
      subst h
      have : sample3.axis ['u'] = none := rfl
      rw [this] at ha; simp at ha
    · simp at hx)
  rw [h4] at hj
  simp at hj

/-- The hypotheses of `C18_absent_partial` hold: p(x) has no entry at x = 3. -/
example (r : PD) (keepdims : Bool) (hr : sample1.call (fun _ => []) [(['x'], .scalar 3)] keepdims = .ok r) :
    0 ∈ r.shape ∧ idx r.prob.shape = ∅ :=
  C18_absent_partial _ sample1 r _ keepdims (sample1_wf _) ['x'] 3 [1, 2] rfl rfl rfl (by decide)
    (by intro k' hk' _; simpa [Dict.keys] using hk') hr

/-- and that call succeeds. -/
example : ∃ r, sample1.call (fun _ => []) [(['x'], .scalar 3)] false = .ok r ∧ r.shape = [0] := by
  let r : PD := ⟨['x'], [(['x'], ['x'])], [],
   ⟨[(['x'], .arr [0] [])], [(['x'], some 0)], 1, [0], [0], 0, [false], false⟩,
   ⟨[0], fun j => sample1.prob.get (sourceIx 0 [.empty] j)⟩, .lin 1⟩
  have hst : evalPscale sample1.pscale.spec = .ok (.lin 1) := by
    simp [sample1, PScale.spec, evalPscale_one]
  have hloop : sample1.vals.foldlM (callStep (fun _ => []) sample1 [(['x'], .scalar 3)] false)
      ⟨sample1.marg, sample1.cond, sample1.dims, sample1.vals, List.replicate sample1.ndim .all, 0⟩ =
      .ok ⟨[(['x'], ['x', '='])], [], [(['x'], some 0)], [(['x'], .arr [0] [])], [.empty], 0⟩ := rfl
  refine ⟨⟨['x', '='], [(['x'], ['x', '='])], [], r.dist, r.prob, .lin 1⟩, ?_, rfl⟩
  rw [PD.call, if_pos (by decide), hloop]
  simp only [bind, Except.bind, show sample1.prob.index [.empty] = .ok r.prob from rfl]
  exact (pdInit_eval (mc := ([(['x'], ['x', '='])], [])) (dist := r.dist) (mc' := ([(['x'], ['x', '='])], []))
    (p := .lin 1) rfl rfl rfl hst rfl).trans rfl

/-- With axes out of key order, fixing two variables silently exchanges the axes of
the others: p(a,r,s,b) at r = 3, s = 4 gives the entry of b = 6, a = 1 the value of
b = 5, a = 2. -/
theorem C18_wrong_slice : ∃ r, sample4.call (fun _ => []) (Spec.scalars [(['r'], 3), (['s'], 4)]) false = .ok r ∧
    r.values ['a'] = some (.arr [2] [1, 2]) ∧ r.axis ['a'] = some 1 ∧
    r.values ['b'] = some (.arr [2] [5, 6]) ∧ r.axis ['b'] = some 0 ∧
    sample4.at [0, 0, 1, 0] = 2 / 6 ∧ r.at [1, 0] = 1 / 6 ∧
    ¬ Spec.Sliced sample4 [(['r'], 3), (['s'], 4)] r := by
  let r : PD := ⟨['a', ',', 'r', '=', ',', 's', '=', ',', 'b'],
   [(['a'], ['a']), (['r'], ['r', '=']), (['s'], ['s', '=']), (['b'], ['b'])], [],
   ⟨[(['a'], .arr [1, 2] [1, 2]), (['r'], .scalar 3), (['s'], .scalar 4), (['b'], .arr [2, 1] [5, 6])],
    [(['a'], some 1), (['r'], none), (['s'], none), (['b'], some 0)], 2, [2, 2], [2, 2], 4,
    [false, true, true, false], false⟩,
   ⟨[2, 2], fun j => sample4.prob.get (sourceIx 0 [.at 0, .all, .all, .at 0] j)⟩, .lin 1⟩
  have hstable : evalPscale sample4.pscale.spec = .ok (.lin 1) := by
    simp [sample4, PScale.spec, evalPscale_one]
  have hloop : sample4.vals.foldlM (callStep (fun _ => []) sample4 (Spec.scalars [(['r'], 3), (['s'], 4)]) false)
      ⟨sample4.marg, sample4.cond, sample4.dims, sample4.vals, List.replicate sample4.ndim .all, 0⟩ =
      .ok ⟨r.marg, [], r.dims, [(['a'], .arr [1, 2, 1, 1] [1, 2]), (['r'], .scalar 3), (['s'], .scalar 4),
        (['b'], .arr [1, 1, 2, 1] [5, 6])], [.at 0, .all, .all, .at 0], 2⟩ := rfl
  have hok : sample4.call (fun _ => []) (Spec.scalars [(['r'], 3), (['s'], 4)]) false = .ok r := by
    rw [PD.call, if_pos (by decide), hloop]
    simp only [bind, Except.bind, show sample4.prob.index [.at 0, .all, .all, .at 0] = .ok r.prob from rfl]
    exact (pdInit_eval (mc := (r.marg, [])) (dist := r.dist) (mc' := (r.marg, [])) (p := .lin 1)
      rfl rfl rfl hstable rfl).trans rfl
  have hat : r.at [1, 0] = 1 / 6 := by
    show Spec.value (.lin 1) (sample4.prob.get [0, 1, 0, 0]) = _
    simp [Spec.value, sample4]
  have hat4 : sample4.at [0, 0, 1, 0] = 2 / 6 := by
    simp [PD.at, Spec.value, sample4]
  refine ⟨r, hok, rfl, rfl, rfl, rfl, hat4, hat, ?_⟩
  intro hS
  have := hS.value [0, 0, 1, 0] (by decide) [1, 0] (by decide) (by
    intro k a b ha hb
    have hk : k = ['a'] ∨ k = ['b'] := by
      by_contra hk
      push Not at hk
      have hn : r.axis k = none := by
        simp only [PD.axis, PD.dims, r, Dict.get?]
        rw [if_neg (Ne.symm hk.1), if_neg (Ne.symm hk.2)]
        split <;> try rfl
        split <;> rfl
      rw [hn] at hb; simp at hb
    rcases hk with rfl | rfl
    · have e1 : sample4.axis ['a'] = some 1 := rfl
      have e2 : r.axis ['a'] = some 1 := rfl
      rw [e1] at ha; rw [e2] at hb
      simp only [Option.some.injEq] at ha hb
      subst ha; subst hb; rfl
    · have e1 : sample4.axis ['b'] = some 2 := rfl
      have e2 : r.axis ['b'] = some 0 := rfl
      rw [e1] at ha; rw [e2] at hb
      simp only [Option.some.injEq] at ha hb
      subst ha; subst hb; rfl) (by
    intro k x a data hx ha hd
    simp only [Dict.get?] at hx
    split at hx
    · rename_i hk
      subst hk
      simp only [Option.some.injEq] at hx
      subst hx
      have e1 : sample4.axis ['r'] = some 0 := rfl
      have e2 : sample4.values ['r'] = some (.arr [1] [3]) := rfl
      rw [e1] at ha; rw [e2] at hd
      simp only [Option.some.injEq, Val.arr.injEq] at ha hd
      rw [← ha, ← hd.2]
      exact ⟨0, rfl, rfl⟩
    · split at hx
      · rename_i hk
        subst hk
        simp only [Option.some.injEq] at hx
        subst hx
        have e1 : sample4.axis ['s'] = some 3 := rfl
        have e2 : sample4.values ['s'] = some (.arr [1] [4]) := rfl
        rw [e1] at ha; rw [e2] at hd
        simp only [Option.some.injEq, Val.arr.injEq] at ha hd
        rw [← ha, ← hd.2]
        exact ⟨0, rfl, rfl⟩
      · simp at hx)
  rw [hat, hat4] at this
  norm_num at this

theorem C18_claim_fails : ¬ C18_claim := by
  intro hc
  obtain ⟨r, h1, _, _, _, _, _, _, h2⟩ := C18_wrong_slice
  have hown : ∀ k, k = ['r'] ∨ k = ['s'] → Spec.OwnAxis sample4 k := by
    intro k hk k' a ha ha'
    have hall : ∀ k' ∈ Dict.keys sample4.dims, ∀ k ∈ [['r'], ['s']], sample4.axis k' = sample4.axis k →
      k' = k := by decide
    refine hall k' (Dict.mem_keys_of_get? (join_eq_some.mp ha')) k (by simpa using hk) (by rw [ha, ha'])
  obtain ⟨r', h3, _, h4⟩ := hc (fun _ => []) sample4 [(['r'], 3), (['s'], 4)] sample4_wf
    (by show ∀ n ∈ [1, 2, 2, 1], 0 < n; decide) (by
      intro k x hx
      simp only [Dict.get?] at hx
      split at hx
      · rename_i hk
        subst hk
        refine ⟨by decide, fun a _ => ⟨hown _ (Or.inl rfl),
          entry_value (v := []) (by decide) (by decide) (by decide) (by decide) (by decide) (by decide), ?_⟩⟩
        intro data hd
        simp only [Option.some.injEq] at hx
        subst hx
        have e2 : sample4.values ['r'] = some (.arr [1] [3]) := rfl
        rw [e2] at hd
        simp only [Option.some.injEq, Val.arr.injEq] at hd
        rw [← hd.2]
        refine ⟨0, rfl, ?_⟩
        intro n hn
        rcases n with _ | n <;> simp at hn ⊢
      · split at hx
        · rename_i hk
          subst hk
          refine ⟨by decide, fun a _ => ⟨hown _ (Or.inr rfl),
            entry_value (v := []) (by decide) (by decide) (by decide) (by decide) (by decide) (by decide), ?_⟩⟩
          intro data hd
          simp only [Option.some.injEq] at hx
          subst hx
          have e2 : sample4.values ['s'] = some (.arr [1] [4]) := rfl
          rw [e2] at hd
          simp only [Option.some.injEq, Val.arr.injEq] at hd
          rw [← hd.2]
          refine ⟨0, rfl, ?_⟩
          intro n hn
          rcases n with _ | n <;> simp at hn ⊢
        · simp at hx)
  rw [h1] at h3
  simp only [Except.ok.injEq] at h3
  subst h3
  exact h2 h4

/-- Unknown variables are refused. -/
theorem C18_unknown (fmt : Val → Str) (d : PD) (values : Dict Str Val) (keepdims : Bool) (k : Str)
    (hk : k ∈ values.keys) (hd : k ∉ d.keylist) : Raises (d.call fmt values keepdims) := by
  refine ⟨.type, ?_⟩
  rw [PD.call, if_neg]
  rw [List.all_eq_true]
  intro hc
  exact hd (by simpa using hc k hk)

end Probayes
