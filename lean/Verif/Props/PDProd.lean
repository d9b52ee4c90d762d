/-
C27 (product along axes).
-/
import Verif.Lemmas.PDDrop
import Verif.Props.PDSort
import Mathlib.Algebra.BigOperators.GroupWithZero.Finset

namespace Probayes

open Classical in
/-- The product of the probabilities of all entries of `d` compatible with entry
`j` of `r`: those with the same position for every array variable of `r`. -/
noncomputable def Spec.prodAt (d r : PD) (j : List ℕ) : ℝ :=
  ∏ i ∈ (idx d.shape).filter (fun i => Spec.Agree d r i j), d.at i

/-- `r` is `d` with the variables `keys` replaced by their numbers of values, up
to the probabilities. -/
structure Spec.Counted (d : PD) (keys : List Str) (r : PD) : Prop where
  keylist : r.keylist = d.keylist
  marg : r.marg.keys = d.marg.keys
  cond : r.cond = d.cond
  /-- the keys become scalars holding their number of values -/
  counts : ∀ k ∈ keys, r.axis k = none ∧
    ∃ data, d.values k = some (.arr [data.length] data) ∧ r.values k = some (.setint data.length)
  kept : ∀ k ∉ keys, r.values k = d.values k ∧ (r.axis k).isSome = (d.axis k).isSome
  order : ∀ k k' a a' b b', d.axis k = some a → d.axis k' = some a' → r.axis k = some b →
    r.axis k' = some b' → (b < b' ↔ a < a')
  unique : ∀ i ∈ idx d.shape, ∃! j, j ∈ idx r.shape ∧ Spec.Agree d r i j
  onto : ∀ j ∈ idx r.shape, ∃ i ∈ idx d.shape, Spec.Agree d r i j

/-- C27 as intended: at every entry the product of the represented probabilities. -/
def C27_claim : Prop :=
  ∀ (fmt : Val → Str) (d : PD) (keys : List Str), d.WF fmt → d.Pos → Spec.Valid d.pscale →
    (∀ k ∈ keys, k ∈ d.marg.keys ∧ (d.axis k).isSome) →
    (∀ k ∈ keys, ∀ k', d.axis k' = d.axis k → k' ∈ keys) →
    (∀ k ∈ keys, ∀ n : ℕ, Spec.Entry k (eqText fmt k (.setint n))) → Spec.Ordered d →
    ∃ r, d.prod fmt keys = .ok r ∧ r.WF fmt ∧ Spec.Counted d keys r ∧
      ∀ j ∈ idx r.shape, r.at j = Spec.prodAt d r j

theorem entry_key {k v : Str} (h : Spec.Entry k (k ++ '=' :: v)) : k ≠ [] ∧ '=' ∉ k := by
  rcases h.key with ⟨_, h1, h2⟩ | ⟨h1, _⟩
  · exact ⟨h1, h2⟩
  · have := congrArg List.length h1
    simp at this

theorem entry_append {k v w : Str} (h : Spec.Entry k (k ++ '=' :: v))
    (hw : ',' ∉ w ∧ '|' ∉ w ∧ '(' ∉ w ∧ ')' ∉ w) : Spec.Entry k (k ++ '=' :: w) := by
  obtain ⟨h1, h2⟩ := entry_key h
  have hc := h.comma; have hb := h.bar; have hl := h.lparen; have hr := h.rparen
  simp only [List.mem_append, List.mem_cons, not_or] at hc hb hl hr
  refine ⟨by simp, ?_, ?_, ?_, ?_, Or.inl ⟨⟨w, rfl⟩, h1, h2⟩⟩
  all_goals simp only [List.mem_append, List.mem_cons, not_or]
  · exact ⟨hc.1, hc.2.1, hw.1⟩
  · exact ⟨hb.1, hb.2.1, hw.2.1⟩
  · exact ⟨hl.1, hl.2.1, hw.2.2.1⟩
  · exact ⟨hr.1, hr.2.1, hw.2.2.2⟩

/-- Number of values of a key. -/
def PD.count (d : PD) (k : Str) : ℕ :=
  match Dict.get? d.vals k with
  | some (.arr _ data) => data.length
  | _ => 0

/-- The value after `prod`. -/
def prodVal (d : PD) (keys : List Str) (k : Str) (v : Val) : Val :=
  if k ∈ keys then .setint (d.count k) else v

/-- Invariant of the loop of `prod`. -/
structure ProdInv (d : PD) (keys : List Str) (p : ℕ → Bool) (pre : Dict Str Val) (st : ProdState) :
    Prop where
  margKeys : Dict.keys st.marg = Dict.keys d.marg
  marg : ∀ k, Dict.get? st.marg k =
    if k ∈ keys ∧ k ∈ Dict.keys pre then some (k ++ "={}".toList) else Dict.get? d.marg k
  vals : st.vals = pre.map fun kv => (kv.1, prodVal d keys kv.1 kv.2)
  dimsNodup : (Dict.keys st.dims).Nodup
  dimsKeys : ∀ k ∈ Dict.keys st.dims, k ∈ Dict.keys pre
  dims : ∀ k, k ∈ Dict.keys pre → (Dict.get? st.dims k).join =
      (d.axis k).bind fun a => if p a then none else some (a - dropped p a)
  delta : st.delta = st.axes.length
  axesNodup : st.axes.Nodup
  axes : ∀ b, b ∈ st.axes ↔ p b = true ∧ ∃ k' ∈ Dict.keys pre, d.axis k' = some b

theorem prodLoop (fmt : Val → Str) (d : PD) (keys : List Str) (h : d.WF fmt)
    (hkeys : ∀ k ∈ keys, k ∈ d.marg.keys ∧ (d.axis k).isSome) (hord : Spec.Ordered d) (p : ℕ → Bool)
    (hp : ∀ k a, d.axis k = some a → (p a = true ↔ k ∈ keys)) :
    ∃ st, d.vals.foldlM (prodStep d keys) ⟨d.marg, [], [], 0, []⟩ = .ok st ∧
      ProdInv d keys p d.vals st := by
  apply foldlM_prefix
  · exact ⟨rfl, by simp, rfl, by simp, by simp, by simp, rfl, by simp, by simp⟩
  · rintro pre ⟨k, v⟩ post st hl hI
    have hkl : Dict.keys d.vals = Dict.keys pre ++ k :: Dict.keys post := by
      rw [hl, Dict.keys_append]; rfl
    have hnd := h.nodup
    rw [hkl] at hnd
    have hkpre : k ∉ Dict.keys pre := by
      rw [List.nodup_append] at hnd
      intro hc
      exact hnd.2.2 k hc k (by simp) rfl
    have hv : Dict.get? d.vals k = some v :=
      Dict.get?_of_mem h.nodup (by rw [hl]; simp)
    have hkd : k ∉ Dict.keys st.dims := fun hc => hkpre (hI.dimsKeys k hc)
    have hkp : ∀ k', k' ∈ Dict.keys (pre ++ [(k, v)]) ↔ k' ∈ Dict.keys pre ∨ k' = k := by
      intro k'; rw [Dict.keys_append]; simp
    by_cases hk : k ∈ keys
    · obtain ⟨hkm, hax⟩ := hkeys k hk
      obtain ⟨a, ha⟩ := Option.isSome_iff_exists.mp hax
      obtain ⟨s, data, e1, e2, e3, e4, e5⟩ := h.axis_some ha
      rw [hv] at e1
      simp only [Option.some.injEq] at e1
      subst e1
      obtain ⟨m, s, rfl⟩ := List.exists_cons_of_ne_nil e2
      have hpa : p a = true := (hp k a ha).mpr hk
      have hcount : d.count k = data.length := by simp [PD.count, hv]
      have hkm' : k ∈ Dict.keys st.marg := by rw [hI.margKeys]; exact hkm
      refine ⟨⟨Dict.set st.marg k (k ++ "={}".toList), st.vals ++ [(k, .setint data.length)], st.dims,
          if !decide (a ∈ st.axes) then st.delta + 1 else st.delta,
          if !decide (a ∈ st.axes) then st.axes ++ [a] else st.axes⟩,
        by simp only [prodStep, hk, if_true, dimOf, e5, bind, Except.bind, pure, Except.pure], ?_⟩
      refine ⟨?_, ?_, ?_, hI.dimsNodup, ?_, ?_, ?_, ?_, ?_⟩
      · show Dict.keys (Dict.set st.marg k _) = _
        rw [Dict.keys_set_of_mem hkm', hI.margKeys]
      · intro k'
        show Dict.get? (Dict.set st.marg k _) k' = _
        rw [Dict.get?_set, hI.marg]
        simp only [hkp]
        by_cases hkk : k = k'
        · subst hkk; simp [hk]
        · have : k' ≠ k := fun hh => hkk hh.symm
          simp [hkk, this]
      · show st.vals ++ _ = _
        rw [hI.vals, List.map_append]
        simp [prodVal, hk, hcount]
      · intro k' hk'
        rw [hkp]; exact Or.inl (hI.dimsKeys k' hk')
      · intro k' hk'
        rw [hkp] at hk'
        rcases hk' with hk' | rfl
        · exact hI.dims k' hk'
        · show (Dict.get? st.dims k').join = _
          rw [Dict.get?_eq_none.mpr hkd, ha]; simp [hpa]
      · show (if _ then st.delta + 1 else st.delta) = (if _ then st.axes ++ [a] else st.axes).length
        rw [hI.delta]
        by_cases haa : a ∈ st.axes <;> simp [haa]
      · show (if _ then st.axes ++ [a] else st.axes).Nodup
        by_cases haa : a ∈ st.axes
        · simpa [haa] using hI.axesNodup
        · simp only [haa, decide_false, Bool.not_false, if_true]
          rw [List.nodup_append]
          refine ⟨hI.axesNodup, by simp, ?_⟩
          intro x hx y hy
          simp only [List.mem_singleton] at hy
          subst hy
          rintro rfl; exact haa hx
      · intro b
        have e : b ∈ (if (!decide (a ∈ st.axes)) = true then st.axes ++ [a] else st.axes) ↔
            b ∈ st.axes ∨ b = a := by
          by_cases haa : a ∈ st.axes
          · simp only [haa, decide_true, Bool.not_true, Bool.false_eq_true, if_false]
            constructor
            · exact Or.inl
            · rintro (h1 | rfl)
              · exact h1
              · exact haa
          · simp [haa]
        show b ∈ (if (!decide (a ∈ st.axes)) = true then st.axes ++ [a] else st.axes) ↔ _
        rw [e, hI.axes]
        constructor
        · rintro (⟨h1, k', h2, h3⟩ | rfl)
          · exact ⟨h1, k', (hkp k').mpr (Or.inl h2), h3⟩
          · exact ⟨hpa, k, (hkp k).mpr (Or.inr rfl), ha⟩
        · rintro ⟨h1, k', h2, h3⟩
          rcases (hkp k').mp h2 with h2 | rfl
          · exact Or.inl ⟨h1, k', h2, h3⟩
          · rw [ha] at h3; simp only [Option.some.injEq] at h3; exact Or.inr h3.symm
    · have hmarg : ∀ k', (k' ∈ keys ∧ k' ∈ Dict.keys (pre ++ [(k, v)])) ↔
          (k' ∈ keys ∧ k' ∈ Dict.keys pre) := by
        intro k'
        rw [hkp]
        constructor
        · rintro ⟨h1, h2 | rfl⟩
          · exact ⟨h1, h2⟩
          · exact absurd h1 hk
        · rintro ⟨h1, h2⟩; exact ⟨h1, Or.inl h2⟩
      have haxes : ∀ b, (p b = true ∧ ∃ k' ∈ Dict.keys (pre ++ [(k, v)]), d.axis k' = some b) ↔
          (p b = true ∧ ∃ k' ∈ Dict.keys pre, d.axis k' = some b) := by
        intro b
        constructor
        · rintro ⟨h1, k', h2, h3⟩
          rcases (hkp k').mp h2 with h2 | rfl
          · exact ⟨h1, k', h2, h3⟩
          · exact absurd ((hp k' b h3).mp h1) hk
        · rintro ⟨h1, k', h2, h3⟩; exact ⟨h1, k', (hkp k').mpr (Or.inl h2), h3⟩
      rcases hs : v.issingleton with _ | _
      · obtain ⟨a, ha⟩ := h.axis_isSome hv hs
        obtain ⟨_, _, _, _, _, _, e5⟩ := h.axis_some ha
        have hpa : p a = false := by
          by_contra hc
          exact hk ((hp k a ha).mp (by simpa using hc))
        have hdel : st.delta = dropped p a := by
          rw [hI.delta]
          exact prefix_dropped h hl hord hI.axesNodup hI.axes ha hpa
        have hle := dropped_le p a
        refine ⟨⟨st.marg, st.vals ++ [(k, v)], Dict.set st.dims k (some (a - st.delta)), st.delta, st.axes⟩,
          by simp [prodStep, hk, hs, dimOf, e5, shiftDim, hdel, hle, bind, Except.bind, pure, Except.pure],
          ?_⟩
        refine ⟨hI.margKeys, ?_, ?_, Dict.nodup_set hI.dimsNodup, ?_, ?_, hI.delta, hI.axesNodup, ?_⟩
        · intro k'
          simp only [hmarg]; exact hI.marg k'
        · show st.vals ++ _ = _
          rw [hI.vals, List.map_append]
          simp [prodVal, hk]
        · intro k' hk'
          have hk'' : k' ∈ Dict.keys (Dict.set st.dims k (some (a - st.delta))) := hk'
          rw [Dict.set_of_notMem hkd, Dict.keys_append] at hk''
          rw [hkp]
          rcases List.mem_append.mp hk'' with h1 | h1
          · exact Or.inl (hI.dimsKeys k' h1)
          · right; simpa [Dict.keys] using h1
        · intro k' hk'
          show (Dict.get? (Dict.set st.dims k (some (a - st.delta))) k').join = _
          rw [Dict.get?_set]
          rw [hkp] at hk'
          by_cases hkk : k = k'
          · subst hkk
            rw [if_pos rfl, ha, hdel]; simp [hpa]
          · rw [if_neg hkk]
            exact hI.dims k' (hk'.resolve_right fun hh => hkk hh.symm)
        · intro b; rw [haxes]; exact hI.axes b
      · refine ⟨⟨st.marg, st.vals ++ [(k, v)], st.dims, st.delta, st.axes⟩,
          by simp [prodStep, hk, hs], ?_⟩
        refine ⟨hI.margKeys, ?_, ?_, hI.dimsNodup, ?_, ?_, hI.delta, hI.axesNodup, ?_⟩
        · intro k'
          simp only [hmarg]; exact hI.marg k'
        · show st.vals ++ _ = _
          rw [hI.vals, List.map_append]
          simp [prodVal, hk]
        · intro k' hk'
          rw [hkp]; exact Or.inl (hI.dimsKeys k' hk')
        · intro k' hk'
          rw [hkp] at hk'
          rcases hk' with hk' | rfl
          · exact hI.dims k' hk'
          · show (Dict.get? st.dims k').join = _
            rw [Dict.get?_eq_none.mpr hkd, h.axis_none hv hs]; rfl
        · intro b; rw [haxes]; exact hI.axes b

/-- `prod` up to the probabilities. -/
theorem prod_core (fmt : Val → Str) (d : PD) (keys : List Str) (h : d.WF fmt) (hpos : d.Pos)
    (hkeys : ∀ k ∈ keys, k ∈ d.marg.keys ∧ (d.axis k).isSome)
    (hcl : ∀ k ∈ keys, ∀ k', d.axis k' = d.axis k → k' ∈ keys)
    (hfmt : ∀ k ∈ keys, ∀ n : ℕ, Spec.Entry k (eqText fmt k (.setint n))) (hord : Spec.Ordered d)
    (hs : ∀ n : ℕ, evalPscale (prodScale d.pscale n).spec = .ok (prodScale d.pscale n)) :
    ∃ (r : PD) (p : ℕ → Bool) (axes : List ℕ), d.prod fmt keys = .ok r ∧ r.WF fmt ∧
      Spec.Counted d keys r ∧ Dropped d r p ∧
      (∀ b, p b = decide (b ∈ axes)) ∧ axes.Nodup ∧ (∀ b ∈ axes, b < d.ndim) ∧
      r.pscale = prodScale d.pscale ((axes.map (d.shape.getD · 0)).prod) ∧
      r.prob.get = fun j => if d.pscale.iscomplex then
          ∑ i ∈ (idx d.shape).filter (fun i => dropAxes p i = j), d.prob.get i
        else ∏ i ∈ (idx d.shape).filter (fun i => dropAxes p i = j), d.prob.get i := by
  set p0 : ℕ → Bool := fun b => keys.any fun k => decide (d.axis k = some b) with hp0
  have hp : ∀ k a, d.axis k = some a → (p0 a = true ↔ k ∈ keys) := by
    intro k a ha
    simp only [hp0, List.any_eq_true, decide_eq_true_eq]
    constructor
    · rintro ⟨k', h1, h2⟩; exact hcl k' h1 k (by rw [ha, h2])
    · intro hk; exact ⟨k, hk, ha⟩
  obtain ⟨st, g1, hI⟩ := prodLoop fmt d keys h hkeys hord p0 hp
  set p : ℕ → Bool := fun b => decide (b ∈ st.axes) with hpdef
  have hpp : p = p0 := by
    funext b
    rw [hpdef]
    by_cases hb : p0 b = true
    · rw [hb]
      simp only [decide_eq_true_eq]
      rw [hI.axes]
      refine ⟨hb, ?_⟩
      simp only [hp0, List.any_eq_true, decide_eq_true_eq] at hb
      obtain ⟨k, h1, h2⟩ := hb
      exact ⟨k, (h.keys k).mpr (Or.inl (hkeys k h1).1), h2⟩
    · have hb' : p0 b = false := by simpa using hb
      rw [hb']
      simp only [decide_eq_false_iff_not]
      intro hc
      exact hb ((hI.axes b).mp hc).1
  rw [← hpp] at hI hp
  have hcase : ∀ k, k ∈ keys ↔ ∃ a, d.axis k = some a ∧ p a = true := by
    intro k
    constructor
    · intro hk
      obtain ⟨a, ha⟩ := Option.isSome_iff_exists.mp (hkeys k hk).2
      exact ⟨a, ha, (hp k a ha).mpr hk⟩
    · rintro ⟨a, ha, hpa⟩; exact (hp k a ha).mp hpa
  have hgv : ∀ k, Dict.get? st.vals k = (Dict.get? d.vals k).map (prodVal d keys k) := by
    intro k; rw [hI.vals]; exact Dict.get?_map (fun k v => prodVal d keys k v) _ _
  set marg' : Dict Str Str := d.marg.map fun kv =>
    (kv.1, if kv.1 ∈ keys then eqText fmt kv.1 (.setint (d.count kv.1)) else kv.2) with hm'
  have hgm : ∀ k, Dict.get? marg' k = (Dict.get? d.marg k).map fun t =>
      if k ∈ keys then eqText fmt k (.setint (d.count k)) else t := by
    intro k
    exact Dict.get?_map (fun k t => if k ∈ keys then eqText fmt k (.setint (d.count k)) else t) _ _
  have hmk : Dict.keys marg' = Dict.keys d.marg :=
    Dict.keys_map (fun k t => if k ∈ keys then eqText fmt k (.setint (d.count k)) else t) _
  have hside : Spec.Side marg' := by
    refine ⟨by show (Dict.keys marg').Nodup; rw [hmk]; exact h.margSide.1, ?_⟩
    intro kv hkv
    obtain ⟨⟨k, t⟩, hkt, rfl⟩ := List.mem_map.mp hkv
    simp only
    split
    · rename_i hk; exact hfmt k hk _
    · exact h.margSide.2 _ hkt
  have hbuild : BuildArgs fmt marg' d.cond st.vals st.dims (dropAxes p d.shape) := by
    refine dropBuild h hpos p ?_ hmk rfl hside h.condSide hI.dimsNodup hI.dimsKeys ?_ ?_ ?_
    · rw [hI.vals]; exact Dict.keys_map (fun k v => prodVal d keys k v) _
    · intro k
      by_cases hk : k ∈ Dict.keys d.vals
      · exact hI.dims k hk
      · have h1 : Dict.get? st.dims k = none := Dict.get?_eq_none.mpr fun hc => hk (hI.dimsKeys k hc)
        have h2 : d.axis k = none := by
          rcases ha : d.axis k with _ | a
          · rfl
          · exact absurd (h.dimKeys k (Dict.mem_keys_of_get? (join_eq_some.mp ha))) hk
        rw [h1, h2]; rfl
    · intro k hk
      have hkk : k ∉ keys := by
        intro hc
        obtain ⟨a, ha, hpa⟩ := (hcase k).mp hc
        rw [hk a ha] at hpa; simp at hpa
      rw [hgv, hgm]
      refine ⟨?_, ?_, rfl⟩
      · rcases Dict.get? d.vals k with _ | v <;> simp [prodVal, hkk]
      · rcases Dict.get? d.marg k with _ | t <;> simp [hkk]
    · intro k a ha hpa
      have hk : k ∈ keys := (hp k a ha).mp hpa
      obtain ⟨s, data, e1, _⟩ := h.axis_some ha
      refine ⟨.setint (d.count k), by rw [hgv, e1]; simp [prodVal, hk], rfl, Or.inl ?_⟩
      obtain ⟨t, ht⟩ := Dict.get?_of_mem_keys (hkeys k hk).1
      rw [hgm, ht]; simp [hk]
  set Q : Arr := ⟨dropAxes p d.shape, fun j => if d.pscale.iscomplex then
          ∑ i ∈ (idx d.shape).filter (fun i => dropAxes p i = j), d.prob.get i
        else ∏ i ∈ (idx d.shape).filter (fun i => dropAxes p i = j), d.prob.get i⟩ with hQ
  have haxlt : ∀ b ∈ st.axes, b < d.ndim := by
    intro b hb
    obtain ⟨_, k, _, hk⟩ := (hI.axes b).mp hb
    exact h.axis_lt hk
  have hall : st.axes.all (· < d.shape.length) = true := by
    rw [List.all_eq_true]
    intro b hb
    simpa [h.rank] using haxlt b hb
  have hprob : (if d.pscale.iscomplex then sumAxes st.axes d.prob else prodAxes st.axes d.prob) = .ok Q := by
    by_cases hc : d.pscale.iscomplex = true
    · simp only [hc, if_true, sumAxes, h.probShape, hall, hQ]; rfl
    · simp only [hc, Bool.false_eq_true, if_false, prodAxes, h.probShape, hall, if_true, hQ]; rfl
  obtain ⟨r, b1, b2, b3, b4, b5, b6, b7, b8, b9⟩ := pdInit_ok hbuild Q rfl
    (prodScale d.pscale ((st.axes.map (d.shape.getD · 0)).prod)).spec _ (hs _)
  have hname := pdInit_named hbuild (m := st.marg) (c := d.cond) (by
      refine ⟨by show (Dict.keys st.marg).Nodup; rw [hI.margKeys]; exact h.margSide.1, ?_⟩
      rintro ⟨k, t⟩ hkt
      have hg := Dict.get?_of_mem (by show (Dict.keys st.marg).Nodup; rw [hI.margKeys]; exact h.margSide.1) hkt
      rw [hI.marg] at hg
      split at hg
      · rename_i hk
        simp only [Option.some.injEq] at hg
        subst hg
        exact entry_append (hfmt k hk.1 0) (by decide)
      · exact h.margSide.2 _ (Dict.get?_mem hg)) h.condSide (by rw [hI.margKeys, hmk]) rfl (by
      intro k v hv hs
      refine ⟨?_, rfl⟩
      have hkk : k ∉ keys := by
        intro hk
        rw [hgv] at hv
        obtain ⟨u, hu, rfl⟩ := Option.map_eq_some_iff.mp hv
        simp [prodVal, hk, Val.issingleton] at hs
      rw [hI.marg, hgm]
      simp [hkk]) Q (prodScale d.pscale ((st.axes.map (d.shape.getD · 0)).prod)).spec
  have hdrop : Dropped d r p := by
    refine ⟨b7, fun k => ?_⟩
    rw [b6]
    by_cases hk : k ∈ Dict.keys d.vals
    · exact hI.dims k hk
    · have h1 : Dict.get? st.dims k = none := Dict.get?_eq_none.mpr fun hc => hk (hI.dimsKeys k hc)
      have h2 : d.axis k = none := by
        rcases ha : d.axis k with _ | a
        · rfl
        · exact absurd (h.dimKeys k (Dict.mem_keys_of_get? (join_eq_some.mp ha))) hk
      rw [h1, h2]; rfl
  refine ⟨r, p, st.axes, ?_, b2, ⟨?_, by rw [b3, ← hmk], b4, ?_, ?_, hdrop.order, hdrop.unique h,
    hdrop.onto h hpos⟩, hdrop, fun b => rfl, hI.axesNodup, haxlt, b9, by rw [b8]⟩
  · have hall : keys.all (· ∈ d.marg.keys) = true := by
      rw [List.all_eq_true]; intro k hk; simpa using (hkeys k hk).1
    rw [PD.prod, if_pos hall]
    simp only [g1, hprob, hname, b1, bind, Except.bind]
  · show Dict.keys r.vals = Dict.keys d.vals
    rw [b5, Dict.keys_map, hI.vals]
    exact Dict.keys_map (fun k v => prodVal d keys k v) _
  · intro k hk
    obtain ⟨a, ha, hpa⟩ := (hcase k).mp hk
    refine ⟨by rw [hdrop.axis, ha]; simp [hpa], ?_⟩
    obtain ⟨s, data, e1, e2, _⟩ := h.axis_some ha
    obtain ⟨m, s, rfl⟩ := List.exists_cons_of_ne_nil e2
    refine ⟨data, by simp [PD.values, e1, Val.flat], ?_⟩
    rw [hbuild.values b5, hgv, e1]
    simp [prodVal, hk, Val.flat, PD.count, e1]
  · intro k hk
    constructor
    · rw [hbuild.values b5, hgv]
      unfold PD.values
      rcases Dict.get? d.vals k with _ | v
      · rfl
      · simp [prodVal, hk]
    · rw [hdrop.axis]
      rcases ha : d.axis k with _ | a
      · rfl
      · have : p a = false := by
          by_contra hc
          exact hk ((hp k a ha).mp (by simpa using hc))
        simp [this]

theorem Dropped.filter_agree {fmt : Val → Str} {d r : PD} {p : ℕ → Bool} (hd : Dropped d r p) (h : d.WF fmt)
    [∀ j, DecidablePred fun i => Spec.Agree d r i j] {j : List ℕ} (hj : j ∈ idx r.shape) :
    (idx d.shape).filter (fun i => dropAxes p i = j) =
      (idx d.shape).filter (fun i => Spec.Agree d r i j) := by
  ext i
  simp only [Finset.mem_filter, and_congr_right_iff]
  intro hi
  exact (hd.agree h hi hj).symm

/-- C27, proved part: on the scales 1 and `'log'`, `prod(keys)` gives at every
entry the product of the represented probabilities over the removed axes. -/
theorem C27_prod_partial (fmt : Val → Str) (d : PD) (keys : List Str) (h : d.WF fmt) (hpos : d.Pos)
    (hscale : d.pscale = .lin 1 ∨ d.pscale = complexZero)
    (hkeys : ∀ k ∈ keys, k ∈ d.marg.keys ∧ (d.axis k).isSome)
    (hcl : ∀ k ∈ keys, ∀ k', d.axis k' = d.axis k → k' ∈ keys)
    (hfmt : ∀ k ∈ keys, ∀ n : ℕ, Spec.Entry k (eqText fmt k (.setint n))) (hord : Spec.Ordered d) :
    ∃ r, d.prod fmt keys = .ok r ∧ r.WF fmt ∧ Spec.Counted d keys r ∧ r.pscale = d.pscale ∧
      ∀ j ∈ idx r.shape, r.at j = Spec.prodAt d r j := by
  have hplain : ∀ n, prodScale d.pscale n = d.pscale := by
    intro n
    rcases hscale with h1 | h1 <;> rw [h1] <;> simp [prodScale, PScale.plain, complexZero]
  obtain ⟨r, p, axes, g1, g2, g3, g4, _, _, _, g5, g6⟩ := prod_core fmt d keys h hpos hkeys hcl hfmt hord
    (fun n => by rw [hplain]; exact h.stable)
  rw [hplain] at g5
  refine ⟨r, g1, g2, g3, g5, ?_⟩
  intro j hj
  classical
  rw [PD.at, g5, g6, Spec.prodAt]
  simp only [g4.filter_agree h hj]
  rcases hscale with h1 | h1
  · simp [h1, PScale.iscomplex, Spec.value, PD.at]
  · simp only [h1, PScale.iscomplex, complexZero, if_true, Spec.value, PD.at]
    have : Spec.offset 0 0 = 0 := by simp [Spec.offset]
    simp only [this, add_zero]
    rw [Real.exp_sum]

/-! ### the extra factor on other scales -/

theorem countP_dropAxes (s : List ℕ) : ∀ (p : ℕ → Bool) (j : List ℕ), j ∈ idx (dropAxes p s) →
    (indices s).countP (fun i => decide (dropAxes p i = j)) = (takeAxes p s).prod := by
  induction s with
  | nil =>
    intro p j hj
    simp only [dropAxes_nil, mem_idx, List.forall₂_nil_right_iff] at hj
    subst hj
    simp [indices, takeAxes]
  | cons n s ih =>
    intro p j hj
    rw [indices, List.countP_flatMap]
    by_cases h0 : p 0 = true
    · simp only [dropAxes, h0, if_true] at hj
      have e : ∀ x, (List.map (x :: ·) (indices s)).countP (fun i => decide (dropAxes p i = j)) =
          (takeAxes (fun n => p (n + 1)) s).prod := by
        intro x
        rw [List.countP_map, ← ih _ j hj]
        congr 1
        funext i
        simp [dropAxes, h0]
      simp only [Function.comp_def, e]
      simp [takeAxes, dropAxes, h0]
    · have h0' : p 0 = false := by simpa using h0
      simp only [dropAxes, h0', Bool.false_eq_true, if_false] at hj
      rw [mem_idx] at hj
      cases hj with
      | @cons b _ j' _ hb hj' =>
      have e : ∀ x, (List.map (x :: ·) (indices s)).countP (fun i => decide (dropAxes p i = b :: j')) =
          if x = b then (takeAxes (fun n => p (n + 1)) s).prod else 0 := by
        intro x
        rw [List.countP_map]
        by_cases hx : x = b
        · subst hx
          rw [if_pos rfl, ← ih _ j' (mem_idx.mpr hj')]
          congr 1
          funext i
          simp [dropAxes, h0']
        · rw [if_neg hx, List.countP_eq_zero]
          intro i _
          simp [dropAxes, h0', hx]
      simp only [Function.comp_def, e]
      have : (takeAxes p (n :: s)).prod = (takeAxes (fun n => p (n + 1)) s).prod := by
        simp [takeAxes, dropAxes, h0']
      rw [this]
      show ∑ x ∈ Finset.range n, (if x = b then (takeAxes (fun n => p (n + 1)) s).prod else 0) = _
      rw [Finset.sum_ite_eq', if_pos (Finset.mem_range.mpr hb)]

theorem takeAxes_eq (s : List ℕ) : ∀ p : ℕ → Bool,
    ((List.range s.length).filter p).map (s.getD · 0) = takeAxes p s := by
  induction s with
  | nil => intro p; simp [takeAxes]
  | cons n s ih =>
    intro p
    rw [List.length_cons, List.range_succ_eq_map, List.filter_cons, List.filter_map]
    have := ih fun n => p (n + 1)
    by_cases h0 : p 0 = true
    · simp only [h0, if_true, List.map_cons, List.map_map]
      simp only [takeAxes, dropAxes, h0, Bool.not_true, Bool.false_eq_true, if_false]
      simp only [takeAxes] at this
      rw [← this]
      rfl
    · simp only [h0, Bool.false_eq_true, if_false, List.map_map]
      simp only [takeAxes, dropAxes, h0, Bool.not_false, if_true]
      simp only [takeAxes] at this
      rw [← this]
      rfl

/-- C27 fails on every linear scale but 1: the result is too large by one factor
of the scale. -/
theorem C27_extra_factor (fmt : Val → Str) (d : PD) (keys : List Str) (c : ℝ) (h : d.WF fmt)
    (hpos : d.Pos) (hscale : d.pscale = .lin c) (hc : 0 < c) (hc1 : c ≠ 1)
    (hkeys : ∀ k ∈ keys, k ∈ d.marg.keys ∧ (d.axis k).isSome)
    (hcl : ∀ k ∈ keys, ∀ k', d.axis k' = d.axis k → k' ∈ keys)
    (hfmt : ∀ k ∈ keys, ∀ n : ℕ, Spec.Entry k (eqText fmt k (.setint n))) (hord : Spec.Ordered d) :
    ∃ r, d.prod fmt keys = .ok r ∧ r.WF fmt ∧ Spec.Counted d keys r ∧
      ∀ j ∈ idx r.shape, r.at j = c * Spec.prodAt d r j := by
  have hps : ∀ n, prodScale d.pscale n = .lin (c * c ^ n) := by
    intro n; rw [hscale]; simp [prodScale, PScale.plain, hc.ne', hc1]
  obtain ⟨r, p, axes, g1, g2, g3, g4, ga, gb, gc, g5, g6⟩ := prod_core fmt d keys h hpos hkeys hcl hfmt hord
    (fun n => by
      rw [hps]
      have : c * c ^ n ≠ 0 := mul_ne_zero hc.ne' (pow_ne_zero _ hc.ne')
      by_cases h1 : c * c ^ n = 1
      · simp [evalPscale, PScale.spec, h1]
      · simp [evalPscale, PScale.spec, h1, hc.ne'])
  refine ⟨r, g1, g2, g3, ?_⟩
  intro j hj
  classical
  have hperm : axes.Perm ((List.range d.shape.length).filter p) := by
    rw [List.perm_ext_iff_of_nodup gb (List.nodup_range.filter _)]
    intro b
    rw [List.mem_filter, List.mem_range, ga, decide_eq_true_eq, h.rank]
    exact ⟨fun hb => ⟨gc b hb, hb⟩, fun hb => hb.2⟩
  have hn : (axes.map (d.shape.getD · 0)).prod = (takeAxes p d.shape).prod := by
    rw [(hperm.map _).prod_eq, takeAxes_eq]
  have hcard : ((idx d.shape).filter (fun i => dropAxes p i = j)).card = (takeAxes p d.shape).prod := by
    have e : (idx d.shape).filter (fun i => dropAxes p i = j) =
        ((indices d.shape).filter fun i => decide (dropAxes p i = j)).toFinset := by
      ext i; simp [idx]
    rw [← countP_dropAxes d.shape p j (g4.shape ▸ hj), List.countP_eq_length_filter, e,
      List.toFinset_card_of_nodup ((nodup_indices _).filter _)]
  rw [PD.at, g5, hps, g6, Spec.prodAt, ← g4.filter_agree h hj]
  simp only [hscale, PScale.iscomplex, Bool.false_eq_true, if_false, Spec.value, PD.at]
  rw [Finset.prod_mul_distrib, Finset.prod_const, hcard, hn]
  ring

/-! ### instances -/

/-- Well-formedness does not depend on the probabilities and their scale. -/
theorem PD.WF.withProb {fmt : Val → Str} {d : PD} (h : d.WF fmt) (prob : Arr) (s : PScale)
    (hp : prob.shape = d.shape) (hs : evalPscale s.spec = .ok s) :
    PD.WF fmt ⟨d.name, d.marg, d.cond, d.dist, prob, s⟩ :=
  ⟨h.ne, h.nodup, h.allowed, h.margSide, h.condSide, h.disj, h.keys, h.dimNodup, h.dimKeys, h.single,
    h.array, h.cover, h.rank, h.size, h.are, h.is, hp, hs, h.name⟩

theorem sample_entry (k : Char) (hk : k = 'x' ∨ k = 'y') :
    Spec.Entry [k] (eqText (fun _ => ['1']) [k] (.setint 0)) := by
  rcases hk with rfl | rfl <;>
  exact ⟨by decide, by decide, by decide, by decide, by decide, Or.inl ⟨⟨['1'], rfl⟩, by decide, by decide⟩⟩

theorem sample3_keys : ∀ k ∈ [['x'], ['y']], k ∈ sample3.marg.keys ∧ (sample3.axis k).isSome := by
  intro k hk
  simp only [List.mem_cons, List.not_mem_nil, or_false] at hk
  rcases hk with rfl | rfl <;> exact ⟨by decide, rfl⟩

theorem sample3_closed : ∀ k ∈ [['x'], ['y']], ∀ k', sample3.axis k' = sample3.axis k → k' ∈ [['x'], ['y']] := by
  intro k hk k' he
  obtain ⟨a, ha⟩ := Option.isSome_iff_exists.mp (sample3_keys k hk).2
  rw [sample3_wf.2.2 k k' a ha (he.trans ha)]; exact hk

theorem sample3_fmt : ∀ k ∈ [['x'], ['y']], ∀ n : ℕ,
    Spec.Entry k (eqText (fun _ => ['1']) k (.setint n)) := by
  intro k hk n
  simp only [List.mem_cons, List.not_mem_nil, or_false] at hk
  rcases hk with rfl | rfl
  · exact sample_entry 'x' (by simp)
  · exact sample_entry 'y' (by simp)

/-- The product of p(x,y,u=1|z) over x and y. -/
example : ∃ r, sample3.prod (fun _ => ['1']) [['x'], ['y']] = .ok r ∧
    ∀ j ∈ idx r.shape, r.at j = Spec.prodAt sample3 r j := by
  obtain ⟨r, h1, _, _, _, h2⟩ := C27_prod_partial (fun _ => ['1']) sample3 [['x'], ['y']] sample3_wf.1
    sample3_pos (Or.inl rfl) sample3_keys sample3_closed sample3_fmt sample3_wf.2.1
  exact ⟨r, h1, h2⟩

/-- C27 fails: on scale 2 the result represents twice the product. -/
theorem C27_claim_fails : ¬ C27_claim := by
  intro hcl
  set d : PD := ⟨sample3.name, sample3.marg, sample3.cond, sample3.dist, ⟨[2, 3, 2], fun _ => 1⟩, .lin 2⟩ with hd
  have hst : evalPscale (PScale.lin 2).spec = .ok (.lin 2) := by simp [evalPscale, PScale.spec]
  have hwf : d.WF (fun _ => ['1']) := sample3_wf.1.withProb _ _ rfl hst
  have hpos : d.Pos := sample3_pos
  obtain ⟨r, h1, h2, h3, h4⟩ := hcl (fun _ => ['1']) d [['x'], ['y']] hwf hpos
    (by show (0 : ℝ) < 2; norm_num) sample3_keys sample3_closed sample3_fmt sample3_wf.2.1
  obtain ⟨r', g1, g2, g3, g4⟩ := C27_extra_factor (fun _ => ['1']) d [['x'], ['y']] 2 hwf hpos rfl
    (by norm_num) (by norm_num) sample3_keys sample3_closed sample3_fmt sample3_wf.2.1
  rw [h1] at g1
  simp only [Except.ok.injEq] at g1
  subst g1
  obtain ⟨j, ⟨hj, _⟩, _⟩ := h3.unique [0, 0, 0] (by
    show [0, 0, 0] ∈ idx [2, 3, 2]
    decide)
  have e := (h4 j hj).symm.trans (g4 j hj)
  have hne : Spec.prodAt d r j ≠ 0 := by
    classical
    unfold Spec.prodAt
    rw [Finset.prod_ne_zero_iff]
    intro i _
    simp [PD.at, hd, Spec.value]
  apply hne
  linarith

end Probayes
