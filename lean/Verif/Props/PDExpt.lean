/-
C22 (expectation).
-/
import Verif.Lemmas.PDDrop
import Verif.Lemmas.Broadcast
import Verif.Props.PDSort
import Mathlib.Algebra.Order.BigOperators.Group.Finset
import Mathlib.Algebra.BigOperators.Field

namespace Probayes

/-- Index list without the axes of the variables `keys`. -/
def Spec.rest (d : PD) (keys : List Str) (i : List ℕ) : List ℕ :=
  dropAxes (fun b => keys.any fun k => d.axis k == some b) i

/-- The entries with given positions for all other variables than `keys`. -/
def Spec.fibre (d : PD) (keys : List Str) (j : List ℕ) : Finset (List ℕ) :=
  (idx d.shape).filter fun i => Spec.rest d keys i = j

/-- Probability-weighted mean of `f` over such entries. -/
noncomputable def Spec.weighted (d : PD) (keys : List Str) (f : List ℕ → ℝ) (j : List ℕ) : ℝ :=
  (∑ i ∈ Spec.fibre d keys j, d.at i * f i) / ∑ i ∈ Spec.fibre d keys j, d.at i

/-- The value of the variable on axis `a` with values `data` at an entry. -/
noncomputable def Spec.pick (data : List ℚ) (a : ℕ) (i : List ℕ) : ℝ :=
  ((data.getD (i.getD a 0) 0 : ℚ) : ℝ)

/-- `out` holds for the array variable `k` the weighted mean of its `e`th power over the
variables `keys`, at all positions of the others with any mass. -/
def Spec.Mean (d : PD) (keys : List Str) (e : ℕ) (out : Dict Str Expt) (k : Str) : Prop :=
  ∀ a, d.axis k = some a → ∃ data q, d.values k = some (.arr [data.length] data) ∧
    d.shape[a]? = some data.length ∧
    Dict.get? out k = some (.mean q) ∧ q.shape = Spec.rest d keys d.shape ∧
    ∀ j ∈ idx q.shape, npz ≤ ∑ i ∈ Spec.fibre d keys j, d.at i →
      q.get j = Spec.weighted d keys (fun i => Spec.pick data a i ^ e) j

/-- C22 as intended. -/
def C22_claim : Prop :=
  ∀ (fmt : Val → Str) (d : PD) (keys : List Str) (exponent : Option ℕ) (e : ℕ), d.WF fmt →
    Spec.Readable d → (∀ k ∈ keys, k ∈ d.marg.keys) → keys ≠ [] →
    (exponent = none ∧ e = 1 ∨ exponent = some e ∧ 0 < e) →
    (∀ k ∈ keys, ∀ v, Dict.get? d.vals k = some v → ∃ w, v.pow exponent = .ok w) →
    ∃ out, d.expectation (some keys) exponent = .ok out ∧ ∀ k ∈ keys, Spec.Mean d keys e out k

theorem valArr_clip {s : List ℕ} {a : ℕ} {data : List ℚ} {i : List ℕ} (hs : s[a]? = some data.length)
    (hi : i ∈ idx s) : (valArr (axisShape s.length a data.length) data).get
      (clip (axisShape s.length a data.length) i) = Spec.pick data a i := by
  obtain ⟨x, hx⟩ : ∃ x, i[a]? = some x := by
    have h1 : a < s.length := by
      by_contra hc; rw [List.getElem?_eq_none (by omega)] at hs; simp at hs
    have h2 : a < i.length := by rw [length_of_mem_idx hi]; exact h1
    exact ⟨i[a], List.getElem?_eq_getElem h2⟩
  simp only [valArr, Spec.pick]
  rw [ravelIx_axisShape (length_of_mem_idx hi) hx (getElem?_lt_of_mem_idx hi hx hs)]
  simp [List.getD, hx]

theorem exptAxes_ok {fmt : Val → Str} {d : PD} (h : d.WF fmt) (keys : List Str) :
    ∃ axes, exptAxes d keys = .ok axes ∧ ∀ b, b ∈ axes ↔ ∃ k ∈ keys, d.axis k = some b := by
  obtain ⟨axes, h1, h2⟩ := foldlM_prefix (f := fun (acc : List ℕ) (kv : Str × Val) =>
      (if kv.1 ∈ keys then do
        match ← dimOf d.dims kv.1 with
        | some a => return acc ++ [a]
        | none => return acc
      else .ok acc : Py (List ℕ))) (l := d.vals) (s0 := [])
    (fun pre axes => ∀ b, b ∈ axes ↔ ∃ k ∈ keys, k ∈ Dict.keys pre ∧ d.axis k = some b)
    (by simp) (by
      rintro pre ⟨k, v⟩ post axes hl hI
      by_cases hk : k ∈ keys
      · have hm : Dict.get? d.vals k = some v := Dict.get?_of_mem h.nodup (by rw [hl]; simp)
        have hd : ∃ o, Dict.get? d.dims k = some o := by
          rcases hs : v.issingleton with _ | _
          · obtain ⟨a, _, _, _, _, h2, _⟩ := h.array k v hm hs; exact ⟨_, h2⟩
          · exact ⟨_, (h.single k v hm hs).1⟩
        obtain ⟨o, ho⟩ := hd
        have ha : d.axis k = o := by simp [PD.axis, ho]
        rcases o with _ | a
        · refine ⟨axes, by simp [hk, dimOf, ho, bind, Except.bind, pure, Except.pure], ?_⟩
          intro b
          rw [hI, Dict.keys_append]
          constructor
          · rintro ⟨k', e1, e2, e3⟩; exact ⟨k', e1, by simp [e2], e3⟩
          · rintro ⟨k', e1, e2, e3⟩
            simp only [Dict.keys_cons, Dict.keys_nil, List.mem_append, List.mem_singleton] at e2
            rcases e2 with e2 | rfl
            · exact ⟨k', e1, e2, e3⟩
            · rw [ha] at e3; simp at e3
        · refine ⟨axes ++ [a], by simp [hk, dimOf, ho, bind, Except.bind, pure, Except.pure], ?_⟩
          intro b
          rw [List.mem_append, hI, Dict.keys_append, List.mem_singleton]
          constructor
          · rintro (⟨k', e1, e2, e3⟩ | rfl)
            · exact ⟨k', e1, by simp [e2], e3⟩
            · exact ⟨k, hk, by simp, ha⟩
          · rintro ⟨k', e1, e2, e3⟩
            simp only [Dict.keys_cons, Dict.keys_nil, List.mem_append, List.mem_singleton] at e2
            rcases e2 with e2 | rfl
            · exact Or.inl ⟨k', e1, e2, e3⟩
            · rw [ha] at e3; simp only [Option.some.injEq] at e3; exact Or.inr e3.symm
      · refine ⟨axes, by simp [hk], ?_⟩
        intro b
        rw [hI, Dict.keys_append]
        constructor
        · rintro ⟨k', e1, e2, e3⟩; exact ⟨k', e1, by simp [e2], e3⟩
        · rintro ⟨k', e1, e2, e3⟩
          simp only [Dict.keys_cons, Dict.keys_nil, List.mem_append, List.mem_singleton] at e2
          rcases e2 with e2 | rfl
          · exact ⟨k', e1, e2, e3⟩
          · exact absurd e1 hk)
  refine ⟨axes, h1, fun b => ?_⟩
  rw [h2]
  constructor
  · rintro ⟨k, e1, _, e3⟩; exact ⟨k, e1, e3⟩
  · rintro ⟨k, e1, e3⟩
    exact ⟨k, e1, h.dimKeys k (Dict.mem_keys_of_get? (join_eq_some.mp e3)), e3⟩

theorem getD_pow (data : List ℚ) (e : ℕ) (he : 0 < e) (x : ℕ) :
    (data.map (· ^ e)).getD x 0 = data.getD x 0 ^ e := by
  simp only [List.getD, List.getElem?_map]
  rcases data[x]? with _ | y
  · simp [zero_pow (by omega : e ≠ 0)]
  · simp

/-- C22, proved part: the values of the array variables lie along their axes (as
they do in every result of an operation and whenever dimensions are given).  The
result for a scalar key is its (power of its) value, for a conditioning variable
its values, and for an array variable the weighted mean. -/
theorem C22_expectation_partial (fmt : Val → Str) (d : PD) (keys : List Str) (exponent : Option ℕ) (e : ℕ)
    (h : d.WF fmt) (hread : Spec.Readable d) (hkeys : ∀ k ∈ keys, k ∈ d.marg.keys) (hne : keys ≠ [])
    (he : exponent = none ∧ e = 1 ∨ exponent = some e ∧ 0 < e)
    (hpow : ∀ k ∈ keys, ∀ v, Dict.get? d.vals k = some v → ∃ w, v.pow exponent = .ok w)
    (hplaced : d.Placed) :
    ∃ out, d.expectation (some keys) exponent = .ok out ∧
      out.keys = d.keylist.filter (fun k => k ∈ keys ∨ k ∈ d.cond.keys) ∧
      (∀ k ∈ keys, Spec.Mean d keys e out k) ∧
      (∀ k ∈ keys, d.axis k = none → ∃ v w, Dict.get? d.vals k = some v ∧ v.pow exponent = .ok w ∧
        Dict.get? out k = some (.given w)) ∧
      (∀ k ∈ d.cond.keys, ∃ v, Dict.get? d.vals k = some v ∧ Dict.get? out k = some (.given v)) := by
  obtain ⟨hval, hread⟩ := hread
  obtain ⟨axes, ha1, ha2⟩ := exptAxes_ok h keys
  have hp : (fun n => decide (n ∈ axes)) = fun b => keys.any fun k => d.axis k == some b := by
    funext b
    rw [Bool.eq_iff_iff]
    simp [ha2]
  have hlt : ∀ b ∈ axes, b < d.shape.length := by
    intro b hb
    obtain ⟨k, _, hk⟩ := (ha2 b).mp hb
    rw [h.rank]; exact h.axis_lt hk
  set P : Arr := d.prob.map (fun x => rescaleE x d.pscale (.lin 1)) with hP
  have hr1 : rescaleArr d.prob d.pscale.spec (.flt 1) = .ok P := by
    simp [rescaleArr, h.stable, evalPscale_one, bind, Except.bind, pure, Except.pure, hP]
  have hPs : P.shape = d.shape := h.probShape
  have hPg : ∀ i ∈ idx d.shape, P.get i = d.at i :=
    fun i hi => rescaleE_to_one _ _ hval h.stable (hread i hi)
  have hsum : ∀ A : Arr, A.shape = d.shape → ∃ B, sumAxes axes A = .ok B ∧
      B.shape = Spec.rest d keys d.shape ∧ ∀ j, B.get j = ∑ i ∈ Spec.fibre d keys j, A.get i := by
    intro A hA
    refine ⟨⟨dropAxes (· ∈ axes) A.shape,
      fun j => ∑ i ∈ (idx A.shape).filter (fun i => dropAxes (· ∈ axes) i = j), A.get i⟩, ?_, ?_, ?_⟩
    · rw [sumAxes, if_pos]
      rw [List.all_eq_true]; intro b hb; simpa [hA] using hlt b hb
    · show dropAxes (fun n => decide (n ∈ axes)) A.shape = _
      rw [hp, hA]; rfl
    · intro j
      show ∑ i ∈ (idx A.shape).filter (fun i => dropAxes (fun n => decide (n ∈ axes)) i = j), _ = _
      rw [hp, hA]; rfl
  -- the total
  have hS : ∃ S : Arr, (if axes.isEmpty then (.ok ⟨[], fun _ => sumAll P⟩ : Py Arr) else sumAxes axes P) = .ok S ∧
      (axes ≠ [] → S.shape = Spec.rest d keys d.shape ∧
        ∀ j, S.get j = ∑ i ∈ Spec.fibre d keys j, d.at i) := by
    rcases hax : axes with _ | ⟨b, axes'⟩
    · exact ⟨_, rfl, by simp⟩
    · obtain ⟨B, e1, e2, e3⟩ := hsum P hPs
      refine ⟨B, by rw [← hax]; simp [hax, ← e1], fun _ => ⟨e2, fun j => ?_⟩⟩
      rw [e3]
      exact Finset.sum_congr rfl fun i hi => hPg i (Finset.mem_filter.mp hi).1
  obtain ⟨S, hS1, hS2⟩ := hS
  -- one array
  have harr : ∀ k ∈ keys, ∀ a, d.axis k = some a → ∃ data w q, Dict.get? d.vals k =
      some (.arr (axisShape d.ndim a data.length) data) ∧ d.shape[a]? = some data.length ∧
      (Val.arr (axisShape d.ndim a data.length) data).pow exponent = .ok (.arr (axisShape d.ndim a data.length) w) ∧
      (do
          let t ← Arr.zip (· * ·) P (valArr (axisShape d.ndim a data.length) w)
          let num ← sumAxes axes t
          divArr num S : Py Arr) = .ok q ∧ q.shape = Spec.rest d keys d.shape ∧
      ∀ j ∈ idx q.shape, npz ≤ ∑ i ∈ Spec.fibre d keys j, d.at i →
        q.get j = Spec.weighted d keys (fun i => Spec.pick data a i ^ e) j := by
    intro k hk a ha
    obtain ⟨data, hd⟩ := hplaced k a ha
    obtain ⟨s', data', hd', _, hsz, _, _⟩ := h.axis_some ha
    rw [hd] at hd'
    simp only [Option.some.injEq, Val.arr.injEq] at hd'
    obtain ⟨_, rfl⟩ := hd'
    obtain ⟨w, hw1, hw2, hw3⟩ : ∃ w : List ℚ, (Val.arr (axisShape d.ndim a data.length) data).pow exponent
        = .ok (.arr (axisShape d.ndim a data.length) w) ∧ w.length = data.length ∧
        ∀ i, Spec.pick w a i = Spec.pick data a i ^ e := by
      rcases he with ⟨rfl, rfl⟩ | ⟨rfl, he⟩
      · exact ⟨data, rfl, rfl, by simp⟩
      · refine ⟨data.map (· ^ e), ?_, by simp, ?_⟩
        · cases e with
          | zero => omega
          | succ e => rfl
        · intro i
          simp only [Spec.pick]
          rw [getD_pow data e he]
          push_cast; rfl
    have hrank : d.ndim = d.shape.length := h.rank.symm
    have hfit : Fits (valArr (axisShape d.ndim a data.length) w).shape P.shape := by
      show Fits (axisShape d.ndim a data.length) P.shape
      rw [hPs, hrank]; exact fits_axisShape hsz
    obtain ⟨t, t1, t2, t3⟩ := zip_fits (· * ·) hfit
    obtain ⟨num, n1, n2, n3⟩ := hsum t (t2.trans hPs)
    have hane : axes ≠ [] := by
      intro hc
      have := (ha2 a).mpr ⟨k, hk, ha⟩
      rw [hc] at this; simp at this
    obtain ⟨s1, s2⟩ := hS2 hane
    obtain ⟨q, q1, q2, q3⟩ := zip_fits (a := num) (b := S) (fun a b => a / max npz b) (by
      rw [n2, s1]; exact Fits.refl _)
    refine ⟨data, w, q, hd, hsz, hw1, by simp only [t1, n1, divArr, q1, bind, Except.bind], q2.trans n2, ?_⟩
    intro j hj hpos
    rw [q2] at hj
    rw [q3 j hj, s1, ← n2, clip_self hj, n3, s2, max_eq_right hpos, Spec.weighted]
    congr 1
    apply Finset.sum_congr rfl
    intro i hi
    have hi' : i ∈ idx d.shape := (Finset.mem_filter.mp hi).1
    rw [t3 i (by rw [hPs]; exact hi'), hPg i hi']
    show d.at i * (valArr (axisShape d.ndim a data.length) w).get (clip (axisShape d.ndim a data.length) i) = _
    rw [hrank, ← hw2, valArr_clip (by rw [hw2]; exact hsz) hi', hw3]
  -- the loop
  obtain ⟨out, o1, o2, o3⟩ := foldlM_prefix (f := exptStep d keys exponent axes P S) (l := d.vals) (s0 := [])
    (fun pre out => Dict.keys out = (Dict.keys pre).filter (fun k => k ∈ keys ∨ k ∈ d.cond.keys) ∧
      ∀ k ∈ Dict.keys pre, ((k ∈ keys → Spec.Mean d keys e out k) ∧
      (k ∈ keys → d.axis k = none → ∃ v w, Dict.get? d.vals k = some v ∧ v.pow exponent = .ok w ∧
        Dict.get? out k = some (.given w)) ∧
      (k ∈ d.cond.keys → ∃ v, Dict.get? d.vals k = some v ∧ Dict.get? out k = some (.given v))))
    (by simp) (by
      rintro pre ⟨k, v⟩ post out hl ⟨hI1, hI2⟩
      have hm : Dict.get? d.vals k = some v := Dict.get?_of_mem h.nodup (by rw [hl]; simp)
      have hkpre : k ∉ Dict.keys pre := by
        have := h.nodup
        rw [hl, Dict.keys_append, List.nodup_append] at this
        intro hc
        exact this.2.2 _ hc _ (by simp) rfl
      have hkout : k ∉ Dict.keys out := by
        rw [hI1]; intro hc; exact hkpre (List.mem_filter.mp hc).1
      have hget : ∀ (x : Expt) k', Dict.get? (out ++ [(k, x)]) k' = if k = k' then some x else Dict.get? out k' := by
        intro x k'
        rw [Dict.get?_append]
        by_cases hkk : k = k'
        · subst hkk; simp [Dict.get?_eq_none.mpr hkout, Dict.get?]
        · simp [Dict.get?, hkk]
      have hold : ∀ (x : Expt) k', k' ∈ Dict.keys pre → Dict.get? (out ++ [(k, x)]) k' = Dict.get? out k' := by
        intro x k' hk'
        rw [hget, if_neg]; rintro rfl; exact hkpre hk'
      have hself : ∀ x : Expt, Dict.get? (out ++ [(k, x)]) k = some x := by intro x; simp [hget]
      have hrest : ∀ (x : Expt) k', k' ∈ Dict.keys pre → ((k' ∈ keys → Spec.Mean d keys e (out ++ [(k, x)]) k') ∧
          (k' ∈ keys → d.axis k' = none → ∃ v w, Dict.get? d.vals k' = some v ∧ v.pow exponent = .ok w ∧
            Dict.get? (out ++ [(k, x)]) k' = some (.given w)) ∧
          (k' ∈ d.cond.keys → ∃ v, Dict.get? d.vals k' = some v ∧
            Dict.get? (out ++ [(k, x)]) k' = some (.given v))) := by
        intro x k' hk'
        simp only [Spec.Mean, hold x k' hk']
        exact hI2 k' hk'
      have hlist : ∀ x : Expt, (k ∈ keys ∨ k ∈ d.cond.keys) → Dict.keys (out ++ [(k, x)]) =
          (Dict.keys (pre ++ [(k, v)])).filter (fun k => k ∈ keys ∨ k ∈ d.cond.keys) := by
        intro x hk
        rw [Dict.keys_append, Dict.keys_append, List.filter_append, hI1]
        rw [show Dict.keys [(k, x)] = [k] from rfl, show Dict.keys [(k, v)] = [k] from rfl,
          List.filter_cons_of_pos (by simpa using hk), List.filter_nil]
      have hsplit : ∀ k' ∈ Dict.keys (pre ++ [(k, v)]), k' ∈ Dict.keys pre ∨ k' = k := by
        intro k' hk'
        rw [Dict.keys_append] at hk'
        simpa using hk'
      by_cases hk : k ∈ keys
      · have hkc : k ∉ d.cond.keys := h.disj k (hkeys k hk)
        rcases hs : v.issingleton with _ | _
        · obtain ⟨a, ha⟩ := h.axis_isSome hm hs
          obtain ⟨data, w, q, r1, r2, r3, r4, r5, r6⟩ := harr k hk a ha
          have hv : v = .arr (axisShape d.ndim a data.length) data := by
            rw [hm] at r1; simpa using r1
          subst hv
          refine ⟨out ++ [(k, .mean q)], ?_, hlist _ (Or.inl hk), ?_⟩
          · simp only [exptStep, hk, if_true, r3, bind, Except.bind, hs, Bool.false_eq_true, if_false]
            simp only [bind, Except.bind] at r4
            rcases z1 : Arr.zip (· * ·) P (valArr (axisShape d.ndim a data.length) w) with err | t
            · rw [z1] at r4; simp at r4
            · simp only [z1] at r4 ⊢
              rcases z2 : sumAxes axes t with err | num
              · rw [z2] at r4; simp at r4
              · simp only [z2] at r4 ⊢
                simp only [r4, pure, Except.pure]
          · intro k' hk'
            rcases hsplit k' hk' with hk' | rfl
            · exact hrest _ k' hk'
            · refine ⟨fun _ a' ha' => ?_, fun _ hn => by rw [ha] at hn; simp at hn, fun hc => absurd hc hkc⟩
              rw [ha] at ha'
              simp only [Option.some.injEq] at ha'
              subst ha'
              refine ⟨data, q, ?_, r2, hself _, r5, r6⟩
              have hane : axisShape d.ndim a data.length ≠ [] := by
                intro hc; rw [hc] at hs; simp [Val.issingleton] at hs
              simp only [PD.values, hm, Option.map_some]
              rcases hx : axisShape d.ndim a data.length with _ | ⟨y, t⟩
              · exact absurd hx hane
              · rfl
        · obtain ⟨w, hw⟩ := hpow k hk v hm
          refine ⟨out ++ [(k, .given w)], by simp [exptStep, hk, hw, hs, bind, Except.bind, pure, Except.pure],
            hlist _ (Or.inl hk), ?_⟩
          intro k' hk'
          rcases hsplit k' hk' with hk' | rfl
          · exact hrest _ k' hk'
          · refine ⟨fun _ a' ha' => ?_, fun _ _ => ⟨v, w, hm, hw, hself _⟩, fun hc => absurd hc hkc⟩
            rw [h.axis_none hm hs] at ha'; simp at ha'
      · by_cases hkc : k ∈ d.cond.keys
        · refine ⟨out ++ [(k, .given v)], by simp [exptStep, hk, hkc], hlist _ (Or.inr hkc), ?_⟩
          intro k' hk'
          rcases hsplit k' hk' with hk' | rfl
          · exact hrest _ k' hk'
          · exact ⟨fun hc => absurd hc hk, fun hc => absurd hc hk, fun _ => ⟨v, hm, hself _⟩⟩
        · refine ⟨out, by simp [exptStep, hk, hkc], ?_, ?_⟩
          · rw [Dict.keys_append, List.filter_append, hI1]
            rw [show Dict.keys [(k, v)] = [k] from rfl,
              List.filter_cons_of_neg (by simp [hk, hkc]), List.filter_nil, List.append_nil]
          · intro k' hk'
            rcases hsplit k' hk' with hk' | rfl
            · exact hI2 k' hk'
            · exact ⟨fun hc => absurd hc hk, fun hc => absurd hc hk, fun hc => absurd hc hkc⟩)
  have hin : ∀ k ∈ keys, k ∈ Dict.keys d.vals := fun k hk => (h.keys k).mpr (Or.inl (hkeys k hk))
  refine ⟨out, ?_, o2, fun k hk => (o3 k (hin k hk)).1 hk, fun k hk => (o3 k (hin k hk)).2.1 hk,
    fun k hk => (o3 k ((h.keys k).mpr (Or.inr hk))).2.2 hk⟩
  have hall : keys.all (· ∈ d.marg.keys) = true := by
    rw [List.all_eq_true]; intro k hk; simpa using hkeys k hk
  unfold PD.expectation
  rcases keys with _ | ⟨k0, ks⟩
  · exact absurd rfl hne
  · simp only [hall, if_true, ha1, hr1, hS1, bind, Except.bind]
    exact o1

/-- C22: no keys means all marginal variables. -/
theorem C22_default_keys (d : PD) (exponent : Option ℕ) (hne : d.marg.keys ≠ []) :
    d.expectation none exponent = d.expectation (some d.marg.keys) exponent := by
  unfold PD.expectation
  rcases hk : d.marg.keys with _ | ⟨k, ks⟩
  · exact absurd hk hne
  · simp

/-- C22: an exponent of zero is taken for none: the result is the mean and not one. -/
theorem C22_exponent_zero (d : PD) (keys : Option (List Str)) :
    d.expectation keys (some 0) = d.expectation keys none := rfl

/-- C22: a variable that is not on the marginal side is refused. -/
theorem C22_unknown_refused (d : PD) (keys : List Str) (exponent : Option ℕ)
    (h : ∃ k ∈ keys, k ∉ d.marg.keys) : Raises (d.expectation (some keys) exponent) := by
  obtain ⟨k, hk, hnk⟩ := h
  refine ⟨.assertion, ?_⟩
  unfold PD.expectation
  rcases keys with _ | ⟨k0, ks⟩
  · simp at hk
  · have : ((k0 :: ks).all (· ∈ d.marg.keys)) = false := by
      rw [List.all_eq_false]; exact ⟨k, hk, by simpa using hnk⟩
    simp only [this, Bool.false_eq_true, if_false]

/-! ### what a weighted mean is -/

/-- C22: a weighted mean lies between any bounds of the values. -/
theorem C22_bounds (d : PD) (keys : List Str) (f : List ℕ → ℝ) (j : List ℕ) (lo hi : ℝ)
    (hnn : ∀ i ∈ idx d.shape, 0 ≤ d.at i) (hpos : 0 < ∑ i ∈ Spec.fibre d keys j, d.at i)
    (hf : ∀ i ∈ Spec.fibre d keys j, lo ≤ f i ∧ f i ≤ hi) :
    lo ≤ Spec.weighted d keys f j ∧ Spec.weighted d keys f j ≤ hi := by
  have hnn' : ∀ i ∈ Spec.fibre d keys j, 0 ≤ d.at i := fun i hi => hnn i (Finset.mem_filter.mp hi).1
  constructor
  · rw [Spec.weighted, le_div_iff₀ hpos, mul_comm, Finset.sum_mul]
    exact Finset.sum_le_sum fun i hi => mul_le_mul_of_nonneg_left (hf i hi).1 (hnn' i hi)
  · rw [Spec.weighted, div_le_iff₀ hpos, mul_comm hi, Finset.sum_mul]
    exact Finset.sum_le_sum fun i hi => mul_le_mul_of_nonneg_left (hf i hi).2 (hnn' i hi)

/-- C22: a weighted mean is linear in the values. -/
theorem C22_linear (d : PD) (keys : List Str) (f g : List ℕ → ℝ) (α β γ : ℝ) (j : List ℕ)
    (hpos : 0 < ∑ i ∈ Spec.fibre d keys j, d.at i) :
    Spec.weighted d keys (fun i => α * f i + β * g i + γ) j =
      α * Spec.weighted d keys f j + β * Spec.weighted d keys g j + γ := by
  have : ∑ i ∈ Spec.fibre d keys j, d.at i * (α * f i + β * g i + γ) =
      α * (∑ i ∈ Spec.fibre d keys j, d.at i * f i) + β * (∑ i ∈ Spec.fibre d keys j, d.at i * g i)
        + γ * ∑ i ∈ Spec.fibre d keys j, d.at i := by
    rw [Finset.mul_sum, Finset.mul_sum, Finset.mul_sum, ← Finset.sum_add_distrib, ← Finset.sum_add_distrib]
    exact Finset.sum_congr rfl fun i _ => by ring
  simp only [Spec.weighted]
  rw [this]
  field_simp

/-- C22: the weighted mean does not depend on the scale (or form) in which the
probabilities are stored. -/
theorem C22_scale (d r : PD) (keys : List Str) (f : List ℕ → ℝ) (j : List ℕ) (h : Spec.SameForm d r)
    (hat : ∀ i ∈ idx r.shape, r.at i = d.at i) :
    Spec.weighted r keys f j = Spec.weighted d keys f j := by
  have hf : Spec.fibre r keys j = Spec.fibre d keys j := by
    have hr : Spec.rest r keys = Spec.rest d keys := by
      funext i; simp only [Spec.rest, h.axis]
    ext i
    rw [Spec.fibre, Spec.fibre, Finset.mem_filter, Finset.mem_filter, hr, h.shape]
  have ha : ∀ i ∈ Spec.fibre d keys j, r.at i = d.at i := fun i hi =>
    hat i (by rw [h.shape]; exact (Finset.mem_filter.mp hi).1)
  simp only [Spec.weighted, hf]
  rw [Finset.sum_congr rfl fun i hi => by rw [ha i hi], Finset.sum_congr rfl ha]

/-! ### where C22 fails -/

/-- p(x, y) as built without dimensions, x certainly 1. -/
noncomputable def sample5 : PD :=
  ⟨['x', ',', 'y'], [(['x'], ['x']), (['y'], ['y'])], [],
   ⟨[(['x'], .arr [2] [1, 2]), (['y'], .arr [1, 2] [3, 4])], [(['x'], some 0), (['y'], some 1)],
    2, [2, 2], [2, 2], 4, [false, false], false⟩,
   ⟨[2, 2], fun i => if i.getD 0 0 = 0 then 1 / 2 else 0⟩, .lin 1⟩

theorem sample5_init (fmt : Val → Str) : pdInit fmt ['x', ',', 'y']
    [(['x'], .arr [2] [1, 2]), (['y'], .arr [2] [3, 4])] none sample5.prob .none = .ok sample5 :=
  (pdInit_eval (mc := (sample5.marg, [])) (dist := sample5.dist) (mc' := (sample5.marg, []))
    (p := .lin 1) rfl rfl rfl rfl rfl).trans rfl

theorem sample5_wf (fmt : Val → Str) : sample5.WF fmt := by
  refine (C13_default_wf fmt _ _ _ _ _ sample5.marg []
    (by decide) (by decide) ⟨rfl, ⟨by decide, ?_⟩, ⟨by decide, by simp⟩, by decide, ?_, ?_⟩ (sample5_init fmt)).1
  · intro kv hkv
    simp only [sample5, List.mem_cons, List.not_mem_nil, or_false] at hkv
    rcases hkv with rfl | rfl <;>
      exact entry_plain (by decide) (by decide) (by decide) (by decide) (by decide) (by decide)
  · intro k; simp [Dict.keys, sample5]
  · intro kv hkv hs
    simp only [List.mem_cons, List.not_mem_nil, or_false] at hkv
    rcases hkv with rfl | rfl <;> simp [Val.fixNone, Val.issingleton] at hs

/-- C22 fails silently for distributions built without dimensions: the values of
the first variable are multiplied along the last axis.  Although x is 1 with
certainty whatever y, its expectation given the second value of y comes out as 2. -/
theorem C22_wrong_mean : ∃ out q, sample5.expectation (some [['x']]) none = .ok out ∧
    Dict.get? out ['x'] = some (.mean q) ∧ q.shape = [2] ∧ q.get [1] = 2 ∧
    Spec.weighted sample5 [['x']] (Spec.pick [1, 2] 0) [1] = 1 := by
  have hr1 : rescaleArr sample5.prob sample5.pscale.spec (.flt 1) = .ok sample5.prob := by
    have : evalPscale sample5.pscale.spec = .ok (.lin 1) := by
      simp [sample5, PScale.spec, evalPscale_one]
    simp only [rescaleArr, this, evalPscale_one, bind, Except.bind, pure, Except.pure]
    simp [rescaleE, Arr.map]
  have hf : (idx [2, 2]).filter (fun i => dropAxes (· ∈ [0]) i = [1]) = {[0, 1], [1, 1]} := by decide
  let T : Arr := ⟨[2, 2], fun j => sample5.prob.bget j * (valArr [2] [1, 2]).bget j⟩
  let N : Arr := ⟨[2], fun j => ∑ i ∈ (idx [2, 2]).filter (fun i => dropAxes (· ∈ [0]) i = j), T.get i⟩
  let S : Arr := ⟨[2], fun j => ∑ i ∈ (idx [2, 2]).filter (fun i => dropAxes (· ∈ [0]) i = j),
    sample5.prob.get i⟩
  have hS : sumAxes [0] sample5.prob = .ok S := by rw [sumAxes, if_pos (by decide)]; rfl
  have hT : Arr.zip (· * ·) sample5.prob (valArr [2] [1, 2]) = .ok T := rfl
  have hN : sumAxes [0] T = .ok N := by rw [sumAxes, if_pos (by decide)]; rfl
  let Q : Arr := ⟨[2], fun j => N.bget j / max npz (S.bget j)⟩
  have hQ : divArr N S = .ok Q := rfl
  have hax : exptAxes sample5 [['x']] = .ok [0] := rfl
  refine ⟨[(['x'], .mean Q)], Q, ?_, rfl, rfl, ?_, ?_⟩
  · have h1 : exptStep sample5 [['x']] none [0] sample5.prob S [] (['x'], .arr [2] [1, 2])
        = .ok [(['x'], .mean Q)] := by
      simp [exptStep, Val.pow, Val.issingleton, bind, Except.bind, hT, hN, hQ, pure, Except.pure]
    have h2 : ∀ acc, exptStep sample5 [['x']] none [0] sample5.prob S acc (['y'], .arr [1, 2] [3, 4])
        = .ok acc := by
      intro acc
      have h3 : ['y'] ∉ sample5.cond.keys := by decide
      simp [exptStep, h3]
    have hall : ([['x']].all fun k => decide (k ∈ sample5.marg.keys)) = true := by decide
    unfold PD.expectation
    simp only [hall, if_true, hax, hr1, bind, Except.bind, hS, List.isEmpty_cons, Bool.false_eq_true, if_false]
    show List.foldlM _ [] [(['x'], Val.arr [2] [1, 2]), (['y'], Val.arr [1, 2] [3, 4])] = _
    simp only [List.foldlM_cons, h1, h2, bind, Except.bind, List.foldlM_nil, pure, Except.pure]
  · show N.get [1] / max npz (S.get [1]) = 2
    have e1 : N.get [1] = 1 := by
      show ∑ i ∈ (idx [2, 2]).filter (fun i => dropAxes (· ∈ [0]) i = [1]), T.get i = _
      rw [hf]
      simp [T, Arr.bget, sample5, valArr, ravelIx]
    have e2 : S.get [1] = 1 / 2 := by
      show ∑ i ∈ (idx [2, 2]).filter (fun i => dropAxes (· ∈ [0]) i = [1]), sample5.prob.get i = _
      rw [hf]
      simp [sample5]
    rw [e1, e2, max_eq_right (by unfold npz; norm_num)]
    norm_num
  · have hf' : Spec.fibre sample5 [['x']] [1] = {[0, 1], [1, 1]} := by decide
    rw [Spec.weighted, hf']
    simp [PD.at, sample5, Spec.value, Spec.pick]

/-- C22 as intended does not hold. -/
theorem C22_claim_fails : ¬ C22_claim := by
  intro h
  obtain ⟨out, h1, h2⟩ := h (fun _ => []) sample5 [['x']] none 1 (sample5_wf _) (readable_lin rfl one_pos)
    (by intro k hk; simp only [List.mem_singleton] at hk; subst hk; decide) (by simp) (Or.inl ⟨rfl, rfl⟩)
    (fun k _ v _ => ⟨v, rfl⟩)
  obtain ⟨out', q', g1, g2, g3, g4, g5⟩ := C22_wrong_mean
  rw [h1] at g1
  simp only [Except.ok.injEq] at g1
  subst g1
  obtain ⟨data, q, e1, _, e2, e3, e4⟩ := h2 ['x'] (by simp) 0 rfl
  rw [g2] at e2
  simp only [Option.some.injEq, Expt.mean.injEq] at e2
  subst e2
  have hd : data = [1, 2] := by
    have : sample5.values ['x'] = some (.arr [2] [1, 2]) := rfl
    rw [this] at e1
    simp only [Option.some.injEq, Val.arr.injEq] at e1
    exact e1.2.symm
  subst hd
  have hf' : Spec.fibre sample5 [['x']] [1] = {[0, 1], [1, 1]} := by decide
  have := e4 [1] (by rw [g3]; decide) (by
    rw [hf']
    simp [PD.at, sample5, Spec.value]
    unfold npz; norm_num)
  simp only [pow_one] at this
  rw [g4] at this
  have g5' : Spec.weighted sample5 [['x']] (fun i => Spec.pick [1, 2] 0 i) [1] = 1 := g5
  rw [g5'] at this
  norm_num at this

/-! ### an instance -/

/-- Non-vacuity of `C22_expectation_partial`: p(a, r, s, b) with given dimensions. -/
example : ∃ out, sample4.expectation (some [['a'], ['s']]) (some 2) = .ok out ∧
    Spec.Mean sample4 [['a'], ['s']] 2 out ['a'] := by
  obtain ⟨out, h1, _, h2, _⟩ := C22_expectation_partial (fun _ => []) sample4 [['a'], ['s']] (some 2) 2
    sample4_wf (readable_lin rfl one_pos)
    (by intro k hk; simp only [List.mem_cons, List.not_mem_nil, or_false] at hk
        rcases hk with rfl | rfl <;> decide) (by simp) (Or.inr ⟨rfl, by omega⟩)
    (by
      intro k hk v hv
      simp only [List.mem_cons, List.not_mem_nil, or_false] at hk
      rcases hk with rfl | rfl
      · have : Dict.get? sample4.vals ['a'] = some (.arr [1, 2, 1, 1] [1, 2]) := rfl
        rw [this] at hv; simp only [Option.some.injEq] at hv; subst hv; exact ⟨_, rfl⟩
      · have : Dict.get? sample4.vals ['s'] = some (.arr [1, 1, 1, 1] [4]) := rfl
        rw [this] at hv; simp only [Option.some.injEq] at hv; subst hv; exact ⟨_, rfl⟩)
    (by
      intro k a ha
      have hm := sample4_wf.dimKeys k (Dict.mem_keys_of_get? (join_eq_some.mp ha))
      simp only [sample4, PD.vals, Dict.keys, List.map_cons, List.map_nil, List.mem_cons,
        List.not_mem_nil, or_false] at hm
      have e1 : sample4.axis ['a'] = some 1 := rfl
      have e2 : sample4.axis ['r'] = some 0 := rfl
      have e3 : sample4.axis ['s'] = some 3 := rfl
      have e4 : sample4.axis ['b'] = some 2 := rfl
      rcases hm with rfl | rfl | rfl | rfl
      · rw [e1] at ha; simp only [Option.some.injEq] at ha; subst ha; exact ⟨[1, 2], rfl⟩
      · rw [e2] at ha; simp only [Option.some.injEq] at ha; subst ha; exact ⟨[3], rfl⟩
      · rw [e3] at ha; simp only [Option.some.injEq] at ha; subst ha; exact ⟨[4], rfl⟩
      · rw [e4] at ha; simp only [Option.some.injEq] at ha; subst ha; exact ⟨[5, 6], rfl⟩)
  exact ⟨out, h1, h2 _ (by simp)⟩

end Probayes
