/-
C53 (quantiles).
-/
import Verif.Model.PDQuant
import Verif.Lemmas.Indices
import Verif.Lemmas.PDCheck
import Verif.Lemmas.PDProduct3
import Verif.Props.PDMarg2
import Verif.Props.RV

namespace Probayes

/-- Total probability of the first `n` entries in row-major order. -/
noncomputable def Spec.massUpTo (d : PD) (n : ℕ) : ℝ := (((indices d.shape).take n).map d.at).sum

/-- Share of the total probability up to and including the `k`th entry. -/
noncomputable def Spec.cumulative (d : PD) (k : ℕ) : ℝ :=
  Spec.massUpTo d (k + 1) / Spec.massUpTo d d.shape.prod

/-- Probabilities that can be read, are not negative and do not vanish altogether. -/
structure Spec.Proper (d : PD) : Prop where
  readable : Spec.Readable d
  nonneg : ∀ i ∈ idx d.shape, 0 ≤ d.at i
  total : npz ≤ Spec.massUpTo d d.shape.prod

/-- The entry at which `quantile(q)` looks: the last whose cumulative share is at
most `q`, or the first entry. -/
structure Spec.QuantAt (d : PD) (q : ℝ) (k : ℕ) : Prop where
  lt : k < d.shape.prod
  le : k = 0 ∨ Spec.cumulative d k ≤ q
  gt : k + 1 < d.shape.prod → q < Spec.cumulative d (k + 1)

/-- The number returned for a sorted variable on axis `a` with values `data`: its
value at the entry, except on the last axis, where it is interpolated linearly in
the cumulative shares, or weighted by the two probabilities if these differ by
`min(q, 1-q)` or more. -/
def Spec.QuantVal (d : PD) (q : ℝ) (k a : ℕ) (data : List ℚ) (y : ℝ) : Prop :=
  ∃ i u v, (indices d.shape)[k]? = some i ∧ i[a]? = some u ∧ data[u]? = some v ∧
    ((a + 1 < d.ndim ∨ u + 1 = data.length) ∧ y = v ∨
      (a + 1 = d.ndim ∧ ∃ v1, data[u + 1]? = some v1 ∧ k + 1 < d.shape.prod ∧
        (indices d.shape)[k + 1]? = some (i.set a (u + 1)) ∧
        0 < d.at i + d.at (i.set a (u + 1)) ∧
        y = if |d.at (i.set a (u + 1)) - d.at i| < min q (1 - q) then
            if q ≤ Spec.cumulative d k then (v : ℝ)
            else v + (v1 - v) * ((q - Spec.cumulative d k) / (Spec.cumulative d (k + 1) - Spec.cumulative d k))
          else (d.at i * v + d.at (i.set a (u + 1)) * v1) / (d.at i + d.at (i.set a (u + 1)))))

/-- What `quantile` returns for a variable. -/
def Spec.QuantEntry (d : PD) (q : ℝ) (k : ℕ) (kv : Str × Val) (out : Str × Quant) : Prop :=
  out.1 = kv.1 ∧
  (kv.2.issingleton = true → out.2 = .given kv.2) ∧
  (∀ a s data, d.axis kv.1 = some a → kv.2 = .arr s data →
    (ismonotonic data = false → out.2 = .given (.setint data.length)) ∧
    (ismonotonic data = true → ∃ y, out.2 = .value y ∧ Spec.QuantVal d q k a data y))

theorem Spec.massUpTo_eq (d : PD) (n : ℕ) :
    Spec.massUpTo d n = Spec.prefixSum ((indices d.shape).map d.at) n := by
  rw [Spec.massUpTo, Spec.prefixSum, List.map_take]

theorem Spec.massUpTo_all (d : PD) : Spec.massUpTo d d.shape.prod = ∑ i ∈ idx d.shape, d.at i := by
  rw [Spec.massUpTo, List.take_of_length_le (by rw [length_indices]), idx,
    List.sum_toFinset _ (nodup_indices _)]

theorem Spec.massUpTo_succ (d : PD) {k : ℕ} {i : List ℕ} (hi : (indices d.shape)[k]? = some i) :
    Spec.massUpTo d (k + 1) = Spec.massUpTo d k + d.at i := by
  obtain ⟨hlt, rfl⟩ := List.getElem?_eq_some_iff.mp hi
  rw [Spec.massUpTo, List.take_succ_eq_append_getElem hlt, List.map_append, List.sum_append]
  simp [Spec.massUpTo]

theorem Spec.Proper.mono {d : PD} (h : Spec.Proper d) : Monotone (Spec.massUpTo d) := by
  have : Monotone (Spec.prefixSum ((indices d.shape).map d.at)) := by
    apply prefixSum_mono
    intro x hx
    obtain ⟨i, hi, rfl⟩ := List.mem_map.mp hx
    exact h.nonneg i (by rw [idx, List.mem_toFinset]; exact hi)
  intro a b hab
  rw [Spec.massUpTo_eq, Spec.massUpTo_eq]
  exact this hab

theorem Spec.Proper.pos {d : PD} (h : Spec.Proper d) : 0 < Spec.massUpTo d d.shape.prod :=
  lt_of_lt_of_le npz_pos h.total

theorem Spec.Proper.cum_mono {d : PD} (h : Spec.Proper d) {a b : ℕ} (hab : a ≤ b) :
    Spec.cumulative d a ≤ Spec.cumulative d b :=
  div_le_div_of_nonneg_right (h.mono (by omega)) h.pos.le

theorem quantVal_ok {d : PD} (h : Spec.Proper d) (hrank : d.shape.length = d.ndim) {q : ℝ} (hq : 0 ≤ q) {k a n : ℕ}
    (hk : Spec.QuantAt d q k) {data : List ℚ} (hn : n = data.length) (hs : d.shape[a]? = some n)
    {ravprob cumprob : List ℝ}
    (hr : ravprob = (indices d.shape).map d.at)
    (hc : cumprob = (List.range d.shape.prod).map (Spec.cumulative d)) :
    ∃ u y, (unravelIx d.shape k)[a]? = some u ∧
      quantVal d.ndim ravprob cumprob q k a u data = .ok (.value y) ∧ Spec.QuantVal d q k a data y := by
  subst hn
  set i := unravelIx d.shape k with hi
  have hik : (indices d.shape)[k]? = some i := getElem?_indices hk.lt
  have hmem : i ∈ idx d.shape := unravelIx_mem hk.lt
  have halt : a < d.shape.length := by
    by_contra hcon; rw [List.getElem?_eq_none (by omega)] at hs; simp at hs
  obtain ⟨u, hu⟩ : ∃ u, i[a]? = some u :=
    ⟨i[a]'(by rw [length_of_mem_idx hmem]; exact halt), List.getElem?_eq_getElem _⟩
  have hult : u < data.length := getElem?_lt_of_mem_idx hmem hu hs
  have hmin : min u (data.length - 1) = u := by omega
  have hv : data[u]? = some data[u] := List.getElem?_eq_getElem hult
  by_cases hlast : a + 1 < d.ndim ∨ u + 1 = data.length
  · refine ⟨u, (data[u] : ℚ), hu, ?_, i, u, data[u], hik, hu, hv, Or.inl ⟨hlast, rfl⟩⟩
    simp only [quantVal, hmin, hlast, if_true, hv]
  · have ha : a + 1 = d.shape.length := by rw [hrank] at halt ⊢; omega
    have hu1 : u + 1 < data.length := by omega
    have hv1 : data[u + 1]? = some data[u + 1] := List.getElem?_eq_getElem hu1
    obtain ⟨hk1, hnext⟩ := unravelIx_next hk.lt ha hs hu hu1
    rw [← hi] at hnext
    have hik1 : (indices d.shape)[k + 1]? = some (i.set a (u + 1)) := by
      rw [getElem?_indices hk1, hnext]
    have hmem1 : i.set a (u + 1) ∈ idx d.shape := by rw [← hnext]; exact unravelIx_mem hk1
    have hp0 : ravprob[k]? = some (d.at i) := by rw [hr, List.getElem?_map, hik]; rfl
    have hp1 : ravprob[k + 1]? = some (d.at (i.set a (u + 1))) := by
      rw [hr, List.getElem?_map, hik1]; rfl
    have hc0 : cumprob[k]? = some (Spec.cumulative d k) := by
      rw [hc, List.getElem?_map, List.getElem?_range hk.lt]; rfl
    have hc1 : cumprob[k + 1]? = some (Spec.cumulative d (k + 1)) := by
      rw [hc, List.getElem?_map, List.getElem?_range hk1]; rfl
    have hgt := hk.gt hk1
    have hpos : 0 < d.at i + d.at (i.set a (u + 1)) := by
      have n0 := h.nonneg i hmem
      have n1 := h.nonneg _ hmem1
      by_contra hcon
      have z0 : d.at i = 0 := by linarith
      have z1 : d.at (i.set a (u + 1)) = 0 := by linarith
      have e1 : Spec.cumulative d (k + 1) = Spec.cumulative d k := by
        rw [Spec.cumulative, Spec.cumulative, Spec.massUpTo_succ d hik1, z1, add_zero]
      rcases hk.le with rfl | hle
      · have : Spec.cumulative d 0 = 0 := by
          rw [Spec.cumulative, Spec.massUpTo_succ d hik, z0]
          simp [Spec.massUpTo]
        rw [e1, this] at hgt
        linarith
      · rw [e1] at hgt
        linarith
    refine ⟨u, _, hu, ?_, i, u, data[u], hik, hu, hv, Or.inr ⟨by rw [← hrank]; exact ha, data[u + 1], hv1, hk1, hik1, hpos, rfl⟩⟩
    simp only [quantVal, hmin, hlast, if_false, hv, hv1, hp0, hp1, hc0, hc1]
    by_cases hm : |d.at (i.set a (u + 1)) - d.at i| < min q (1 - q)
    · rw [if_pos hm, if_pos hm, interp2]
      by_cases hqc : q ≤ Spec.cumulative d k
      · rw [if_pos hqc, if_pos hqc]
      · rw [if_neg hqc, if_neg hqc, if_neg (not_le.mpr hgt)]
        congr 2
        ring
    · rw [if_neg hm, if_neg hm]

/-- C53: for every well-formed distribution of any rank, `quantile` returns for
each requested probability the entries of all variables at one and the same
entry of the distribution. -/
theorem C53_quantile (fmt : Val → Str) (d : PD) (qs : List ℝ) (h : d.WF fmt) (hp : Spec.Proper d)
    (hns : d.dist.issingleton = false) (hq : ∀ q ∈ qs, 0 ≤ q) :
    ∃ outs, d.quantile qs = .ok outs ∧
      List.Forall₂ (fun q out => ∃ k, Spec.QuantAt d q k ∧
        List.Forall₂ (Spec.QuantEntry d q k) d.vals out) qs outs := by
  obtain ⟨hval, hread⟩ := hp.readable
  set P : Arr := d.prob.map (fun x => rescaleE x d.pscale (.lin 1)) with hP
  have hr1 : rescaleArr d.prob d.pscale.spec (.flt 1) = .ok P := by
    simp [rescaleArr, h.stable, evalPscale_one, bind, Except.bind, pure, Except.pure, hP]
  have hPs : P.shape = d.shape := h.probShape
  have hrav : P.ravel = (indices d.shape).map d.at := by
    rw [Arr.ravel, hPs]
    apply List.map_congr_left
    intro i hi
    exact rescaleE_to_one _ _ hval h.stable (hread i (by rw [idx, List.mem_toFinset]; exact hi))
  have hlen : ((indices d.shape).map d.at).length = d.shape.prod := by
    rw [List.length_map, length_indices]
  have hcs : cumsum P.ravel = (List.range d.shape.prod).map fun k => Spec.massUpTo d (k + 1) := by
    rw [hrav, cumsum_eq, hlen]
    simp only [Spec.massUpTo_eq]
  have hpp : 0 < d.shape.prod := by
    rcases Nat.eq_zero_or_pos d.shape.prod with hz | hz
    · have := hp.pos
      rw [hz] at this
      simp [Spec.massUpTo] at this
    · exact hz
  have hlast : (cumsum P.ravel).getLast? = some (Spec.massUpTo d d.shape.prod) := by
    obtain ⟨m, hm⟩ : ∃ m, d.shape.prod = m + 1 := ⟨d.shape.prod - 1, by omega⟩
    rw [hcs, hm, List.range_succ]
    simp
  have hcp : (cumsum P.ravel).map (· / max npz (Spec.massUpTo d d.shape.prod)) =
      (List.range d.shape.prod).map (Spec.cumulative d) := by
    rw [hcs, List.map_map, max_eq_right hp.total]
    rfl
  have hsorted : ((List.range d.shape.prod).map (Spec.cumulative d)).Pairwise (· ≤ ·) := by
    rw [List.pairwise_map]
    exact List.pairwise_lt_range.imp fun hab => hp.cum_mono hab.le
  obtain ⟨outs, o1, o2⟩ := mapM_forall₂ (f := quantOne d P.ravel ((List.range d.shape.prod).map (Spec.cumulative d)))
    (P := fun q out => ∃ k, Spec.QuantAt d q k ∧ List.Forall₂ (Spec.QuantEntry d q k) d.vals out) qs (by
      intro q hqm
      set c := ((List.range d.shape.prod).map (Spec.cumulative d)).countP (fun b => decide (b ≤ q)) with hcdef
      have hdig : npDigitize q ((List.range d.shape.prod).map (Spec.cumulative d)) = .ok c := by
        rw [npDigitize, if_pos hsorted]
      have hcl : c ≤ d.shape.prod := by
        have := List.countP_le_length (p := fun b => decide (b ≤ q)) (l := (List.range d.shape.prod).map (Spec.cumulative d))
        rw [List.length_map, List.length_range] at this
        exact this
      have hcount : ∀ j < d.shape.prod, (j < c ↔ Spec.cumulative d j ≤ q) := by
        intro j hj
        exact countP_sorted _ hsorted q j _ (by rw [List.getElem?_map, List.getElem?_range hj]; rfl)
      have hk : Spec.QuantAt d q (c - 1) := by
        refine ⟨by omega, ?_, ?_⟩
        · rcases Nat.eq_zero_or_pos c with hz | hz
          · left; omega
          · right; exact (hcount (c - 1) (by omega)).mp (by omega)
        · intro hlt
          have := (hcount (c - 1 + 1) hlt).not.mp (by omega)
          exact not_le.mp this
      obtain ⟨out, r1, r2⟩ := mapM_forall₂
        (f := quantStep d P.ravel ((List.range d.shape.prod).map (Spec.cumulative d)) q (c - 1))
        (P := Spec.QuantEntry d q (c - 1)) d.vals (by
          rintro ⟨key, v⟩ hkv
          have hg : Dict.get? d.vals key = some v := Dict.get?_of_mem h.nodup hkv
          rcases hs : v.issingleton with _ | _
          · obtain ⟨a, s, data, rfl, _, hdim, hsz⟩ := h.array key v hg hs
            have hax : d.axis key = some a := by simp [PD.axis, hdim]
            rcases hm : ismonotonic data with _ | _
            · refine ⟨(key, .given (.setint data.length)), ?_, rfl, ?_, ?_⟩
              · simp [quantStep, hs, hm]
              · intro hc; rw [hs] at hc; simp at hc
              · intro a' s' data' _ he
                simp only [Val.arr.injEq] at he
                obtain ⟨_, rfl⟩ := he
                exact ⟨fun _ => rfl, fun hc => by rw [hm] at hc; simp at hc⟩
            · obtain ⟨u, y, hu, hy, hQ⟩ := quantVal_ok hp h.rank (hq q hqm) hk rfl hsz hrav rfl
              refine ⟨(key, .value y), ?_, rfl, ?_, ?_⟩
              · simp only [quantStep, hs, Bool.false_eq_true, if_false, hm, Bool.not_true, dimOf, hdim,
                  bind, Except.bind, hu, hy, pure, Except.pure]
              · intro hc; rw [hs] at hc; simp at hc
              · intro a' s' data' ha' he
                simp only [Val.arr.injEq] at he
                obtain ⟨_, rfl⟩ := he
                rw [hax] at ha'
                simp only [Option.some.injEq] at ha'
                subst ha'
                exact ⟨fun hc => by rw [hm] at hc; simp at hc, fun _ => ⟨y, rfl, hQ⟩⟩
          · refine ⟨(key, .given v), by simp [quantStep, hs], rfl, fun _ => rfl, ?_⟩
            intro a s data ha
            rw [h.axis_none hg hs] at ha
            simp at ha)
      refine ⟨out, ?_, c - 1, hk, r2⟩
      simp only [quantOne, hdig, bind, Except.bind]
      exact r1)
  refine ⟨outs, ?_, o2⟩
  unfold PD.quantile
  rw [hns]
  simp only [Bool.false_eq_true, if_false, hr1, bind, Except.bind, hlast, hcp]
  exact o1

theorem forall₂_get? {α β : Type _} {R : Str × α → Str × β → Prop} (hR : ∀ x y, R x y → y.1 = x.1)
    {l : Dict Str α} {m : Dict Str β} (h : List.Forall₂ R l m) {k : Str} {v : α}
    (hk : Dict.get? l k = some v) : ∃ o, Dict.get? m k = some o ∧ R (k, v) (k, o) := by
  induction h with
  | nil => simp [Dict.get?] at hk
  | @cons x y l m hxy _ ih =>
    have he := hR x y hxy
    obtain ⟨x1, x2⟩ := x
    obtain ⟨y1, y2⟩ := y
    simp only at he
    subst he
    simp only [Dict.get?] at hk ⊢
    by_cases hx : y1 = k
    · rw [if_pos hx] at hk ⊢
      simp only [Option.some.injEq] at hk
      subst hk hx
      exact ⟨y2, rfl, hxy⟩
    · rw [if_neg hx] at hk ⊢
      exact ih hk

/-- The number returned lies between the value at the entry and the next value. -/
theorem Spec.QuantVal.between {d : PD} (hp : Spec.Proper d) {q : ℝ} {k a : ℕ}
    (hk : Spec.QuantAt d q k) {data : List ℚ} {y : ℝ} (h : Spec.QuantVal d q k a data y) :
    ∃ i u v w, (indices d.shape)[k]? = some i ∧ i[a]? = some u ∧ data[u]? = some v ∧
      (w = v ∨ data[u + 1]? = some w) ∧ min (v : ℝ) w ≤ y ∧ y ≤ max (v : ℝ) w := by
  obtain ⟨i, u, v, h1, h2, h3, h4⟩ := h
  rcases h4 with ⟨_, rfl⟩ | ⟨ha, v1, h5, hk1, h6, hpos, rfl⟩
  · exact ⟨i, u, v, v, h1, h2, h3, Or.inl rfl, by simp, by simp⟩
  · refine ⟨i, u, v, v1, h1, h2, h3, Or.inr h5, ?_⟩
    have hi : i ∈ idx d.shape := by rw [idx, List.mem_toFinset]; exact List.mem_of_getElem? h1
    have hi' : i.set a (u + 1) ∈ idx d.shape := by
      rw [idx, List.mem_toFinset]; exact List.mem_of_getElem? h6
    have n0 := hp.nonneg _ hi
    have n1 := hp.nonneg _ hi'
    set p0 := d.at i
    set p1 := d.at (i.set a (u + 1))
    have l0 := min_le_left (v : ℝ) v1
    have l1 := min_le_right (v : ℝ) v1
    have u0 := le_max_left (v : ℝ) v1
    have u1 := le_max_right (v : ℝ) v1
    split_ifs with hm hq
    · exact ⟨l0, u0⟩
    · have hgt := hk.gt hk1
      set c0 := Spec.cumulative d k
      set c1 := Spec.cumulative d (k + 1)
      have hc : 0 < c1 - c0 := by linarith [not_le.mp hq]
      have t0 : 0 ≤ (q - c0) / (c1 - c0) := div_nonneg (by linarith [not_le.mp hq]) hc.le
      have t1 : (q - c0) / (c1 - c0) ≤ 1 := (div_le_one hc).mpr (by linarith)
      set t := (q - c0) / (c1 - c0)
      have e : (v : ℝ) + (v1 - v) * t = (1 - t) * v + t * v1 := by ring
      rw [e]
      constructor
      · have := mul_le_mul_of_nonneg_left l0 (sub_nonneg.mpr t1)
        have := mul_le_mul_of_nonneg_left l1 t0
        linarith
      · have := mul_le_mul_of_nonneg_left u0 (sub_nonneg.mpr t1)
        have := mul_le_mul_of_nonneg_left u1 t0
        linarith
    · constructor
      · rw [le_div_iff₀ hpos]
        have := mul_le_mul_of_nonneg_left l0 n0
        have := mul_le_mul_of_nonneg_left l1 n1
        linarith
      · rw [div_le_iff₀ hpos]
        have := mul_le_mul_of_nonneg_left u0 n0
        have := mul_le_mul_of_nonneg_left u1 n1
        linarith

theorem PD.WF.not_single {fmt : Val → Str} {d : PD} (h : d.WF fmt) {k : Str} {a : ℕ} (ha : d.axis k = some a) :
    d.dist.issingleton = false := by
  rw [h.is, List.all_eq_false]
  obtain ⟨s, data, hv, hs, _⟩ := h.axis_some ha
  exact ⟨_, Dict.get?_mem hv, by simpa [Val.issingleton] using hs⟩

/-- The value of a sorted variable for one requested probability. -/
theorem quantile_one {fmt : Val → Str} {d : PD} (h : d.WF fmt) (hp : Spec.Proper d)
    {q : ℝ} (hq : 0 ≤ q) {key : Str} {a : ℕ} {data : List ℚ} (ha : d.axis key = some a)
    (hd : d.values key = some (.arr [data.length] data)) (hm : ismonotonic data = true) :
    ∃ out y k, d.quantile [q] = .ok [out] ∧ Dict.get? out key = some (.value y) ∧
      Spec.QuantAt d q k ∧ Spec.QuantVal d q k a data y := by
  obtain ⟨outs, h1, h2⟩ := C53_quantile fmt d [q] h hp (h.not_single ha) (by simpa using hq)
  obtain ⟨out, outs', ⟨k, hk, hout⟩, hnil, rfl⟩ := List.forall₂_cons_left_iff.mp h2
  rw [List.forall₂_nil_left_iff] at hnil
  subst hnil
  obtain ⟨s, data', hv, hs, _⟩ := h.axis_some ha
  obtain ⟨o, ho, _, _, hR⟩ := forall₂_get? (fun x y hxy => hxy.1) hout hv
  have hdd : data' = data := by
    rw [PD.values, hv] at hd
    rcases s with _ | ⟨n, s⟩
    · simp [Val.issingleton] at hs
    · simp only [Option.map_some, Val.flat, Option.some.injEq, Val.arr.injEq] at hd
      exact hd.2
  subst hdd
  obtain ⟨y, hy, hQ⟩ := (hR a s data' ha rfl).2 hm
  simp only at hy
  exact ⟨out, y, k, h1, by rw [ho, hy], hk, hQ⟩

/-- C53: for every rank, the quantile of a sorted variable of at least two values
lies between values of the variable. -/
theorem C53_range (fmt : Val → Str) (d : PD) (q : ℝ) (key : Str) (a : ℕ) (data : List ℚ) (h : d.WF fmt)
    (hp : Spec.Proper d) (hq : 0 ≤ q) (ha : d.axis key = some a)
    (hd : d.values key = some (.arr [data.length] data)) (h2 : 2 ≤ data.length)
    (hs : data.Pairwise (· ≤ ·) ∨ data.Pairwise (· > ·)) :
    ∃ out y, d.quantile [q] = .ok [out] ∧ Dict.get? out key = some (.value y) ∧
      ∃ lo ∈ data, ∃ hi ∈ data, (lo : ℝ) ≤ y ∧ y ≤ hi := by
  obtain ⟨out, y, k, h1, h2, hk, hQ⟩ := quantile_one h hp hq ha hd
    ((C52_characterisation data).mpr ⟨h2, hs⟩)
  refine ⟨out, y, h1, h2, ?_⟩
  obtain ⟨i, u, v, w, _, _, hv, hw, hlo, hhi⟩ := hQ.between hp hk
  have hvm : v ∈ data := List.mem_of_getElem? hv
  have hwm : w ∈ data := by
    rcases hw with rfl | hw
    · exact hvm
    · exact List.mem_of_getElem? hw
  rcases le_total (v : ℝ) w with hvw | hvw
  · rw [min_eq_left hvw] at hlo; rw [max_eq_right hvw] at hhi
    exact ⟨v, hvm, w, hwm, hlo, hhi⟩
  · rw [min_eq_right hvw] at hlo; rw [max_eq_left hvw] at hhi
    exact ⟨w, hwm, v, hvm, hlo, hhi⟩

/-! ### one axis -/

theorem indices_one (n : ℕ) : indices [n] = (List.range n).map fun i => [i] := by
  simp only [indices, List.map_cons, List.map_nil]
  induction List.range n with
  | nil => rfl
  | cons x l ih => simp [List.flatMap_cons, ih]

theorem massUpTo_one {d : PD} {n : ℕ} (hs : d.shape = [n]) {m : ℕ} (hm : m ≤ n) :
    Spec.massUpTo d m = ∑ j ∈ Finset.range m, d.at [j] := by
  rw [Spec.massUpTo, hs, indices_one, ← List.map_take, List.take_range, min_eq_left hm, List.map_map]
  clear hm
  induction m with
  | zero => simp
  | succ m ih => rw [List.range_succ, List.map_append, List.sum_append, ih, Finset.sum_range_succ]; simp

theorem Spec.QuantAt.mono {d : PD} (hp : Spec.Proper d) {q q' : ℝ} {k k' : ℕ} (h : Spec.QuantAt d q k)
    (h' : Spec.QuantAt d q' k') (hq : q ≤ q') : k ≤ k' := by
  by_contra hc
  have hlt : k' < k := by omega
  rcases h.le with h0 | h0
  · omega
  · have h1 := h'.gt (by have := h.lt; omega)
    have h2 := hp.cum_mono (a := k' + 1) (b := k) hlt
    linarith

/-- No difference of neighbouring probabilities tells `q` and `q'` apart: the rule
that chooses between interpolation and weighting is the same for both. -/
def Spec.SameRule (d : PD) (q q' : ℝ) : Prop :=
  ∀ j, |d.at [j + 1] - d.at [j]| < min q (1 - q) ↔ |d.at [j + 1] - d.at [j]| < min q' (1 - q')

theorem quantVal_mono {d : PD} (hp : Spec.Proper d) {n : ℕ} (hs : d.shape = [n]) (hnd : d.ndim = 1)
    {q q' : ℝ} (hq : q ≤ q') (hr : Spec.SameRule d q q') {k k' : ℕ} (hk : Spec.QuantAt d q k)
    (hk' : Spec.QuantAt d q' k') {data : List ℚ} {y y' : ℝ} (h : Spec.QuantVal d q k 0 data y)
    (h' : Spec.QuantVal d q' k' 0 data y') (σ : ℝ) (hσ : σ = 1 ∨ σ = -1)
    (hm : ∀ (i j : ℕ) (v w : ℚ), i ≤ j → data[i]? = some v → data[j]? = some w → σ * v ≤ σ * w) :
    σ * y ≤ σ * y' := by
  have hix : ∀ k < n, (indices d.shape)[k]? = some [k] := by
    intro k hkn
    rw [hs, indices_one, List.getElem?_map, List.getElem?_range hkn]; rfl
  have hlt : ∀ {q k}, Spec.QuantAt d q k → k < n := by
    intro q k hk; have := hk.lt; rw [hs] at this; simpa using this
  have hkk := hk.mono hp hk' hq
  rcases Nat.lt_or_eq_of_le hkk with hkk | rfl
  · obtain ⟨i, u, v, w, e1, e2, e3, e4, lo, hi⟩ := h.between hp hk
    obtain ⟨i', u', v', w', e1', e2', e3', e4', lo', hi'⟩ := h'.between hp hk'
    rw [hix k (hlt hk)] at e1
    rw [hix k' (hlt hk')] at e1'
    simp only [Option.some.injEq] at e1 e1'
    subst e1 e1'
    simp only [List.getElem?_cons_zero, Option.some.injEq] at e2 e2'
    subst e2 e2'
    have a1 : σ * v ≤ σ * v' := hm _ _ _ _ hkk.le e3 e3'
    have a2 : σ * w ≤ σ * v' := by
      rcases e4 with rfl | e4
      · exact a1
      · exact hm _ _ _ _ hkk e4 e3'
    have a3 : σ * v' ≤ σ * w' := by
      rcases e4' with rfl | e4'
      · exact le_refl _
      · exact hm _ _ _ _ (by omega) e3' e4'
    have b1 : σ * y ≤ σ * v' := by
      rcases hσ with rfl | rfl
      · rcases le_total (v : ℝ) w with hvw | hvw
        · rw [max_eq_right hvw] at hi; linarith
        · rw [max_eq_left hvw] at hi; linarith
      · rcases le_total (v : ℝ) w with hvw | hvw
        · rw [min_eq_left hvw] at lo; linarith
        · rw [min_eq_right hvw] at lo; linarith
    have b2 : σ * v' ≤ σ * y' := by
      rcases hσ with rfl | rfl
      · rw [min_eq_left (by linarith)] at lo'; linarith
      · rw [max_eq_left (by linarith)] at hi'; linarith
    linarith
  · obtain ⟨i, u, v, e1, e2, e3, e4⟩ := h
    obtain ⟨i', u', v', e1', e2', e3', e4'⟩ := h'
    rw [hix k (hlt hk)] at e1 e1'
    simp only [Option.some.injEq] at e1 e1'
    subst e1 e1'
    simp only [List.getElem?_cons_zero, Option.some.injEq] at e2 e2'
    subst e2 e2'
    rw [e3] at e3'
    simp only [Option.some.injEq] at e3'
    subst e3'
    have hno : ∀ w, data[k + 1]? = some w → ¬ (0 + 1 < d.ndim ∨ k + 1 = data.length) := by
      rintro w hw (hc | hc)
      · omega
      · rw [hc, List.getElem?_eq_none (le_refl _)] at hw; simp at hw
    rcases e4 with ⟨hl, rfl⟩ | ⟨_, v1, f1, f2, _, f3, rfl⟩
    · rcases e4' with ⟨_, rfl⟩ | ⟨_, v1, f1, _⟩
      · exact le_refl _
      · exact absurd hl (hno v1 f1)
    · rcases e4' with ⟨hl, rfl⟩ | ⟨_, v1', f1', _, _, _, rfl⟩
      · exact absurd hl (hno v1 f1)
      · rw [f1] at f1'
        simp only [Option.some.injEq] at f1'
        subst f1'
        have hv : σ * v ≤ σ * v1 := hm _ _ _ _ (by omega) e3 f1
        have hr' := hr k
        have hset : ([k] : List ℕ).set 0 (k + 1) = [k + 1] := rfl
        rw [hset]
        by_cases hj : |d.at [k + 1] - d.at [k]| < min q (1 - q)
        · rw [if_pos hj, if_pos (hr'.mp hj)]
          have hgt := hk'.gt f2
          set c0 := Spec.cumulative d k
          set c1 := Spec.cumulative d (k + 1)
          by_cases g1 : q ≤ c0
          · rw [if_pos g1]
            by_cases g2 : q' ≤ c0
            · rw [if_pos g2]
            · rw [if_neg g2]
              have t0 : 0 ≤ (q' - c0) / (c1 - c0) :=
                div_nonneg (by linarith [not_le.mp g2]) (by linarith [not_le.mp g2])
              have := mul_nonneg (by linarith : 0 ≤ σ * v1 - σ * v) t0
              nlinarith
          · rw [if_neg g1, if_neg (by intro hc; exact g1 (hq.trans hc))]
            have hc : 0 ≤ c1 - c0 := by linarith [not_le.mp g1]
            have t0 : (q - c0) / (c1 - c0) ≤ (q' - c0) / (c1 - c0) :=
              div_le_div_of_nonneg_right (by linarith) hc
            have := mul_le_mul_of_nonneg_left t0 (by linarith : 0 ≤ σ * v1 - σ * v)
            nlinarith
        · rw [if_neg hj, if_neg (fun hc => hj (hr'.mpr hc))]

theorem pairwise_getElem? {α : Type _} {R : α → α → Prop} (hrefl : ∀ x, R x x) {l : List α}
    (hl : l.Pairwise R) {i j : ℕ} {v w : α} (hij : i ≤ j) (hv : l[i]? = some v) (hw : l[j]? = some w) : R v w := by
  rcases Nat.lt_or_eq_of_le hij with hlt | rfl
  · obtain ⟨hi, rfl⟩ := List.getElem?_eq_some_iff.mp hv
    obtain ⟨hj, rfl⟩ := List.getElem?_eq_some_iff.mp hw
    exact List.pairwise_iff_getElem.mp hl i j hi hj hlt
  · rw [hv] at hw
    simp only [Option.some.injEq] at hw
    subst hw
    exact hrefl v

/-- The single axis of a distribution with one axis. -/
theorem PD.WF.one_axis {fmt : Val → Str} {d : PD} (h : d.WF fmt) (hnd : d.ndim = 1) {key : Str} {data : List ℚ}
    (hax : d.axis key ≠ none) (hd : d.values key = some (.arr [data.length] data)) :
    d.axis key = some 0 ∧ d.shape = [data.length] := by
  obtain ⟨a, ha⟩ := Option.ne_none_iff_exists'.mp hax
  have hlt := h.axis_lt ha
  have ha0 : a = 0 := by omega
  subst ha0
  refine ⟨ha, ?_⟩
  obtain ⟨s, data', hv, hs, hsz, _⟩ := h.axis_some ha
  have hdd : data' = data := by
    rw [PD.values, hv] at hd
    rcases s with _ | ⟨n, s⟩
    · simp at hs
    · simp only [Option.map_some, Val.flat, Option.some.injEq, Val.arr.injEq] at hd
      exact hd.2
  subst hdd
  have hr := h.rank
  rw [hnd] at hr
  obtain ⟨n, hn⟩ := List.length_eq_one_iff.mp hr
  rw [hn] at hsz ⊢
  simpa using hsz

/-- C53 as intended: with one axis and non-decreasing values, quantiles lie in the
range of the values and do not decrease with the probability. -/
def C53_claim : Prop :=
  ∀ (fmt : Val → Str) (d : PD) (q q' : ℝ) (key : Str) (data : List ℚ), d.WF fmt → Spec.Proper d →
    d.ndim = 1 → d.axis key ≠ none → d.values key = some (.arr [data.length] data) →
    data.Pairwise (· ≤ ·) → 0 ≤ q → q ≤ q' → q' ≤ 1 →
    ∃ out out' y y', d.quantile [q, q'] = .ok [out, out'] ∧
      Dict.get? out key = some (.value y) ∧ Dict.get? out' key = some (.value y') ∧
      (∃ lo ∈ data, ∃ hi ∈ data, (lo : ℝ) ≤ y ∧ y ≤ hi) ∧ y ≤ y'

/-- Several requests at once are the same as one after another. -/
theorem quantile_two {d : PD} {q q' : ℝ} {out out' : Dict Str Quant} (h : d.quantile [q] = .ok [out])
    (h' : d.quantile [q'] = .ok [out']) : d.quantile [q, q'] = .ok [out, out'] := by
  unfold PD.quantile at *
  by_cases hs : d.dist.issingleton
  · simp only [hs, if_true, List.map_cons, List.map_nil, Except.ok.injEq, List.cons.injEq, and_true] at h h' ⊢
    exact ⟨h, h'⟩
  · simp only [hs, Bool.false_eq_true, if_false, bind, Except.bind] at h h' ⊢
    rcases hr : rescaleArr d.prob d.pscale.spec (.flt 1) with e | P
    · rw [hr] at h; simp at h
    · simp only [hr] at h h' ⊢
      rcases hl : (cumsum P.ravel).getLast? with _ | t
      · rw [hl] at h; simp at h
      · simp only [hl, List.mapM_cons, List.mapM_nil, bind, Except.bind, pure, Except.pure] at h h' ⊢
        rcases h1 : quantOne d P.ravel ((cumsum P.ravel).map (· / max npz t)) q with e | o
        · rw [h1] at h; simp at h
        · rcases h2 : quantOne d P.ravel ((cumsum P.ravel).map (· / max npz t)) q' with e | o'
          · rw [h2] at h'; simp at h'
          · simp only [h1, h2, Except.ok.injEq, List.cons.injEq, and_true] at h h' ⊢
            exact ⟨h, h'⟩

/-- C53, proved part: with one axis and at least two sorted values, the quantile
follows the order of the values as long as no difference of neighbouring
probabilities lies between the thresholds `min(q, 1-q)` and `min(q', 1-q')`.
Missing: single values (`C53_size_returned`) and other differences
(`C53_claim_fails`). -/
theorem C53_monotone_partial (fmt : Val → Str) (d : PD) (q q' : ℝ) (key : Str) (data : List ℚ) (h : d.WF fmt)
    (hp : Spec.Proper d) (hnd : d.ndim = 1) (hax : d.axis key ≠ none)
    (hd : d.values key = some (.arr [data.length] data)) (h2 : 2 ≤ data.length)
    (hs : data.Pairwise (· ≤ ·) ∨ data.Pairwise (· > ·))
    (h0 : 0 ≤ q) (hqq : q ≤ q') (hr : Spec.SameRule d q q') :
    ∃ out out' y y', d.quantile [q, q'] = .ok [out, out'] ∧
      Dict.get? out key = some (.value y) ∧ Dict.get? out' key = some (.value y') ∧
      (data.Pairwise (· ≤ ·) → y ≤ y') ∧ (data.Pairwise (· > ·) → y' ≤ y) := by
  obtain ⟨ha, hsh⟩ := h.one_axis hnd hax hd
  have hm := (C52_characterisation data).mpr ⟨h2, hs⟩
  obtain ⟨out, y, k, r1, r2, r3, r4⟩ := quantile_one h hp h0 ha hd hm
  obtain ⟨out', y', k', r1', r2', r3', r4'⟩ := quantile_one h hp (h0.trans hqq) ha hd hm
  refine ⟨out, out', y, y', quantile_two r1 r1', r2, r2', ?_, ?_⟩
  · intro hp1
    have := quantVal_mono hp hsh hnd hqq hr r3 r3' r4 r4' 1 (Or.inl rfl) (by
      intro i j v w hij hv hw
      have := pairwise_getElem? (R := (· ≤ ·)) (fun x => le_refl x) hp1 hij hv hw
      have : (v : ℝ) ≤ w := by exact_mod_cast this
      linarith)
    linarith
  · intro hp1
    have := quantVal_mono hp hsh hnd hqq hr r3 r3' r4 r4' (-1) (Or.inr rfl) (by
      intro i j v w hij hv hw
      have := pairwise_getElem? (R := (· ≥ ·)) (fun x => le_refl x) (hp1.imp fun hab => le_of_lt hab) hij hv hw
      have : (w : ℝ) ≤ v := by exact_mod_cast this
      linarith)
    linarith

/-- C53: with one axis, the quantile lies between two neighbouring values such
that the probability up to the first (unless it is the first of all) is at most
`q` and up to the second exceeds `q`; from `q = 1` on it is the last value. -/
theorem C53_bracket (fmt : Val → Str) (d : PD) (q : ℝ) (key : Str) (data : List ℚ) (h : d.WF fmt)
    (hp : Spec.Proper d) (hnd : d.ndim = 1) (hax : d.axis key ≠ none)
    (hd : d.values key = some (.arr [data.length] data)) (h2 : 2 ≤ data.length)
    (hs : data.Pairwise (· ≤ ·)) (h0 : 0 ≤ q) :
    ∃ out y k, d.quantile [q] = .ok [out] ∧ Dict.get? out key = some (.value y) ∧
      (k = 0 ∨ ∑ j ∈ Finset.range (k + 1), d.at [j] ≤ q * ∑ j ∈ Finset.range data.length, d.at [j]) ∧
      ((k + 1 < data.length ∧ q * ∑ j ∈ Finset.range data.length, d.at [j] < ∑ j ∈ Finset.range (k + 2), d.at [j] ∧
          ∃ v w, data[k]? = some v ∧ data[k + 1]? = some w ∧ (v : ℝ) ≤ y ∧ y ≤ w) ∨
        (k + 1 = data.length ∧ ∃ v, data[k]? = some v ∧ y = v)) := by
  obtain ⟨ha, hsh⟩ := h.one_axis hnd hax hd
  have hm := (C52_characterisation data).mpr ⟨h2, Or.inl hs⟩
  obtain ⟨out, y, k, r1, r2, r3, r4⟩ := quantile_one h hp h0 ha hd hm
  have hprod : d.shape.prod = data.length := by rw [hsh]; simp
  have hkl : k < data.length := by have := r3.lt; rwa [hprod] at this
  have htot : Spec.massUpTo d d.shape.prod = ∑ j ∈ Finset.range data.length, d.at [j] := by
    rw [hprod]; exact massUpTo_one hsh (le_refl _)
  have hpos := hp.pos
  refine ⟨out, y, k, r1, r2, ?_, ?_⟩
  · rcases r3.le with h1 | h1
    · exact Or.inl h1
    · right
      rw [Spec.cumulative, div_le_iff₀ hpos, massUpTo_one hsh hkl, htot] at h1
      exact h1
  · have hix : (indices d.shape)[k]? = some [k] := by
      rw [hsh, indices_one, List.getElem?_map, List.getElem?_range hkl]; rfl
    rcases Nat.lt_or_eq_of_le (Nat.succ_le_of_lt hkl) with hlt | heq
    · left
      refine ⟨hlt, ?_, ?_⟩
      · have h1 := r3.gt (by rw [hprod]; exact hlt)
        rw [Spec.cumulative, lt_div_iff₀ hpos, massUpTo_one hsh hlt, htot] at h1
        exact h1
      · obtain ⟨i, u, v, w, e1, e2, e3, e4, lo, hi⟩ := r4.between hp r3
        rw [hix] at e1
        simp only [Option.some.injEq] at e1
        subst e1
        simp only [List.getElem?_cons_zero, Option.some.injEq] at e2
        subst e2
        have hw1 : data[k + 1]? = some data[k + 1] := List.getElem?_eq_getElem hlt
        have hle : v ≤ data[k + 1] := pairwise_getElem? (R := (· ≤ ·)) (fun x => le_refl x) hs (by omega) e3 hw1
        have hle' : (v : ℝ) ≤ (data[k + 1] : ℚ) := by exact_mod_cast hle
        refine ⟨v, data[k + 1], e3, hw1, ?_⟩
        rcases e4 with rfl | e4
        · rw [min_self] at lo; rw [max_self] at hi
          exact ⟨lo, hi.trans hle'⟩
        · rw [hw1] at e4
          simp only [Option.some.injEq] at e4
          subst e4
          rw [min_eq_left hle'] at lo
          rw [max_eq_right hle'] at hi
          exact ⟨lo, hi⟩
    · right
      refine ⟨heq, ?_⟩
      obtain ⟨i, u, v, e1, e2, e3, e4⟩ := r4
      rw [hix] at e1
      simp only [Option.some.injEq] at e1
      subst e1
      simp only [List.getElem?_cons_zero, Option.some.injEq] at e2
      subst e2
      refine ⟨v, e3, ?_⟩
      rcases e4 with ⟨_, rfl⟩ | ⟨_, w, e5, _⟩
      · rfl
      · rw [List.getElem?_eq_none (by omega)] at e5
        simp at e5

/-- C53: from probability one on the quantile is the last value. -/
theorem C53_one (fmt : Val → Str) (d : PD) (q : ℝ) (key : Str) (data : List ℚ) (h : d.WF fmt)
    (hp : Spec.Proper d) (hnd : d.ndim = 1) (hax : d.axis key ≠ none)
    (hd : d.values key = some (.arr [data.length] data)) (h2 : 2 ≤ data.length)
    (hs : data.Pairwise (· ≤ ·)) (h1 : 1 ≤ q) :
    ∃ out v, d.quantile [q] = .ok [out] ∧ data.getLast? = some v ∧ Dict.get? out key = some (.value v) := by
  obtain ⟨_, hsh⟩ := h.one_axis hnd hax hd
  obtain ⟨out, y, k, r1, r2, _, r4⟩ := C53_bracket fmt d q key data h hp hnd hax hd h2 hs (by linarith)
  rcases r4 with ⟨hk, hlt, _⟩ | ⟨hk, v, hv, rfl⟩
  · exfalso
    have e1 := massUpTo_one hsh (le_refl data.length)
    have e2 := massUpTo_one (m := k + 2) hsh hk
    have e3 := hp.mono (show k + 2 ≤ data.length from hk)
    have e4 := hp.pos
    rw [hsh] at e4
    simp only [List.prod_cons, List.prod_nil, mul_one] at e4
    rw [← e1, ← e2] at hlt
    have := mul_le_mul_of_nonneg_right h1 e4.le
    linarith
  · refine ⟨out, v, r1, ?_, r2⟩
    rw [List.getLast?_eq_getElem?, show data.length - 1 = k by omega]
    exact hv

/-- C53: a variable that is not sorted, or has a single value, is answered with
the set of its number of values instead of a value. -/
theorem C53_size_returned (fmt : Val → Str) (d : PD) (q : ℝ) (key : Str) (a : ℕ) (data : List ℚ) (h : d.WF fmt)
    (hp : Spec.Proper d) (hq : 0 ≤ q) (ha : d.axis key = some a)
    (hd : d.values key = some (.arr [data.length] data))
    (hs : ¬ (2 ≤ data.length ∧ (data.Pairwise (· ≤ ·) ∨ data.Pairwise (· > ·)))) :
    ∃ out, d.quantile [q] = .ok [out] ∧ Dict.get? out key = some (.given (.setint data.length)) := by
  have hm : ismonotonic data = false := by
    rw [← Bool.not_eq_true, C52_characterisation]; exact hs
  obtain ⟨outs, h1, h2⟩ := C53_quantile fmt d [q] h hp (h.not_single ha) (by simpa using hq)
  obtain ⟨out, outs', ⟨k, hk, hout⟩, hnil, rfl⟩ := List.forall₂_cons_left_iff.mp h2
  rw [List.forall₂_nil_left_iff] at hnil
  subst hnil
  obtain ⟨s, data', hv, hs, _⟩ := h.axis_some ha
  obtain ⟨o, ho, _, _, hR⟩ := forall₂_get? (fun x y hxy => hxy.1) hout hv
  have hdd : data' = data := by
    rw [PD.values, hv] at hd
    rcases s with _ | ⟨n, s⟩
    · simp at hs
    · simp only [Option.map_some, Val.flat, Option.some.injEq, Val.arr.injEq] at hd
      exact hd.2
  subst hdd
  have hy := (hR a s data' ha rfl).1 hm
  simp only at hy
  exact ⟨out, h1, by rw [ho, hy]⟩

/-- C53: of a distribution of scalars every quantile is the distribution itself. -/
theorem C53_scalar (d : PD) (qs : List ℝ) (hs : d.dist.issingleton = true) :
    d.quantile qs = .ok (qs.map fun _ => d.vals.map fun kv => (kv.1, .given kv.2)) := by
  simp [PD.quantile, hs]

/-! ### where C53 fails -/

/-- p(x) with x = 0, 1, 2. -/
noncomputable def threePD (p : ℕ → ℝ) : PD :=
  ⟨['x'], [(['x'], ['x'])], [],
   ⟨[(['x'], .arr [3] [0, 1, 2])], [(['x'], some 0)], 1, [3], [3], 3, [false], false⟩,
   ⟨[3], fun i => p (i.getD 0 0)⟩, .lin 1⟩

theorem threePD_wf (fmt : Val → Str) (p : ℕ → ℝ) : (threePD p).WF fmt :=
  PD.wf_of_check rfl rfl (by simp [threePD, PScale.spec, evalPscale_one])

theorem threePD_at (p : ℕ → ℝ) (j : ℕ) : (threePD p).at [j] = p j := by
  simp [PD.at, threePD, Spec.value]

theorem threePD_mass (p : ℕ → ℝ) {m : ℕ} (hm : m ≤ 3) :
    Spec.massUpTo (threePD p) m = ∑ j ∈ Finset.range m, p j := by
  rw [massUpTo_one (n := 3) rfl hm]
  simp only [threePD_at]

theorem threePD_proper (p : ℕ → ℝ) (h0 : ∀ j < 3, 0 ≤ p j) (h1 : p 0 + p 1 + p 2 = 1) :
    Spec.Proper (threePD p) := by
  refine ⟨⟨by simp [threePD, Spec.Valid], ?_⟩, ?_, ?_⟩
  · intro i _
    simp [threePD, Spec.Unclamped]
  · intro i hi
    match i, mem_idx.mp hi with
    | [j], .cons hj .nil =>
      rw [threePD_at]
      exact h0 j hj
  · show npz ≤ Spec.massUpTo (threePD p) (3 * 1)
    rw [threePD_mass p (by norm_num)]
    simp only [mul_one, Finset.sum_range_succ, Finset.sum_range_zero, zero_add]
    rw [h1]
    exact npz_lt_one.le

/-- Probabilities 0.1, 0.5, 0.4. -/
noncomputable def unevenProb (j : ℕ) : ℝ := if j = 0 then 1 / 10 else if j = 1 then 1 / 2 else 2 / 5

theorem uneven_proper : Spec.Proper (threePD unevenProb) :=
  threePD_proper _ (by intro j _; unfold unevenProb; split_ifs <;> norm_num) (by norm_num [unevenProb])

/-- The quantile of the witness between its first two cumulative probabilities. -/
theorem uneven_quantile (q : ℝ) (h0 : 1 / 10 < q) (h1 : q < 6 / 10) :
    ∃ out, (threePD unevenProb).quantile [q] = .ok [out] ∧ Dict.get? out ['x'] =
      some (.value (if 2 / 5 < min q (1 - q) then (q - 1 / 10) * 2 else 5 / 6)) := by
  have hp := uneven_proper
  obtain ⟨out, y, k, r1, r2, r3, r4⟩ := quantile_one (threePD_wf (fun _ => []) unevenProb) hp (by linarith)
    (key := ['x']) (a := 0) (data := [0, 1, 2]) rfl rfl (by decide)
  refine ⟨out, r1, ?_⟩
  have hprod : (threePD unevenProb).shape.prod = 3 := rfl
  have m1 : Spec.massUpTo (threePD unevenProb) 1 = 1 / 10 := by
    rw [threePD_mass _ (by norm_num)]; norm_num [unevenProb, Finset.sum_range_succ]
  have m2 : Spec.massUpTo (threePD unevenProb) 2 = 6 / 10 := by
    rw [threePD_mass _ (by norm_num)]; norm_num [unevenProb, Finset.sum_range_succ]
  have m3 : Spec.massUpTo (threePD unevenProb) 3 = 1 := by
    rw [threePD_mass _ (by norm_num)]; norm_num [unevenProb, Finset.sum_range_succ]
  have c0 : Spec.cumulative (threePD unevenProb) 0 = 1 / 10 := by
    rw [Spec.cumulative, hprod, m1, m3]; norm_num
  have c1 : Spec.cumulative (threePD unevenProb) 1 = 6 / 10 := by
    rw [Spec.cumulative, hprod, m2, m3]; norm_num
  have hk : k = 0 := by
    rcases r3.le with h | h
    · exact h
    · by_contra hk
      have := hp.cum_mono (a := 1) (b := k) (by omega)
      rw [c1] at this
      linarith
  subst hk
  obtain ⟨i, u, v, e1, e2, e3, e4⟩ := r4
  have hi : i = [0] := by
    have : (indices (threePD unevenProb).shape)[0]? = some [0] := rfl
    rw [this] at e1; simpa using e1.symm
  subst hi
  have hu : u = 0 := by simpa using e2.symm
  subst hu
  have hv : v = 0 := by simpa using e3.symm
  subst hv
  rcases e4 with ⟨hc, _⟩ | ⟨_, v1, f1, _, _, _, rfl⟩
  · rcases hc with hc | hc
    · exact absurd hc (by decide)
    · simp at hc
  · have hv1 : v1 = 1 := by simpa using f1.symm
    subst hv1
    rw [r2, show ([0] : List ℕ).set 0 (0 + 1) = [1] from rfl, threePD_at, threePD_at, c0, c1]
    have a0 : unevenProb 0 = 1 / 10 := by norm_num [unevenProb]
    have a1 : unevenProb 1 = 1 / 2 := by norm_num [unevenProb]
    have ha : |unevenProb 1 - unevenProb 0| = 2 / 5 := by rw [a0, a1]; norm_num
    rw [ha, a0, a1, if_neg (not_le.mpr h0)]
    congr 2
    split_ifs
    · push_cast; ring
    · norm_num

/-- C53 fails: the quantile of 0.3 is 5/6, that of 0.41 only 0.62. -/
theorem C53_decreases : ∃ out out', (threePD unevenProb).quantile [3 / 10, 41 / 100] = .ok [out, out'] ∧
    Dict.get? out ['x'] = some (.value (5 / 6)) ∧ Dict.get? out' ['x'] = some (.value (62 / 100)) := by
  obtain ⟨out, h1, h2⟩ := uneven_quantile (3 / 10) (by norm_num) (by norm_num)
  obtain ⟨out', h1', h2'⟩ := uneven_quantile (41 / 100) (by norm_num) (by norm_num)
  refine ⟨out, out', quantile_two h1 h1', ?_, ?_⟩
  · rw [h2, if_neg (by norm_num)]
  · rw [h2', if_pos (by norm_num)]; norm_num

theorem C53_claim_fails : ¬ C53_claim := by
  intro h
  obtain ⟨out, out', y, y', h1, h2, h3, _, h4⟩ := h (fun _ => []) (threePD unevenProb) (3 / 10) (41 / 100)
    ['x'] [0, 1, 2] (threePD_wf _ _) uneven_proper rfl (by decide) rfl (by decide) (by norm_num) (by norm_num) (by norm_num)
  obtain ⟨o, o', g1, g2, g3⟩ := C53_decreases
  rw [h1] at g1
  simp only [Except.ok.injEq, List.cons.injEq, and_true] at g1
  obtain ⟨rfl, rfl⟩ := g1
  rw [h2] at g2
  rw [h3] at g3
  simp only [Option.some.injEq, Quant.value.injEq] at g2 g3
  rw [g2, g3] at h4
  norm_num at h4

/-- The hypotheses of the theorems above are met: equal probabilities. -/
example : ∃ out out' y y', (threePD fun _ => 1 / 3).quantile [1 / 2, 3 / 4] = .ok [out, out'] ∧
    Dict.get? out ['x'] = some (.value y) ∧ Dict.get? out' ['x'] = some (.value y') ∧ y ≤ y' := by
  obtain ⟨out, out', y, y', h1, h2, h3, h4, _⟩ := C53_monotone_partial (fun _ => []) (threePD fun _ => 1 / 3)
    (1 / 2) (3 / 4) ['x'] [0, 1, 2] (threePD_wf _ _)
    (threePD_proper _ (by intro j _; norm_num) (by norm_num)) rfl (by decide) rfl (by decide)
    (Or.inl (by decide)) (by norm_num) (by norm_num) (by
      intro j
      simp only [threePD_at]
      norm_num)
  exact ⟨out, out', y, y', h1, h2, h3, h4 (by decide)⟩

end Probayes
