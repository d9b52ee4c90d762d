/-
C23 (sorting a distribution) and C25 (changing its scale).
-/
import Verif.Lemmas.PDOps
import Verif.Props.PDMarg2

namespace Probayes

/-! ### C25 rescaled -/

/-- `r` has the variables, values, axes and name of `d`. -/
structure Spec.SameForm (d r : PD) : Prop where
  name : r.name = d.name
  marg : r.marg = d.marg
  cond : r.cond = d.cond
  keylist : r.keylist = d.keylist
  axis : ∀ k, r.axis k = d.axis k
  shape : r.shape = d.shape

/-- C25: `rescaled(t)` changes nothing but the scale: names, variables, values,
axes and the represented probabilities stay. -/
theorem C25_rescaled (fmt : Val → Str) (d : PD) (t : PSpec) (b : PScale) (h : d.WF fmt) (hp : d.Pos)
    (ht : evalPscale t = .ok b) (hd : Spec.Valid d.pscale) (hb : Spec.Valid b)
    (hun : ∀ i ∈ idx d.shape, Spec.Unclamped (d.prob.get i) d.pscale b) :
    ∃ r, d.rescaled fmt t = .ok r ∧ r.WF fmt ∧ Spec.SameForm d r ∧
      (∀ k, r.values k = d.values k) ∧ r.pscale = b ∧ ∀ i ∈ idx r.shape, r.at i = d.at i := by
  have hba := h.buildArgs hp
  obtain ⟨r, b1, b2, b3, b4, b5, b6, b7, b8, b9⟩ := pdInit_ok hba
    (d.prob.map fun x => rescaleE x d.pscale b) h.probShape t b ht
  have hkl : r.keylist = d.keylist := by
    show Dict.keys r.vals = Dict.keys d.vals; rw [b5, Dict.keys_map]
  refine ⟨r, ?_, b2, ⟨by rw [b2.name, b3, b4, h.name], b3, b4, hkl, b6, b7⟩, fun k => hba.values b5 k, b9, ?_⟩
  · simp only [PD.rescaled, rescaleArr, h.stable, ht, bind, Except.bind, pure, Except.pure, h.name, b1]
  · intro i hi
    rw [b7] at hi
    show Spec.value r.pscale (r.prob.get i) = Spec.value d.pscale (d.prob.get i)
    rw [b9, b8]
    exact rescaleE_value _ _ _ hd hb h.stable (b9 ▸ b2.stable) (hun i hi)

/-- C25: an invalid scale is refused. -/
theorem C25_invalid_refused (fmt : Val → Str) (d : PD) (t : PSpec) (h : d.WF fmt)
    (ht : ∃ e, evalPscale t = .error e) : Raises (d.rescaled fmt t) := by
  obtain ⟨e, ht⟩ := ht
  exact ⟨e, by simp [PD.rescaled, rescaleArr, h.stable, ht, bind, Except.bind]⟩

/-! ### C23 sorted -/

/-- What `np.argsort` is documented to return: an order of all positions that
lists the values in increasing order. -/
def Spec.Argsort (argsort : List ℚ → List ℕ) : Prop :=
  ∀ l, (argsort l).Perm (List.range l.length) ∧
    ((argsort l).map fun i => l.getD i 0).Pairwise (· ≤ ·)

/-- `r` is `d` with the positions along axis `a` taken in the order `π`: position
`p` of `r` is position `π[p]` of `d`, for the values of every variable on that
axis and for the probabilities. -/
structure Spec.Reordered (d : PD) (a : ℕ) (π : List ℕ) (r : PD) : Prop where
  form : Spec.SameForm d r
  pscale : r.pscale = d.pscale
  moved : ∀ k, d.axis k = some a → ∃ data data', d.values k = some (.arr [π.length] data) ∧
    r.values k = some (.arr [π.length] data') ∧ data.length = π.length ∧ data'.length = π.length ∧
    ∀ p i : ℕ, π[p]? = some i → data'[p]? = data[i]?
  kept : ∀ k, d.axis k ≠ some a → r.values k = d.values k
  entry : ∀ j ∈ idx r.shape, ∀ p i : ℕ, j[a]? = some p → π[p]? = some i → r.at j = d.at (j.set a i)

/-- Sorting replaces the data of every array on the axis. -/
def sortVal (d : PD) (dim : ℕ) (ix : List ℕ) (kv : Str × Val) : Str × Val :=
  if d.axis kv.1 = some dim then
    match kv.2 with
    | .arr _ data => (kv.1, .arr [ix.length] (ix.map fun i => data.getD i 0))
    | v => (kv.1, v)
  else kv

theorem sortVal_fst (d : PD) (dim : ℕ) (ix : List ℕ) (kv : Str × Val) :
    (sortVal d dim ix kv).1 = kv.1 := by
  unfold sortVal
  split
  · split <;> rfl
  · rfl

theorem C23_reorder (fmt : Val → Str) (d : PD) (dim n : ℕ) (ix : List ℕ) (h : d.WF fmt) (hp : d.Pos)
    (hdim : d.shape[dim]? = some n) (hix : ix.Perm (List.range n)) :
    ∃ vals prob r, d.vals.mapM (sortStep d dim ix) = .ok vals ∧ gatherAxis d.prob dim ix = .ok prob ∧
      pdInit fmt d.name vals (some d.dims) prob d.pscale.spec = .ok r ∧ r.WF fmt ∧
      Spec.Reordered d dim ix r := by
  have hlen : ix.length = n := by rw [hix.length_eq, List.length_range]
  have hlt : ∀ i ∈ ix, i < n := fun i hi => by simpa using hix.mem_iff.mp hi
  have hnpos : 0 < n := hp n (List.mem_of_getElem? hdim)
  have hget : ∀ k v, Dict.get? d.vals k = some v → ∃ o, Dict.get? d.dims k = some o ∧ d.axis k = o := by
    intro k v hv
    rcases hs : v.issingleton with _ | _
    · obtain ⟨a, _, _, _, _, h2, _⟩ := h.array k v hv hs
      exact ⟨some a, h2, join_eq_some.mpr h2⟩
    · exact ⟨none, (h.single k v hv hs).1, h.axis_none hv hs⟩
  have hsize : ∀ k s data, Dict.get? d.vals k = some (.arr s data) → d.axis k = some dim →
      data.length = n := by
    intro k s data hv ha
    obtain ⟨s', data', e1, _, e2, _, _⟩ := h.axis_some ha
    rw [hv] at e1
    simp only [Option.some.injEq, Val.arr.injEq] at e1
    rw [e1.2]
    rw [hdim] at e2
    simpa using e2.symm
  have hvals : d.vals.mapM (sortStep d dim ix) = .ok (d.vals.map (sortVal d dim ix)) := by
    apply mapM_ok
    rintro ⟨k, v⟩ hkv
    have hv := Dict.get?_of_mem h.nodup hkv
    obtain ⟨o, ho, ha⟩ := hget k v hv
    by_cases hd : o = some dim
    · subst hd
      obtain ⟨s, data, e1, _⟩ := h.axis_some ha
      rw [hv] at e1
      simp only [Option.some.injEq] at e1
      subst e1
      have := hsize k s data hv ha
      simp only [sortStep, dimOf, ho, bind, Except.bind, ne_eq, not_true_eq_false, if_false,
        gather_ok (0 : ℚ) (fun i hi => by rw [this]; exact hlt i hi), pure, Except.pure, sortVal, ha, if_true]
    · simp [sortStep, dimOf, ho, hd, sortVal, ha, bind, Except.bind, pure, Except.pure]
  have hgv : ∀ k, Dict.get? (d.vals.map (sortVal d dim ix)) k =
      (Dict.get? d.vals k).map fun v => (sortVal d dim ix (k, v)).2 := by
    intro k
    have : d.vals.map (sortVal d dim ix) = d.vals.map (fun kv => (kv.1, (fun k v => (sortVal d dim ix (k, v)).2) kv.1 kv.2)) := by
      apply List.map_congr_left
      rintro ⟨k, v⟩ _
      exact Prod.ext (sortVal_fst d dim ix (k, v)) rfl
    rw [this]; exact Dict.get?_map (fun k v => (sortVal d dim ix (k, v)).2) _ _
  have hkeys : Dict.keys (d.vals.map (sortVal d dim ix)) = Dict.keys d.vals := by
    unfold Dict.keys
    rw [List.map_map]
    exact List.map_congr_left fun kv _ => sortVal_fst d dim ix kv
  have hsing : ∀ k v, Dict.get? d.vals k = some v → v.issingleton = true →
      (sortVal d dim ix (k, v)).2 = v := by
    intro k v hv hs
    simp [sortVal, h.axis_none hv hs]
  have harr : ∀ k v, Dict.get? d.vals k = some v → v.issingleton = false →
      ∃ s data a, (sortVal d dim ix (k, v)).2 = .arr s data ∧ s ≠ [] ∧ data.length = s.foldl max 0 ∧
      Dict.get? d.dims k = some (some a) ∧ d.shape[a]? = some data.length := by
    intro k v hv hs
    obtain ⟨s, data, a, e1, e2, e3, e4⟩ := h.size_ok hp hv hs
    have ha : d.axis k = some a := join_eq_some.mpr e3
    by_cases had : a = dim
    · subst had
      refine ⟨[ix.length], ix.map fun i => data.getD i 0, a, ?_, by simp, by simp, e3, ?_⟩
      · simp [sortVal, ha, e1]
      · rw [hdim, List.length_map, hlen]
    · refine ⟨s, data, a, ?_, ?_, e2, e3, e4⟩
      · simp [sortVal, ha, had, e1]
      · rintro rfl; rw [e1] at hs; simp [Val.issingleton] at hs
  have hba := h.buildArgs hp
  have hbuild : BuildArgs fmt d.marg d.cond (d.vals.map (sortVal d dim ix)) d.dims d.shape := by
    refine ⟨by simpa using h.ne, by show (Dict.keys _).Nodup; rw [hkeys]; exact h.nodup, ?_, h.margSide,
      h.condSide, h.disj, ?_, h.dimNodup, ?_, ?_, ?_, hba.cover⟩
    · show ∀ k ∈ Dict.keys _, _; rw [hkeys]; exact h.allowed
    · intro k; show k ∈ Dict.keys _ ↔ _; rw [hkeys]; exact h.keys k
    · intro k hk; show k ∈ Dict.keys _; rw [hkeys]; exact h.dimKeys k hk
    · intro k v hv hs
      rw [hgv] at hv
      obtain ⟨u, hu, rfl⟩ := Option.map_eq_some_iff.mp hv
      rcases hus : u.issingleton with _ | _
      · obtain ⟨s, data, a, e1, e2, _⟩ := harr k u hu hus
        rw [e1] at hs
        rcases s with _ | ⟨m, s⟩
        · exact absurd rfl e2
        · simp [Val.issingleton] at hs
      · rw [hsing k u hu hus]
        exact hba.single k u hu hus
    · intro k v hv hs
      rw [hgv] at hv
      obtain ⟨u, hu, rfl⟩ := Option.map_eq_some_iff.mp hv
      rcases hus : u.issingleton with _ | _
      · obtain ⟨s, data, a, e1, _, e2⟩ := harr k u hu hus
        exact ⟨s, data, a, e1, e2⟩
      · rw [hsing k u hu hus, hus] at hs; simp at hs
  have hprob := gatherAxis_ok (a := d.prob) (ax := dim) (n := n) (ix := ix) (by rw [h.probShape]; exact hdim) hlt
  have hps : d.prob.shape.set dim ix.length = d.shape := by
    rw [h.probShape, hlen]
    apply List.ext_getElem?
    intro m
    rw [List.getElem?_set]
    split
    · rename_i hm
      subst hm
      have : dim < d.shape.length := by
        by_contra hc
        rw [List.getElem?_eq_none (by omega)] at hdim; simp at hdim
      rw [if_pos this, hdim]
    · rfl
  obtain ⟨r, b1, b2, b3, b4, b5, b6, b7, b8, b9⟩ := pdInit_ok hbuild
    ⟨d.prob.shape.set dim ix.length, fun j => d.prob.get (j.set dim (ix.getD (j.getD dim 0) 0))⟩ hps d.pscale.spec d.pscale h.stable
  have hrv : ∀ k, r.values k = (Dict.get? d.vals k).map fun v => (sortVal d dim ix (k, v)).2.flat := by
    intro k
    rw [hbuild.values b5 k, hgv, Option.map_map]; rfl
  refine ⟨_, _, r, hvals, hprob, by rw [h.name]; exact b1, b2,
    ⟨by rw [b2.name, b3, b4, h.name], b3, b4, ?_, b6, b7⟩, b9, ?_, ?_, ?_⟩
  · show Dict.keys r.vals = Dict.keys d.vals
    rw [b5, Dict.keys_map, hkeys]
  · intro k ha
    obtain ⟨s, data, e1, e2, e3, _⟩ := h.axis_some ha
    have hl := hsize k s data e1 ha
    refine ⟨data, ix.map fun i => data.getD i 0, ?_, ?_, by omega, by simp, ?_⟩
    · rcases s with _ | ⟨m, s⟩
      · exact absurd rfl e2
      · simp [PD.values, e1, Val.flat, hl, hlen]
    · rw [hrv, e1]
      simp [sortVal, ha, Val.flat]
    · intro p i hpi
      have hi : i < data.length := by rw [hl]; exact hlt i (List.mem_of_getElem? hpi)
      rw [List.getElem?_map, hpi, Option.map_some, List.getD_eq_getElem?_getD, List.getElem?_eq_getElem hi]
      rfl
  · intro k ha
    rw [hrv]
    unfold PD.values
    congr 1
    funext v
    simp [sortVal, ha]
  · intro j hj p i hjp hpi
    show Spec.value r.pscale (r.prob.get j) = Spec.value d.pscale (d.prob.get _)
    rw [b9, b8]
    simp only [List.getD_eq_getElem?_getD, hjp, hpi, Option.getD_some]

/-- C23: `sorted(key)` succeeds; the positions along the key's axis are taken in
an order that contains every position once, the same for the probabilities and
for all variables on that axis; everything else stays, and the key's values come
out increasing.  A scalar key leaves the distribution as it is. -/
theorem C23_sorted (fmt : Val → Str) (argsort : List ℚ → List ℕ) (hsort : Spec.Argsort argsort)
    (d : PD) (key : Str) (h : d.WF fmt) (hp : d.Pos) (hk : key ∈ d.keylist) :
    ∃ r, d.sorted fmt argsort key = .ok r ∧ r.WF fmt ∧
      (∀ a n, d.axis key = some a → d.shape[a]? = some n →
        ∃ π, π.Perm (List.range n) ∧ Spec.Reordered d a π r ∧
          ∃ s, r.values key = some (.arr [n] s) ∧ s.Pairwise (· ≤ ·)) ∧
      (d.axis key = none → Spec.SameForm d r ∧ (∀ k, r.values k = d.values k) ∧
        r.pscale = d.pscale ∧ ∀ i ∈ idx r.shape, r.at i = d.at i) := by
  obtain ⟨v, hv⟩ := Dict.get?_of_mem_keys hk
  rcases hs : v.issingleton with _ | _
  · obtain ⟨a, s, data, e1, _, e2, e3⟩ := h.array key v hv hs
    subst e1
    have ha : d.axis key = some a := join_eq_some.mpr e2
    obtain ⟨hperm, hpair⟩ := hsort data
    obtain ⟨vals, prob, r, g1, g2, g3, g4, g5⟩ := C23_reorder fmt d a data.length (argsort data) h hp e3 hperm
    refine ⟨r, ?_, g4, ?_, by rw [ha]; simp⟩
    · simp only [PD.sorted, dimOf, e2, hv, bind, Except.bind, g1, g2, g3]
    · intro a' n ha' hn
      rw [ha] at ha'
      simp only [Option.some.injEq] at ha'
      subst ha'
      rw [e3] at hn
      simp only [Option.some.injEq] at hn
      subst hn
      refine ⟨argsort data, hperm, g5, ?_⟩
      obtain ⟨dt, dt', q1, q2, q3, q4, q5⟩ := g5.moved key ha
      have hlen : (argsort data).length = data.length := by rw [hperm.length_eq, List.length_range]
      rw [hlen] at q2
      refine ⟨dt', q2, ?_⟩
      have hdt : dt = data := by
        have : d.values key = some (.arr [data.length] data) := by
          rcases s with _ | ⟨m, s⟩
          · simp [Val.issingleton] at hs
          · simp [PD.values, hv, Val.flat]
        rw [q1] at this
        simp only [Option.some.injEq, Val.arr.injEq] at this
        exact this.2
      subst hdt
      have : dt' = (argsort dt).map fun i => dt.getD i 0 := by
        apply List.ext_getElem?
        intro p
        rw [List.getElem?_map]
        rcases hpi : (argsort dt)[p]? with _ | i
        · rw [List.getElem?_eq_none_iff] at hpi
          rw [List.getElem?_eq_none (by omega)]; rfl
        · rw [q5 p i hpi]
          have hi : i < dt.length := by
            have := hperm.mem_iff.mp (List.mem_of_getElem? hpi); simpa using this
          simp [List.getElem?_eq_getElem hi]
      rw [this]; exact hpair
  · have ha := h.axis_none hv hs
    have hba := h.buildArgs hp
    obtain ⟨r, b1, b2, b3, b4, b5, b6, b7, b8, b9⟩ := pdInit_ok hba d.prob h.probShape d.pscale.spec
      d.pscale h.stable
    refine ⟨r, ?_, b2, by rw [ha]; simp, fun _ => ⟨⟨by rw [b2.name, b3, b4, h.name], b3, b4, ?_, b6, b7⟩,
      fun k => hba.values b5 k, b9, ?_⟩⟩
    · simp only [PD.sorted, dimOf, (h.single key v hv hs).1, bind, Except.bind, h.name, b1]
    · show Dict.keys r.vals = Dict.keys d.vals
      rw [b5, Dict.keys_map]
    · intro i _
      show Spec.value r.pscale (r.prob.get i) = Spec.value d.pscale (d.prob.get i)
      rw [b9, b8]

/-- C23: an unknown key is refused. -/
theorem C23_unknown_refused (fmt : Val → Str) (argsort : List ℚ → List ℕ) (d : PD) (key : Str)
    (h : d.WF fmt) (hk : key ∉ d.keylist) : Raises (d.sorted fmt argsort key) := by
  have : Dict.get? d.dims key = none := by
    rcases hg : Dict.get? d.dims key with _ | o
    · rfl
    · exact absurd (h.dimKeys key (Dict.mem_keys_of_get? hg)) hk
  exact ⟨.key, by simp only [PD.sorted, dimOf, this, bind, Except.bind]⟩

/-- C23: reordering an axis keeps the total mass. -/
theorem C23_mass (d r : PD) (a n : ℕ) (π : List ℕ) (hn : d.shape[a]? = some n)
    (hπ : π.Perm (List.range n)) (h : Spec.Reordered d a π r) : Spec.mass r = Spec.mass d := by
  have hlen : π.length = n := by rw [hπ.length_eq, List.length_range]
  have hnd : π.Nodup := hπ.nodup_iff.mpr List.nodup_range
  have hget : ∀ j ∈ idx d.shape, ∃ p, j[a]? = some p ∧ p < n ∧ ∃ i, π[p]? = some i ∧ i < n := by
    intro j hj
    have hal : a < d.shape.length := by
      by_contra hc
      rw [List.getElem?_eq_none (by omega)] at hn; simp at hn
    have hjl := length_of_mem_idx hj
    obtain ⟨p, hp⟩ : ∃ p, j[a]? = some p := ⟨j[a], List.getElem?_eq_getElem (by omega)⟩
    have hpn := getElem?_lt_of_mem_idx hj hp hn
    refine ⟨p, hp, hpn, π[p]'(by omega), List.getElem?_eq_getElem (by omega), ?_⟩
    simpa using hπ.mem_iff.mp (List.getElem_mem (by omega : p < π.length))
  have hset : ∀ j ∈ idx d.shape, ∀ i < n, j.set a i ∈ idx d.shape := by
    intro j hj i hi
    rw [mem_idx_iff] at hj ⊢
    refine ⟨by simpa using hj.1, ?_⟩
    intro m x s hx hs
    rw [List.getElem?_set] at hx
    split at hx
    · rename_i hm
      subst hm
      rw [hn] at hs
      simp only [Option.some.injEq] at hs
      split at hx
      · simp only [Option.some.injEq] at hx; omega
      · simp at hx
    · exact hj.2 m x s hx hs
  unfold Spec.mass
  rw [h.form.shape]
  refine Finset.sum_bij (fun j _ => j.set a (π.getD (j.getD a 0) 0)) ?_ ?_ ?_ ?_
  · intro j hj
    obtain ⟨p, h1, h2, i, h3, h4⟩ := hget j hj
    simp only [List.getD_eq_getElem?_getD, h1, h3, Option.getD_some]
    exact hset j hj i h4
  · intro j hj j' hj' he
    obtain ⟨p, h1, h2, i, h3, h4⟩ := hget j hj
    obtain ⟨p', h1', h2', i', h3', h4'⟩ := hget j' hj'
    simp only [List.getD_eq_getElem?_getD, h1, h3, h1', h3', Option.getD_some] at he
    have hal : a < j.length := by
      by_contra hc
      rw [List.getElem?_eq_none (by omega)] at h1; simp at h1
    have hal' : a < j'.length := by
      by_contra hc
      rw [List.getElem?_eq_none (by omega)] at h1'; simp at h1'
    have hi : i = i' := by
      have := congrArg (·[a]?) he
      simpa [hal, hal'] using this
    have hpp : p = p' := by
      subst hi
      exact (List.getElem?_inj (i := p) (by omega) hnd).mp (h3.trans h3'.symm)
    apply List.ext_getElem?
    intro m
    by_cases hm : a = m
    · subst hm; rw [h1, h1', hpp]
    · have := congrArg (·[m]?) he
      simpa [List.getElem?_set, hm] using this
  · intro j hj
    obtain ⟨q, h1, h2, _⟩ := hget j hj
    have hq : q ∈ π := hπ.mem_iff.mpr (by simpa using h2)
    obtain ⟨p, hp, hpq⟩ := List.mem_iff_getElem.mp hq
    have hal : a < j.length := by
      by_contra hc
      rw [List.getElem?_eq_none (by omega)] at h1; simp at h1
    refine ⟨j.set a p, hset j hj p (by omega), ?_⟩
    simp only [List.getD_eq_getElem?_getD, List.getElem?_set_self hal, Option.getD_some,
      List.getElem?_eq_getElem hp, hpq, List.set_set]
    apply List.ext_getElem?
    intro m
    rw [List.getElem?_set]
    split
    · rename_i hm; subst hm; rw [h1]
    · rfl
  · intro j hj
    obtain ⟨p, h1, h2, i, h3, h4⟩ := hget j hj
    rw [h.entry j (by rw [h.form.shape]; exact hj) p i h1 h3]
    simp only [List.getD_eq_getElem?_getD, h1, h3, Option.getD_some]

/-! ### instances -/

theorem sample3_pos : sample3.Pos := by
  show ∀ n ∈ [2, 3, 2], 0 < n
  decide

/-- A stable argsort meets the specification. -/
theorem argsort_exists : Spec.Argsort fun l =>
    (List.range l.length).mergeSort fun i j => decide (l.getD i 0 ≤ l.getD j 0) := by
  intro l
  refine ⟨List.mergeSort_perm _ _, ?_⟩
  rw [List.pairwise_map]
  have := List.pairwise_mergeSort (le := fun i j => decide (l.getD i 0 ≤ l.getD j 0))
    (fun a b c => by simp only [decide_eq_true_eq]; exact le_trans)
    (fun a b => by simp only [Bool.or_eq_true, decide_eq_true_eq]; exact le_total _ _)
    (List.range l.length)
  exact this.imp (by simp)

example : ∃ r, sample3.rescaled (fun _ => ['1']) (.flt 2) = .ok r ∧ r.pscale = .lin 2 ∧
    ∀ i ∈ idx r.shape, r.at i = sample3.at i := by
  obtain ⟨r, h1, _, _, _, h2, h3⟩ := C25_rescaled (fun _ => ['1']) sample3 (.flt 2) (.lin 2)
    sample3_wf.1 sample3_pos (by simp [evalPscale]) (by show (0 : ℝ) < 1; norm_num)
    (by show (0 : ℝ) < 2; norm_num) (fun _ _ => trivial)
  exact ⟨r, h1, h2, h3⟩

example : ∃ r, sample3.sorted (fun _ => ['1'])
    (fun l => (List.range l.length).mergeSort fun i j => decide (l.getD i 0 ≤ l.getD j 0)) ['y'] = .ok r ∧
    ∃ π : List ℕ, π.Perm (List.range 3) ∧ Spec.Reordered sample3 1 π r := by
  obtain ⟨r, h1, _, h2, _⟩ := C23_sorted (fun _ => ['1']) _ argsort_exists sample3 ['y']
    sample3_wf.1 sample3_pos (by decide)
  obtain ⟨π, h3, h4, _⟩ := h2 1 3 rfl rfl
  exact ⟨r, h1, π, h3, h4⟩

end Probayes
