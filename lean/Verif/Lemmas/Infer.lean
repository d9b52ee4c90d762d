/-
Lemmas for C94: sums over the points of a grid, entries of distributions by the values of
their variables, products over observations.
-/
import Verif.Props.SDCall
import Verif.Props.PDDiv

namespace Probayes

/-- The points of a grid: every choice of one value per variable. -/
def Spec.gridPoints : List (Str × List ℚ) → List (Str → Option ℚ)
  | [] => [fun _ => none]
  | (k, xs) :: L => xs.flatMap fun y => (Spec.gridPoints L).map fun θ => Function.update θ k (some y)

variable {fmt : Val → Str}

/-! ### Sums over a grid -/

/-- The point with given positions. -/
def gridPoint : List (Str × List ℚ) → (Str → ℕ) → Str → Option ℚ
  | [], _ => fun _ => none
  | (k, xs) :: L, c => Function.update (gridPoint L c) k xs[c k]?

theorem gridPoint_congr {L : List (Str × List ℚ)} {c c' : Str → ℕ}
    (h : ∀ kx ∈ L, c kx.1 = c' kx.1) : gridPoint L c = gridPoint L c' := by
  induction L with
  | nil => rfl
  | cons kx L ih =>
    obtain ⟨k, xs⟩ := kx
    simp only [gridPoint]
    rw [ih fun kx hkx => h kx (by simp [hkx]), h (k, xs) (by simp)]

theorem gridPoint_of_mem {L : List (Str × List ℚ)} {c : Str → ℕ} (hn : (L.map Prod.fst).Nodup)
    {k : Str} {xs : List ℚ} (h : (k, xs) ∈ L) : gridPoint L c k = xs[c k]? := by
  induction L with
  | nil => simp at h
  | cons kx L ih =>
    obtain ⟨k', ys⟩ := kx
    simp only [List.map_cons, List.nodup_cons] at hn
    rcases List.mem_cons.mp h with h | h
    · simp only [Prod.mk.injEq] at h
      obtain ⟨rfl, rfl⟩ := h
      simp [gridPoint]
    · have hne : k ≠ k' := fun hkk => hn.1 (List.mem_map.mpr ⟨(k, xs), h, hkk⟩)
      simp only [gridPoint, Function.update_of_ne hne]
      exact ih hn.2 h

theorem gridPoint_of_not_mem {L : List (Str × List ℚ)} {c : Str → ℕ} {k : Str}
    (h : k ∉ L.map Prod.fst) : gridPoint L c k = none := by
  induction L with
  | nil => rfl
  | cons kx L ih =>
    obtain ⟨k', ys⟩ := kx
    simp only [List.map_cons, List.mem_cons, not_or] at h
    simp only [gridPoint, Function.update_of_ne h.1]
    exact ih h.2

theorem sum_flatMap_getElem {α : Type} (xs : List ℚ) (G : ℚ → List α) (F : α → ℝ) :
    ((xs.flatMap G).map F).sum = ∑ m ∈ Finset.range xs.length, ((G (xs.getD m 0)).map F).sum := by
  induction xs with
  | nil => simp
  | cons y xs ih =>
    rw [List.flatMap_cons, List.map_append, List.sum_append, ih, List.length_cons,
      Finset.sum_range_succ']
    simp [add_comm]

open Classical in
/-- The sum over the points of a grid, by anything in which every choice of positions is
found exactly once. -/
theorem grid_sum {ι : Type} (L : List (Str × List ℚ)) (T : Finset ι) (r : ι → Str → ℕ)
    (hn : (L.map Prod.fst).Nodup)
    (hb : ∀ t ∈ T, ∀ kx ∈ L, r t kx.1 < kx.2.length)
    (hu : ∀ c : Str → ℕ, (∀ kx ∈ L, c kx.1 < kx.2.length) →
      ∃! t, t ∈ T ∧ ∀ kx ∈ L, r t kx.1 = c kx.1)
    (F : (Str → Option ℚ) → ℝ) :
    ((Spec.gridPoints L).map F).sum = ∑ t ∈ T, F (gridPoint L (r t)) := by
  induction L generalizing T F with
  | nil =>
    obtain ⟨t, ⟨ht, _⟩, huniq⟩ := hu (fun _ => 0) (by simp)
    have : T = {t} := by
      ext u
      simp only [Finset.mem_singleton]
      exact ⟨fun h => huniq u ⟨h, by simp⟩, fun h => h ▸ ht⟩
    rw [this]
    simp [Spec.gridPoints, gridPoint]
  | cons kx L ih =>
    obtain ⟨k, xs⟩ := kx
    simp only [List.map_cons, List.nodup_cons] at hn
    rw [Spec.gridPoints, sum_flatMap_getElem]
    have hmaps : ∀ t ∈ T, r t k ∈ Finset.range xs.length := fun t ht =>
      Finset.mem_range.mpr (hb t ht (k, xs) (by simp))
    rw [← Finset.sum_fiberwise_of_maps_to hmaps]
    refine Finset.sum_congr rfl fun m hm => ?_
    have hm := Finset.mem_range.mp hm
    rw [List.map_map, ih (T.filter fun t => r t k = m) hn.2 ?_ ?_]
    · refine Finset.sum_congr rfl fun t ht => ?_
      have hk := (Finset.mem_filter.mp ht).2
      simp only [Function.comp, gridPoint, hk]
      rw [List.getD_eq_getElem?_getD, List.getElem?_eq_getElem hm]; rfl
    · intro t ht kx hkx
      exact hb t (Finset.mem_filter.mp ht).1 kx (by simp [hkx])
    · intro c hc
      have hne : ∀ kx ∈ L, kx.1 ≠ k := fun kx hkx h =>
        hn.1 (List.mem_map.mpr ⟨kx, hkx, h⟩)
      obtain ⟨t, ⟨ht, hr⟩, huniq⟩ := hu (Function.update c k m) (by
        intro kx hkx
        rcases List.mem_cons.mp hkx with rfl | hkx
        · simpa using hm
        · rw [Function.update_of_ne (hne kx hkx)]; exact hc kx hkx)
      refine ⟨t, ⟨Finset.mem_filter.mpr ⟨ht, by simpa using hr (k, xs) (by simp)⟩, ?_⟩, ?_⟩
      · intro kx hkx
        have := hr kx (by simp [hkx])
        rwa [Function.update_of_ne (hne kx hkx)] at this
      · rintro u ⟨hu1, hu2⟩
        obtain ⟨hu3, hu4⟩ := Finset.mem_filter.mp hu1
        refine huniq u ⟨hu3, ?_⟩
        intro kx hkx
        rcases List.mem_cons.mp hkx with rfl | hkx
        · simpa using hu4
        · rw [Function.update_of_ne (hne kx hkx)]; exact hu2 kx hkx

theorem mem_gridPoints {L : List (Str × List ℚ)} {c : Str → ℕ}
    (hc : ∀ kx ∈ L, c kx.1 < kx.2.length) : gridPoint L c ∈ Spec.gridPoints L := by
  induction L with
  | nil => simp [gridPoint, Spec.gridPoints]
  | cons kx L ih =>
    obtain ⟨k, xs⟩ := kx
    have hk : c k < xs.length := hc (k, xs) (by simp)
    simp only [Spec.gridPoints, List.mem_flatMap, List.mem_map]
    refine ⟨xs[c k], List.getElem_mem hk, gridPoint L c, ih fun kx hkx => hc kx (by simp [hkx]), ?_⟩
    simp [gridPoint, hk]

theorem exists_gridPoint {L : List (Str × List ℚ)} (hn : (L.map Prod.fst).Nodup)
    {θ : Str → Option ℚ} (h : θ ∈ Spec.gridPoints L) :
    ∃ c : Str → ℕ, (∀ kx ∈ L, c kx.1 < kx.2.length) ∧ gridPoint L c = θ := by
  induction L generalizing θ with
  | nil =>
    simp only [Spec.gridPoints, List.mem_singleton] at h
    exact ⟨fun _ => 0, by simp, by rw [h]; rfl⟩
  | cons kx L ih =>
    obtain ⟨k, xs⟩ := kx
    simp only [List.map_cons, List.nodup_cons] at hn
    simp only [Spec.gridPoints, List.mem_flatMap, List.mem_map] at h
    obtain ⟨y, hy, θ', hθ, rfl⟩ := h
    obtain ⟨c, hc, rfl⟩ := ih hn.2 hθ
    obtain ⟨m, hm, rfl⟩ := List.mem_iff_getElem.mp hy
    have hne : ∀ kx ∈ L, kx.1 ≠ k := fun kx hkx h => hn.1 (List.mem_map.mpr ⟨kx, hkx, h⟩)
    refine ⟨Function.update c k m, ?_, ?_⟩
    · intro kx hkx
      rcases List.mem_cons.mp hkx with rfl | hkx
      · simpa using hm
      · rw [Function.update_of_ne (hne kx hkx)]; exact hc kx hkx
    · simp only [gridPoint, Function.update_self, List.getElem?_eq_getElem hm]
      rw [gridPoint_congr (c' := c)]
      intro kx hkx
      rw [Function.update_of_ne (hne kx hkx)]

/-! ### Entries by positions -/

/-- The position a variable has at an entry. -/
def PD.read (d : PD) (j : List ℕ) (k : Str) : ℕ := ((d.axis k).bind (j[·]?)).getD 0

theorem read_of_axis {d : PD} (h : d.WF fmt) {j : List ℕ} (hj : j ∈ idx d.shape) {k : Str} {a : ℕ}
    (ha : d.axis k = some a) : j[a]? = some (d.read j k) ∧
    ∀ n, d.shape[a]? = some n → d.read j k < n := by
  obtain ⟨s, xs, _, _, hsh, _⟩ := h.axisAt ha
  have hlt : a < j.length := by
    rw [length_of_mem_idx hj]; exact (List.getElem?_eq_some_iff.mp hsh).1
  have e : j[a]? = some (d.read j k) := by
    simp [PD.read, ha, List.getElem?_eq_getElem hlt]
  exact ⟨e, fun n hn => getElem?_lt_of_mem_idx hj e hn⟩

theorem exists_entry {d : PD} (h : d.WF fmt) (hown : ∀ k, Spec.OwnAxis d k) {c : Str → ℕ}
    (hc : ∀ k a n, d.axis k = some a → d.shape[a]? = some n → c k < n) :
    ∃! j, j ∈ idx d.shape ∧ ∀ k a, d.axis k = some a → d.read j k = c k := by
  have hcov := h.cover
  choose! key hkey using hcov
  have hlen : d.shape.length = d.ndim := h.rank
  refine ⟨(List.range d.shape.length).map fun a => c (key a), ⟨?_, ?_⟩, ?_⟩
  · rw [mem_idx_iff]
    refine ⟨by simp, ?_⟩
    intro a x m hx hm
    obtain ⟨ha, _⟩ := List.getElem?_eq_some_iff.mp hm
    rw [List.getElem?_map, List.getElem?_range ha] at hx
    simp only [Option.map_some, Option.some.injEq] at hx
    rw [← hx]
    exact hc _ a m (hkey a (by rw [← hlen]; exact ha)) hm
  · intro k a ha
    obtain ⟨s, xs, _, _, hsh, _⟩ := h.axisAt ha
    obtain ⟨hlt, _⟩ := List.getElem?_eq_some_iff.mp hsh
    have hk : key a = k := hown k (key a) a ha (hkey a (by rw [← hlen]; exact hlt))
    simp [PD.read, ha, List.getElem?_range hlt, hk]
  · rintro j ⟨hj, hr⟩
    apply List.ext_getElem?
    intro a
    by_cases ha : a < d.shape.length
    · have hk := hkey a (by rw [← hlen]; exact ha)
      rw [(read_of_axis h hj hk).1, hr _ a hk, List.getElem?_map, List.getElem?_range ha]
      rfl
    · rw [List.getElem?_eq_none (by rw [length_of_mem_idx hj]; omega),
        List.getElem?_eq_none (by simp; omega)]

/-- Corresponding entries have the same values. -/
theorem pointAt_congr {d e : PD} (h : d.WF fmt) (h' : e.WF fmt) {k : Str}
    (hv : d.values k = e.values k) {i j : List ℕ} (hag : Spec.SameAt d e k i j) :
    Spec.pointAt d i k = Spec.pointAt e j k := by
  unfold Spec.pointAt
  rw [hv]
  rcases hval : e.values k with _ | v
  · rfl
  have hk : k ∈ d.keylist := by
    have : (d.values k).isSome := by rw [hv, hval]; rfl
    unfold PD.values at this
    rw [Option.isSome_map, Dict.get?_isSome] at this
    exact this
  have hs := isSome_of_values h h' hk hv
  cases v with
  | arr s xs =>
    simp only
    rcases ha : d.axis k with _ | a
    · rw [ha] at hs
      rcases hb : e.axis k with _ | b
      · rfl
      · rw [hb] at hs; simp at hs
    · rw [ha] at hs
      obtain ⟨b, hb⟩ := Option.isSome_iff_exists.mp hs.symm
      rw [hb]
      simp only [Option.bind_some]
      rw [hag a b ha hb]
  | _ => rfl

theorem pointAt_none {d : PD} {k : Str} (h : k ∉ d.keylist) (j : List ℕ) : Spec.pointAt d j k = none := by
  unfold Spec.pointAt PD.values
  rw [Dict.get?_eq_none.mpr h]
  rfl

/-! ### Products over observations -/

/-- The product over the observations of one variable. -/
theorem prodAt_one {d e : PD} (h : d.WF fmt) (h' : e.WF fmt) (hown : ∀ k, Spec.OwnAxis d k) {x : Str}
    (hC : Spec.Counted d [x] e) {data : List ℚ} (hv : d.values x = some (.arr [data.length] data))
    {a : ℕ} (ha : d.axis x = some a) {f : (Str → Option ℚ) → ℝ}
    (hf : ∀ i ∈ idx d.shape, d.at i = f (Spec.pointAt d i)) {j : List ℕ} (hj : j ∈ idx e.shape) :
    Spec.prodAt d e j =
      (data.map fun y => f (Function.update (Spec.pointAt e j) x (some y))).prod := by
  classical
  obtain ⟨i0, hi0, hag0⟩ := hC.onto j hj
  have hx0 : e.axis x = none := (hC.counts x (by simp)).1
  have hsize : d.shape[a]? = some data.length := by
    obtain ⟨s, xs, hs, hg, hsh, _⟩ := h.axisAt ha
    rw [PD.values, hg] at hv
    rcases s with _ | ⟨n, s⟩
    · exact absurd rfl hs
    · simp only [Option.map_some, Val.flat, Option.some.injEq, Val.arr.injEq] at hv
      rw [hsh, hv.2]
  obtain ⟨hlt, _⟩ := List.getElem?_eq_some_iff.mp hsize
  have hl0 : i0.length = d.shape.length := length_of_mem_idx hi0
  have hother : ∀ k b, d.axis k = some b → k ≠ x → b ≠ a := by
    intro k b hb hne hba
    subst hba
    exact hne (hown x k b ha hb)
  have hset : ∀ m, m < data.length → i0.set a m ∈ idx d.shape := by
    intro m hm
    rw [mem_idx_iff]
    refine ⟨by simpa using hl0, ?_⟩
    intro n y s hy hs
    rw [List.getElem?_set] at hy
    split at hy
    · rename_i hna
      subst hna
      rw [if_pos (by omega)] at hy
      rw [hsize] at hs
      simp only [Option.some.injEq] at hy hs
      omega
    · exact getElem?_lt_of_mem_idx hi0 hy hs
  have hagree : ∀ m, m < data.length → Spec.Agree d e (i0.set a m) j := by
    intro m hm k b c hb hc
    have hne : k ≠ x := by rintro rfl; rw [hx0] at hc; simp at hc
    rw [List.getElem?_set_ne (hother k b hb hne).symm]
    exact hag0 k b c hb hc
  have hlist : (data.map fun y => f (Function.update (Spec.pointAt e j) x (some y))).prod =
      ∏ m ∈ Finset.range data.length, f (Function.update (Spec.pointAt e j) x data[m]?) := by
    have : data.map (fun y => f (Function.update (Spec.pointAt e j) x (some y))) =
        (List.range data.length).map fun m => f (Function.update (Spec.pointAt e j) x data[m]?) := by
      apply List.ext_getElem (by simp)
      intro m h1 h2
      simp only [List.length_map] at h1
      simp [h1]
    rw [this]
    rfl
  rw [hlist, Spec.prodAt]
  refine Finset.prod_nbij' (fun i => (i[a]?).getD 0) (fun m => i0.set a m) ?_ ?_ ?_ ?_ ?_
  · intro i hi
    obtain ⟨h1, _⟩ := Finset.mem_filter.mp hi
    have hla : a < i.length := by rw [length_of_mem_idx h1]; exact hlt
    rw [Finset.mem_range, List.getElem?_eq_getElem hla, Option.getD_some]
    exact getElem?_lt_of_mem_idx h1 (List.getElem?_eq_getElem hla) hsize
  · intro m hm
    have hm := Finset.mem_range.mp hm
    exact Finset.mem_filter.mpr ⟨hset m hm, hagree m hm⟩
  · intro i hi
    obtain ⟨h1, h2⟩ := Finset.mem_filter.mp hi
    have hli : i.length = d.shape.length := length_of_mem_idx h1
    apply List.ext_getElem?
    intro b
    rw [List.getElem?_set]
    by_cases hb : b < d.shape.length
    · split
      · rename_i hab
        subst hab
        rw [if_pos (by omega), List.getElem?_eq_getElem (by omega)]
        rfl
      · rename_i hab
        obtain ⟨k, hk⟩ := h.cover b (by rw [← h.rank]; exact hb)
        have hne : k ≠ x := by rintro rfl; rw [ha] at hk; exact hab (Option.some.inj hk)
        have hsome := (hC.kept k (by simpa using hne)).2
        rw [hk] at hsome
        obtain ⟨c, hc⟩ := Option.isSome_iff_exists.mp hsome
        rw [hag0 k b c hk hc, h2 k b c hk hc]
    · have e1 : i[b]? = none := List.getElem?_eq_none (by omega)
      have e2 : i0[b]? = none := List.getElem?_eq_none (by omega)
      rw [e1, e2]
      split
      · rename_i hab; omega
      · rfl
  · intro m hm
    have hm := Finset.mem_range.mp hm
    simp [hl0, hlt]
  · intro i hi
    obtain ⟨h1, h2⟩ := Finset.mem_filter.mp hi
    rw [hf i h1]
    congr 1
    funext k
    by_cases hk : k = x
    · subst hk
      have hla : a < i.length := by rw [length_of_mem_idx h1]; exact hlt
      simp [Spec.pointAt, hv, ha, List.getElem?_eq_getElem hla]
    · rw [Function.update_of_ne hk]
      exact pointAt_congr h h' (hC.kept k (by simpa using hk)).1.symm (h2 k)

/-! ### The points of a distribution -/

/-- The variables of `d` have the values of the grid `G`; other variables have no number. -/
structure OnGrid (d : PD) (G : List (Str × List ℚ)) : Prop where
  nodup : (G.map Prod.fst).Nodup
  values : ∀ kx ∈ G, d.values kx.1 = some (.arr [kx.2.length] kx.2) ∨
    ∃ x, kx.2 = [x] ∧ d.values kx.1 = some (.scalar x)
  others : ∀ k, k ∉ G.map Prod.fst → (d.axis k = none ∧ ∀ j, Spec.pointAt d j k = none)

theorem axis_of_arr {d : PD} (h : d.WF fmt) {k : Str} {xs : List ℚ}
    (hv : d.values k = some (.arr [xs.length] xs)) :
    ∃ a, d.axis k = some a ∧ d.shape[a]? = some xs.length := by
  unfold PD.values at hv
  obtain ⟨w, hw, hw'⟩ := Option.map_eq_some_iff.mp hv
  rcases w with y | n | y | _ | ⟨s, ys⟩ | _ <;> simp [Val.flat] at hw'
  rcases s with _ | ⟨n, s⟩
  · simp at hw'
  simp only [Val.arr.injEq] at hw'
  obtain ⟨_, rfl⟩ := hw'
  obtain ⟨a, s', data, h1, _, h3, h4⟩ := h.array k _ hw (by simp [Val.issingleton])
  simp only [Val.arr.injEq] at h1
  obtain ⟨_, rfl⟩ := h1
  exact ⟨a, by rw [PD.axis, h3]; rfl, h4⟩

theorem axis_of_scalar {d : PD} (h : d.WF fmt) {k : Str} {v : Val} (hs : v.issingleton = true)
    (hne : ∀ ys, v ≠ .arr [] ys)
    (hv : d.values k = some v) : d.axis k = none := by
  unfold PD.values at hv
  obtain ⟨w, hw, hw'⟩ := Option.map_eq_some_iff.mp hv
  refine (h.axis_single hw).mp ?_
  rcases w with y | n | y | _ | ⟨s, ys⟩ | _ <;> simp [Val.flat] at hw' <;> try (subst hw'; exact hs)
  rcases s with _ | ⟨n, s⟩
  · simp only at hw'; exact absurd hw'.symm (hne _)
  · simp only at hw'; subst hw'; simp [Val.issingleton] at hs

theorem read_lt {d : PD} (h : d.WF fmt) {G : List (Str × List ℚ)} (hG : OnGrid d G) {j : List ℕ}
    (hj : j ∈ idx d.shape) : ∀ kx ∈ G, d.read j kx.1 < kx.2.length := by
  intro kx hkx
  rcases hG.values kx hkx with hv | ⟨x, hx, hv⟩
  · obtain ⟨a, ha, hs⟩ := axis_of_arr h hv
    exact (read_of_axis h hj ha).2 _ hs
  · rw [hx, PD.read, axis_of_scalar h rfl (by simp) hv]; simp

theorem pointAt_grid {d : PD} (h : d.WF fmt) {G : List (Str × List ℚ)} (hG : OnGrid d G) {j : List ℕ}
    (hj : j ∈ idx d.shape) : Spec.pointAt d j = gridPoint G (d.read j) := by
  funext k
  by_cases hk : k ∈ G.map Prod.fst
  · obtain ⟨⟨k, xs⟩, hkx, rfl⟩ := List.mem_map.mp hk
    rw [gridPoint_of_mem hG.nodup hkx]
    rcases hG.values _ hkx with hv | ⟨x, hx, hv⟩
    · obtain ⟨a, ha, hs⟩ := axis_of_arr h hv
      simp only [Spec.pointAt, hv, ha, Option.bind_some, (read_of_axis h hj ha).1]
    · simp only at hx hv
      subst hx
      simp [Spec.pointAt, hv, PD.read, axis_of_scalar h (v := .scalar x) rfl (by simp) hv]
  · rw [gridPoint_of_not_mem hk, (hG.others k hk).2]

theorem entry_unique {d : PD} (h : d.WF fmt) (hown : ∀ k, Spec.OwnAxis d k)
    {G : List (Str × List ℚ)} (hG : OnGrid d G) {c : Str → ℕ} (hc : ∀ kx ∈ G, c kx.1 < kx.2.length) :
    ∃! j, j ∈ idx d.shape ∧ ∀ kx ∈ G, d.read j kx.1 = c kx.1 := by
  have hkey : ∀ k a, d.axis k = some a → ∃ kx ∈ G, kx.1 = k ∧ d.shape[a]? = some kx.2.length := by
    intro k a ha
    have hk : k ∈ G.map Prod.fst := by
      by_contra hk
      rw [(hG.others k hk).1] at ha
      simp at ha
    obtain ⟨kx, hkx, rfl⟩ := List.mem_map.mp hk
    refine ⟨kx, hkx, rfl, ?_⟩
    rcases hG.values kx hkx with hv | ⟨x, hx, hv⟩
    · obtain ⟨b, hb, hs⟩ := axis_of_arr h hv
      rw [ha] at hb
      rw [Option.some.inj hb]; exact hs
    · rw [axis_of_scalar h rfl (by simp) hv] at ha
      simp at ha
  obtain ⟨j, ⟨hj, hr⟩, hu⟩ := exists_entry h hown (c := c) (by
    intro k a n ha hn
    obtain ⟨kx, hkx, rfl, hs⟩ := hkey k a ha
    rw [hn] at hs
    rw [Option.some.inj hs]
    exact hc kx hkx)
  refine ⟨j, ⟨hj, ?_⟩, ?_⟩
  · intro kx hkx
    rcases hG.values kx hkx with hv | ⟨x, hx, hv⟩
    · obtain ⟨b, hb, hs⟩ := axis_of_arr h hv
      exact hr _ b hb
    · have := hc kx hkx
      rw [hx] at this
      simp only [List.length_singleton, Nat.lt_one_iff] at this
      rw [this, PD.read, axis_of_scalar h rfl (by simp) hv]; rfl
  · rintro i ⟨hi, hr'⟩
    refine hu i ⟨hi, ?_⟩
    intro k a ha
    obtain ⟨kx, hkx, rfl, hs⟩ := hkey k a ha
    exact hr' kx hkx

/-- The points of a distribution are those of its grid. -/
theorem points_iff {d : PD} (h : d.WF fmt) (hown : ∀ k, Spec.OwnAxis d k)
    {G : List (Str × List ℚ)} (hG : OnGrid d G) (θ : Str → Option ℚ) :
    θ ∈ Spec.gridPoints G ↔ ∃ j ∈ idx d.shape, Spec.pointAt d j = θ := by
  constructor
  · intro hθ
    obtain ⟨c, hc, rfl⟩ := exists_gridPoint hG.nodup hθ
    obtain ⟨j, ⟨hj, hr⟩, _⟩ := entry_unique h hown hG hc
    exact ⟨j, hj, by rw [pointAt_grid h hG hj]; exact gridPoint_congr hr⟩
  · rintro ⟨j, hj, rfl⟩
    rw [pointAt_grid h hG hj]
    exact mem_gridPoints (read_lt h hG hj)

/-- A point of a grid of some variables, with the others taken from another point. -/
def Spec.joined (G : List (Str × List ℚ)) (φ θ : Str → Option ℚ) (k : Str) : Option ℚ :=
  if k ∈ G.map Prod.fst then φ k else θ k

open Classical in
/-- The mass given some variables as a sum over the grid of the others. -/
theorem massGiven_grid {d : PD} (h : d.WF fmt) (hown : ∀ k, Spec.OwnAxis d k)
    {G H : List (Str × List ℚ)} (hG : OnGrid d (G ++ H)) {keys : List Str}
    (hk : ∀ k, d.axis k ≠ none → ((k ∈ keys ∨ k ∈ d.cond.keys) ↔ k ∉ G.map Prod.fst))
    {W : (Str → Option ℚ) → ℝ} (hW : ∀ j ∈ idx d.shape, d.at j = W (Spec.pointAt d j))
    {i : List ℕ} (hi : i ∈ idx d.shape) :
    Spec.massGiven d keys i =
      ((Spec.gridPoints G).map fun φ => W (Spec.joined G φ (Spec.pointAt d i))).sum := by
  have hn := hG.nodup
  rw [List.map_append, List.nodup_append] at hn
  obtain ⟨hnG, hnH, hdis⟩ := hn
  set T := (idx d.shape).filter (fun i' => ∀ k a, d.axis k = some a →
    (k ∈ keys ∨ k ∈ d.cond.keys) → i'[a]? = i[a]?) with hT
  have hread : ∀ t ∈ idx d.shape, t ∈ T ↔ ∀ kx ∈ H, d.read t kx.1 = d.read i kx.1 := by
    intro t ht
    rw [hT, Finset.mem_filter]
    constructor
    · rintro ⟨_, hag⟩ kx hkx
      rcases ha : d.axis kx.1 with _ | a
      · simp [PD.read, ha]
      · have hkG : kx.1 ∉ G.map Prod.fst := fun hm =>
          hdis _ hm _ (List.mem_map_of_mem hkx) rfl
        have := hag kx.1 a ha ((hk _ (by simp [ha])).mpr hkG)
        simp [PD.read, ha, this]
    · intro hag
      refine ⟨ht, ?_⟩
      intro k a ha hkk
      have hkG := (hk k (by simp [ha])).mp hkk
      have hkm : k ∈ (G ++ H).map Prod.fst := by
        by_contra hm
        rw [(hG.others k hm).1] at ha
        simp at ha
      rw [List.map_append, List.mem_append] at hkm
      obtain ⟨kx, hkx, rfl⟩ := List.mem_map.mp (hkm.resolve_left hkG)
      rw [(read_of_axis h ht ha).1, (read_of_axis h hi ha).1, hag kx hkx]
  rw [grid_sum G T (fun t => d.read t) hnG]
  · unfold Spec.massGiven
    rw [← hT]
    refine Finset.sum_congr rfl fun t ht => ?_
    have ht' := (Finset.mem_filter.mp ht).1
    rw [hW t ht']
    congr 1
    funext k
    unfold Spec.joined
    rw [pointAt_grid h hG ht', pointAt_grid h hG hi]
    split
    · rename_i hkG
      obtain ⟨⟨k, xs⟩, hkx, rfl⟩ := List.mem_map.mp hkG
      rw [gridPoint_of_mem hnG hkx, gridPoint_of_mem hG.nodup (List.mem_append_left _ hkx)]
    · rename_i hkG
      by_cases hkH : k ∈ H.map Prod.fst
      · obtain ⟨⟨k, xs⟩, hkx, rfl⟩ := List.mem_map.mp hkH
        rw [gridPoint_of_mem hG.nodup (List.mem_append_right _ hkx),
          gridPoint_of_mem hG.nodup (List.mem_append_right _ hkx), (hread t ht').mp ht _ hkx]
      · have : k ∉ (G ++ H).map Prod.fst := by
          rw [List.map_append, List.mem_append, not_or]; exact ⟨hkG, hkH⟩
        rw [gridPoint_of_not_mem this, gridPoint_of_not_mem this]
  · intro t ht kx hkx
    exact read_lt h hG (Finset.mem_filter.mp ht).1 kx (List.mem_append_left _ hkx)
  · intro c hc
    set c' : Str → ℕ := fun k => if k ∈ G.map Prod.fst then c k else d.read i k with hc'
    have hcG : ∀ kx ∈ G, c' kx.1 = c kx.1 := fun kx hkx => by
      simp only [hc', List.mem_map_of_mem hkx, if_true]
    have hcH : ∀ kx ∈ H, c' kx.1 = d.read i kx.1 := by
      intro kx hkx
      have hkG : kx.1 ∉ G.map Prod.fst := fun hm => hdis _ hm _ (List.mem_map_of_mem hkx) rfl
      simp only [hc', hkG, if_false]
    obtain ⟨j, ⟨hj, hr⟩, hu⟩ := entry_unique h hown hG (c := c') (by
      intro kx hkx
      rcases List.mem_append.mp hkx with hkx | hkx
      · rw [hcG kx hkx]; exact hc kx hkx
      · rw [hcH kx hkx]; exact read_lt h hG hi kx (List.mem_append_right _ hkx))
    refine ⟨j, ⟨(hread j hj).mpr ?_, ?_⟩, ?_⟩
    · intro kx hkx
      rw [hr kx (List.mem_append_right _ hkx), hcH kx hkx]
    · intro kx hkx
      rw [hr kx (List.mem_append_left _ hkx), hcG kx hkx]
    · rintro u ⟨hu1, hu2⟩
      have hu' := (Finset.mem_filter.mp hu1).1
      refine hu u ⟨hu', ?_⟩
      intro kx hkx
      rcases List.mem_append.mp hkx with hkx | hkx
      · rw [hcG kx hkx]; exact hu2 kx hkx
      · rw [hcH kx hkx]; exact (hread u hu').mp hu1 kx hkx

end Probayes
