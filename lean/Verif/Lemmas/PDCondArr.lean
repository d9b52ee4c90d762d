/-
Lemmas on moving all axes of an array and on normalising it along some of them.
-/
import Verif.Lemmas.PDPlace
import Verif.Model.PDCond
import Verif.Lemmas.PDMarg

namespace Probayes

/-! ### moving axes -/

/-- `P` pairs the axes of the shape `s` one to one with those of `S`, of the same sizes. -/
structure AxisPerm (s S : List ℕ) (P : Dict ℕ ℕ) : Prop where
  old : (Dict.keys P).Nodup
  cover : ∀ a, a ∈ Dict.keys P ↔ a < s.length
  new : (Dict.vals P).Nodup
  coverNew : ∀ b, b ∈ Dict.vals P ↔ b < S.length
  size : ∀ ab ∈ P, s[ab.1]? = S[ab.2]?

/-- The pairs the other way round. -/
def swapPairs (P : Dict ℕ ℕ) : Dict ℕ ℕ := P.map fun ab => (ab.2, ab.1)

theorem mem_swapPairs {P : Dict ℕ ℕ} {a b : ℕ} : (b, a) ∈ swapPairs P ↔ (a, b) ∈ P := by
  simp only [swapPairs, List.mem_map, Prod.mk.injEq]
  constructor
  · rintro ⟨⟨x, y⟩, h1, rfl, rfl⟩; exact h1
  · intro h; exact ⟨(a, b), h, rfl, rfl⟩

theorem AxisPerm.swap {s S : List ℕ} {P : Dict ℕ ℕ} (h : AxisPerm s S P) :
    AxisPerm S s (swapPairs P) where
  old := by
    have : Dict.keys (swapPairs P) = Dict.vals P := by
      simp only [swapPairs, Dict.keys, Dict.vals, List.map_map]; rfl
    rw [this]; exact h.new
  cover := by simpa [swapPairs, Dict.keys, Dict.vals] using h.coverNew
  new := by
    have : Dict.vals (swapPairs P) = Dict.keys P := by
      simp only [swapPairs, Dict.keys, Dict.vals, List.map_map]; rfl
    rw [this]; exact h.old
  coverNew := by simpa [swapPairs, Dict.keys, Dict.vals] using h.cover
  size := by
    rintro ⟨b, a⟩ hab
    exact (h.size (a, b) (mem_swapPairs.mp hab)).symm

/-- The index list moved along `P`. -/
def moveIx (P : Dict ℕ ℕ) (n : ℕ) (i : List ℕ) : List ℕ :=
  (List.range n).map fun b => i.getD ((Dict.get? (swapPairs P) b).getD 0) 0

theorem AxisPerm.getElem?_moveIx {s S : List ℕ} {P : Dict ℕ ℕ} (h : AxisPerm s S P) {i : List ℕ}
    (hi : i.length = s.length) {a b : ℕ} (hab : (a, b) ∈ P) :
    i[a]? = (moveIx P S.length i)[b]? := by
  have hb : b < S.length := (h.coverNew b).mp (List.mem_map.mpr ⟨(a, b), hab, rfl⟩)
  have ha : a < s.length := (h.cover a).mp (List.mem_map.mpr ⟨(a, b), hab, rfl⟩)
  have hg : Dict.get? (swapPairs P) b = some a :=
    Dict.get?_of_mem h.swap.old (mem_swapPairs.mpr hab)
  rw [moveIx, List.getElem?_map, List.getElem?_range hb]
  simp only [Option.map_some, hg, Option.getD_some, List.getD_eq_getElem?_getD]
  rw [List.getElem?_eq_getElem (by omega)]
  rfl

theorem AxisPerm.mem_moveIx {s S : List ℕ} {P : Dict ℕ ℕ} (h : AxisPerm s S P) {i : List ℕ}
    (hi : i ∈ idx s) : moveIx P S.length i ∈ idx S := by
  rw [mem_idx_iff]
  refine ⟨by simp [moveIx], ?_⟩
  intro b x m hx hm
  have hb : b < S.length := by
    by_contra hc
    rw [List.getElem?_eq_none (by omega)] at hm; simp at hm
  obtain ⟨⟨a, b'⟩, hab, rfl⟩ := List.mem_map.mp ((h.coverNew b).mpr hb)
  rw [← h.getElem?_moveIx (length_of_mem_idx hi) hab] at hx
  rw [← h.size _ hab] at hm
  exact getElem?_lt_of_mem_idx hi hx hm

/-- Agreement along `P` determines the index list. -/
theorem AxisPerm.unique {s S : List ℕ} {P : Dict ℕ ℕ} (h : AxisPerm s S P) {i j j' : List ℕ}
    (hj : j.length = S.length) (hj' : j'.length = S.length)
    (h1 : ∀ ab ∈ P, i[ab.1]? = j[ab.2]?) (h2 : ∀ ab ∈ P, i[ab.1]? = j'[ab.2]?) : j = j' := by
  apply List.ext_getElem?
  intro b
  by_cases hb : b < S.length
  · obtain ⟨ab, hab, rfl⟩ := List.mem_map.mp ((h.coverNew b).mpr hb)
    rw [← h1 ab hab, ← h2 ab hab]
  · rw [List.getElem?_eq_none (by omega), List.getElem?_eq_none (by omega)]

theorem AxisPerm.existsUnique {s S : List ℕ} {P : Dict ℕ ℕ} (h : AxisPerm s S P) {i : List ℕ}
    (hi : i ∈ idx s) : ∃! j, j ∈ idx S ∧ ∀ ab ∈ P, i[ab.1]? = j[ab.2]? := by
  refine ⟨moveIx P S.length i, ⟨h.mem_moveIx hi, fun ab hab =>
    h.getElem?_moveIx (length_of_mem_idx hi) hab⟩, ?_⟩
  rintro j ⟨h1, h2⟩
  exact h.unique (length_of_mem_idx h1) (by simp [moveIx]) h2
    (fun ab hab => h.getElem?_moveIx (length_of_mem_idx hi) hab)

theorem AxisPerm.move_back {s S : List ℕ} {P : Dict ℕ ℕ} (h : AxisPerm s S P) {i : List ℕ}
    (hi : i ∈ idx s) : moveIx (swapPairs P) s.length (moveIx P S.length i) = i := by
  refine h.swap.unique (i := moveIx P S.length i) (by simp [moveIx]) (length_of_mem_idx hi) ?_ ?_
  · intro ab hab
    exact h.swap.getElem?_moveIx (by simp [moveIx]) hab
  · rintro ⟨b, a⟩ hab
    exact (h.getElem?_moveIx (length_of_mem_idx hi) (mem_swapPairs.mp hab)).symm

theorem swap_swap (P : Dict ℕ ℕ) : swapPairs (swapPairs P) = P := by
  simp only [swapPairs, List.map_map]
  exact List.map_id P

/-- Sums over corresponding entries. -/
theorem AxisPerm.sum_eq {s S : List ℕ} {P : Dict ℕ ℕ} (h : AxisPerm s S P) (f g : List ℕ → ℝ)
    (p q : List ℕ → Prop) [DecidablePred p] [DecidablePred q]
    (hfg : ∀ i ∈ idx s, ∀ j ∈ idx S, (∀ ab ∈ P, i[ab.1]? = j[ab.2]?) → f i = g j ∧ (p i ↔ q j)) :
    ∑ i ∈ (idx s).filter p, f i = ∑ j ∈ (idx S).filter q, g j := by
  have hto : ∀ i ∈ idx s, f i = g (moveIx P S.length i) ∧ (p i ↔ q (moveIx P S.length i)) :=
    fun i hi => hfg i hi _ (h.mem_moveIx hi) fun ab hab =>
      h.getElem?_moveIx (length_of_mem_idx hi) hab
  have hback : ∀ j ∈ idx S, moveIx (swapPairs P) s.length j ∈ idx s ∧
      moveIx P S.length (moveIx (swapPairs P) s.length j) = j := by
    intro j hj
    refine ⟨h.swap.mem_moveIx hj, ?_⟩
    have := h.swap.move_back hj
    rwa [swap_swap] at this
  refine Finset.sum_nbij' (moveIx P S.length) (moveIx (swapPairs P) s.length) ?_ ?_ ?_ ?_ ?_
  · intro i hi
    rw [Finset.mem_filter] at hi ⊢
    exact ⟨h.mem_moveIx hi.1, ((hto i hi.1).2).mp hi.2⟩
  · intro j hj
    rw [Finset.mem_filter] at hj ⊢
    obtain ⟨h1, h2⟩ := hback j hj.1
    refine ⟨h1, ((hto _ h1).2).mpr ?_⟩
    rw [h2]; exact hj.2
  · intro i hi
    rw [Finset.mem_filter] at hi
    exact h.move_back hi.1
  · intro j hj
    rw [Finset.mem_filter] at hj
    exact (hback j hj.1).2
  · intro i hi
    rw [Finset.mem_filter] at hi
    exact (hto i hi.1).1

/-- `np.moveaxis` of every axis. -/
theorem moveaxis_ok {A : Arr} {P : Dict ℕ ℕ} (hold : (Dict.keys P).Nodup)
    (hcover : ∀ a, a ∈ Dict.keys P ↔ a < A.shape.length) (hnew : (Dict.vals P).Nodup)
    (hlt : ∀ b ∈ Dict.vals P, b < A.shape.length) :
    ∃ q, moveaxis A (Dict.keys P) (Dict.vals P) = .ok q ∧ AxisPerm A.shape q.shape P ∧
      ∀ i j : List ℕ, i.length = A.shape.length → (∀ ab ∈ P, i[ab.1]? = j[ab.2]?) →
        q.get j = A.get i := by
  set n := A.shape.length with hn
  have hkl : (Dict.keys P).length = n := by
    have hp : (Dict.keys P).Perm (List.range n) := by
      rw [List.perm_ext_iff_of_nodup hold List.nodup_range]
      intro a; rw [hcover, List.mem_range]
    simpa using hp.length_eq
  have hPl : P.length = n := by simpa [Dict.keys] using hkl
  have hvl : (Dict.vals P).length = n := by simpa [Dict.vals] using hPl
  have hcn : ∀ b, b ∈ Dict.vals P ↔ b < n := by
    have hp : (Dict.vals P).Subperm (List.range n) :=
      hnew.subperm fun b hb => List.mem_range.mpr (hlt b hb)
    have hp := hp.perm_of_length_le (by simp [hvl])
    intro b
    rw [hp.mem_iff, List.mem_range]
  set order := moveOrder (Dict.keys P) (Dict.vals P) n 0 ((List.range n).filter (· ∉ Dict.keys P))
    with ho
  obtain ⟨o1, o2, -⟩ := moveOrder_spec (Dict.keys P) (Dict.vals P) (by rw [hkl, hvl]) n 0
    ((List.range n).filter (· ∉ Dict.keys P)) (by
      rw [length_range_notMem _ _ hold (fun a ha => (hcover a).mp ha), ← List.range_eq_range',
        length_range_notMem _ _ hnew hlt, hkl, hvl])
  rw [← ho] at o1 o2
  simp only [Nat.zero_add] at o2
  have hdst : ∀ ab ∈ P, order[ab.2]? = some ab.1 := by
    intro ab hab
    obtain ⟨m, hm⟩ := List.mem_iff_getElem?.mp hab
    have hb : (Dict.vals P)[m]? = some ab.2 := by simp [Dict.vals, hm]
    have ha : (Dict.keys P)[m]? = some ab.1 := by simp [Dict.keys, hm]
    have hbm : ab.2 ∈ Dict.vals P := List.mem_of_getElem? hb
    rw [o2 _ (hlt _ hbm) hbm]
    have : (Dict.vals P).idxOf ab.2 = m := by
      obtain ⟨hl, hbb⟩ := List.getElem?_eq_some_iff.mp hb
      rw [← hbb]; exact hnew.idxOf_getElem m hl
    rw [this, ha]
  have hidx : ∀ ab ∈ P, order.idxOf ab.1 = ab.2 := by
    intro ab hab
    have hmem : ab.1 ∈ order := List.mem_of_getElem? (hdst ab hab)
    have hl := List.idxOf_lt_length_iff.mpr hmem
    have hget : order[order.idxOf ab.1]? = some ab.1 := by
      rw [List.getElem?_eq_getElem hl, List.getElem_idxOf hl]
    obtain ⟨cd, hcd, hcd2⟩ := List.mem_map.mp ((hcn _).mpr (o1 ▸ hl))
    have h1 := hdst cd hcd
    rw [hcd2, hget] at h1
    simp only [Option.some.injEq] at h1
    have e1 := Dict.get?_of_mem hold (show (ab.1, ab.2) ∈ P from hab)
    have e2 := Dict.get?_of_mem hold (show (cd.1, cd.2) ∈ P from hcd)
    rw [h1, e2] at e1
    simp only [Option.some.injEq] at e1
    rw [← hcd2, e1]
  refine ⟨transpose order A, ?_, ?_, ?_⟩
  · unfold moveaxis
    rw [if_pos]
    simp only [Bool.and_eq_true, List.all_eq_true, decide_eq_true_eq, beq_iff_eq]
    exact ⟨⟨⟨⟨fun a ha => (hcover a).mp ha, hlt⟩, hold⟩, hnew⟩, by rw [hkl, hvl]⟩
  · refine ⟨hold, hcover, hnew, ?_, ?_⟩
    · intro b
      rw [hcn]; simp [transpose, o1]
    · intro ab hab
      have hlt' : ab.1 < A.shape.length := (hcover _).mp (List.mem_map_of_mem hab)
      simp only [transpose, List.getElem?_map, hdst ab hab, Option.map_some]
      rw [List.getD_eq_getElem?_getD, List.getElem?_eq_getElem hlt']
      rfl
  · intro i j hi hij
    show A.get _ = _
    congr 1
    apply List.ext_getElem?
    intro a
    by_cases ha : a < n
    · obtain ⟨ab, hab, rfl⟩ := List.mem_map.mp ((hcover a).mpr ha)
      rw [List.getElem?_map, List.getElem?_range ha, Option.map_some, hidx ab hab, hij ab hab,
        List.getD_eq_getElem?_getD]
      have := hij ab hab
      rw [List.getElem?_eq_getElem (by omega)] at this
      rw [← this]; rfl
    · rw [List.getElem?_eq_none (by simpa using Nat.le_of_not_lt ha), List.getElem?_eq_none (by omega)]

/-! ### normalisation -/

theorem fits_mapIdx (s : List ℕ) (p : ℕ → Prop) [DecidablePred p] :
    Fits (s.mapIdx fun n m => if p n then 1 else m) s := by
  rw [Fits, List.forall₂_iff_get]
  refine ⟨by simp, ?_⟩
  intro n h1 h2
  simp only [List.get_eq_getElem, List.getElem_mapIdx]
  split <;> simp

theorem getElem?_clip {t s j : List ℕ} (ht : Fits t s) (hj : j ∈ idx s) {n : ℕ}
    (h : t[n]? = s[n]?) : (clip t j)[n]? = j[n]? := by
  have hl : t.length = s.length := ht.length_eq
  have hjl := length_of_mem_idx hj
  by_cases hn : n < s.length
  · have hx : j[n]? = some j[n] := List.getElem?_eq_getElem (by omega)
    have hm : s[n]? = some s[n] := List.getElem?_eq_getElem hn
    have hlt := getElem?_lt_of_mem_idx hj hx hm
    rw [hm] at h
    rw [clip, List.getElem?_zipWith, h, hx]
    simp only [Option.some.injEq]
    split
    · omega
    · rfl
  · rw [List.getElem?_eq_none (by simp [clip]; omega), List.getElem?_eq_none (by omega)]

open Classical in
theorem divKeep_ok {q : Arr} {axes : List ℕ} (h : ∀ a ∈ axes, a < q.shape.length) :
    ∃ total r, sumAxesKeep axes q = .ok total ∧ divArr q total = .ok r ∧ r.shape = q.shape ∧
      ∀ j ∈ idx q.shape, r.get j = q.get j /
        max npz (∑ j' ∈ (idx q.shape).filter (fun j' => ∀ a, a ∉ axes → j'[a]? = j[a]?), q.get j') := by
  set t : Arr := ⟨q.shape.mapIdx (fun n s => if n ∈ axes then 1 else s),
      fun j => ∑ i ∈ (idx q.shape).filter
        (fun i => dropAxes (· ∈ axes) i = dropAxes (· ∈ axes) j), q.get i⟩ with ht
  have hf : Fits t.shape q.shape := fits_mapIdx q.shape (· ∈ axes)
  obtain ⟨r, h1, h2, h3⟩ := zip_fits (fun a b => a / max npz b) hf
  refine ⟨t, r, ?_, h1, h2, ?_⟩
  · rw [sumAxesKeep, if_pos]
    simpa [List.all_eq_true] using h
  · intro j hj
    rw [h3 j hj]
    suffices hsum : t.get (clip t.shape j) = ∑ j' ∈ (idx q.shape).filter
        (fun j' => ∀ a, a ∉ axes → j'[a]? = j[a]?), q.get j' by
      simp only [hsum]
    show (∑ i ∈ (idx q.shape).filter
        (fun i => dropAxes (· ∈ axes) i = dropAxes (· ∈ axes) (clip t.shape j)), q.get i) = _
    refine Finset.sum_congr ?_ fun _ _ => rfl
    apply Finset.filter_congr
    intro i hi
    have hcl := clip_mem hf hj
    rw [dropAxes_eq_iff _ _ _ (by
      rw [length_of_mem_idx hi, length_of_mem_idx hcl]; exact hf.length_eq.symm)]
    have : ∀ a, a ∉ axes → (clip t.shape j)[a]? = j[a]? := by
      intro a ha
      apply getElem?_clip hf hj
      simp only [ht, List.getElem?_mapIdx, ha, if_false]
      simp
    constructor
    · intro h a ha
      rw [h a (by simpa using ha), this a ha]
    · intro h a ha
      have ha' : a ∉ axes := by simpa using ha
      rw [h a ha', this a ha']

theorem divTotal_ok (q : Arr) :
    ∃ r, divArr q ⟨[], fun _ => sumAll q⟩ = .ok r ∧ r.shape = q.shape ∧
      ∀ j ∈ idx q.shape, r.get j = q.get j / max npz (sumAll q) := by
  refine ⟨⟨q.shape, fun j => q.bget j / max npz (sumAll q)⟩, ?_, rfl, ?_⟩
  · have hb : bshape q.shape [] = .ok q.shape := by
      have : ∀ s : List ℕ, bshapeSame s (List.replicate s.length 1) = .ok s := by
        intro s
        apply bshapeSame_fits
        induction s with
        | nil => exact .nil
        | cons n s ih => exact .cons (Or.inr rfl) ih
      simp [bshape, this]
    simp only [divArr, Arr.zip, hb, bind, Except.bind, pure, Except.pure]
    rfl
  · intro j hj
    show q.bget j / _ = _
    rw [bget_self hj]

end Probayes
