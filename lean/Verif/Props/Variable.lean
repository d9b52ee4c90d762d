/-
Properties C08-C12: variables.
-/
import Verif.Model.Variable
import Verif.Props.Uniform
import Mathlib.Order.Interval.Set.Monotone
import Mathlib.Data.List.Sort
import Mathlib.Data.Int.CardIntervalMod

namespace Probayes

/-! ### C08 membership -/

/-- A value is above a declared limit. -/
def Spec.above (l : Limit) (x : ℝ) : Prop := if l.excl then l.v < x else l.v ≤ x
/-- A value is below a declared limit. -/
def Spec.below (l : Limit) (x : ℝ) : Prop := if l.excl then x < l.v else x ≤ l.v

/-- The declared interval: the smaller limit is the lower one, whatever the
order of declaration; a tuple declares an open interval. -/
def Spec.MemF : FSet → ℝ → Prop
  | .tuple a b, x => min a b < x ∧ x < max a b
  | .list a b, x =>
      if a.v ≤ b.v then Spec.above a x ∧ Spec.below b x
      else Spec.above b x ∧ Spec.below a x

/-- C08: membership of a float variable is membership of the declared
interval. -/
theorem C08_inside_float (s : FSet) (x : ℝ) :
    (FloatVar.make s).inside x = true ↔ Spec.MemF s x := by
  cases s with
  | tuple a b =>
      have h : ¬ max a b < min a b := not_lt.mpr (min_le_max)
      simp [FloatVar.make, FSet.toList, h, FloatVar.inside, Spec.MemF]
  | list a b =>
      rcases a with ⟨av, ae⟩; rcases b with ⟨bv, be⟩
      by_cases h : bv < av
      · cases ae <;> cases be <;>
          simp [FloatVar.make, FSet.toList, h, FloatVar.inside, Spec.MemF, Spec.above,
            Spec.below, not_le.mpr h]
      · cases ae <;> cases be <;>
          simp [FloatVar.make, FSet.toList, h, FloatVar.inside, Spec.MemF, Spec.above,
            Spec.below, not_lt.mp h]

/-- C08: membership of a discrete variable is membership of the declared set,
whichever container it was given in. -/
theorem C08_inside_discrete {α : Type} [LinearOrder α] (s : DSet α) (x : α) :
    insideD s.toList x = true ↔ x ∈ (match s with | .set xs => xs | .array xs => xs | .list xs => xs) := by
  cases s with
  | set xs => simp [insideD, DSet.toList]
  | array xs => simp [insideD, DSet.toList]
  | list xs => exact decide_eq_true_iff

/-- C08: sets and arrays are stored in increasing order. -/
theorem C08_sorted {α : Type} [LinearOrder α] (xs : List α) :
    (DSet.set xs).toList.Pairwise (· ≤ ·) ∧ (DSet.array xs).toList.Pairwise (· ≤ ·) ∧
    (DSet.set xs).toList.Nodup := by
  refine ⟨?_, ?_, ?_⟩
  · simpa [DSet.toList] using List.pairwise_mergeSort' (· ≤ ·) xs.dedup
  · simpa [DSet.toList] using List.pairwise_mergeSort' (· ≤ ·) xs
  · exact (List.mergeSort_perm xs.dedup _).nodup_iff.mpr (List.nodup_dedup xs)

/-- Non-vacuity: `[2.0, (1.0,)]` declares (1, 2]. -/
example : Spec.MemF (.list ⟨(2:ℝ), false⟩ ⟨(1:ℝ), true⟩) 2 ∧
    ¬ Spec.MemF (.list ⟨(2:ℝ), false⟩ ⟨(1:ℝ), true⟩) 1 := by
  have h : ¬ ((2:ℝ) : EReal) ≤ ((1:ℝ) : EReal) := by
    rw [EReal.coe_le_coe_iff]; norm_num
  have h' : ((1:ℝ) : EReal) < ((2:ℝ) : EReal) := by
    rw [EReal.coe_lt_coe_iff]; norm_num
  simp only [Spec.MemF, Spec.above, Spec.below, if_neg h]
  exact ⟨⟨h', le_refl _⟩, fun hc => absurd hc.1 (lt_irrefl _)⟩

/-! ### C09 evaluation of float variables -/

/-- A transform and its inverse over the interval [lo, hi]: strictly monotone
(either direction) with the ends mapped back to the ends. -/
def Spec.Inverts (uf : UFun) (lo hi : ℝ) : Prop :=
  match uf with
  | none => True
  | some (f, g) => g (f lo) = lo ∧ g (f hi) = hi ∧
      (f lo < f hi ∧ StrictMonoOn g (Set.Icc (f lo) (f hi)) ∨
       f hi < f lo ∧ StrictAntiOn g (Set.Icc (f hi) (f lo)))

/-- Reading the interval through the transform is strictly increasing in the
fraction of the way from one end to the other. -/
theorem through_mono (uf : UFun) (lo hi : ℝ) (hlt : lo < hi) (h : Spec.Inverts uf lo hi) :
    let f := uf.fwd
    let g := uf.inv
    StrictMonoOn (fun t => g (f lo + (f hi - f lo) * t)) (Set.Icc 0 1) ∧
      g (f lo) = lo ∧ g (f hi) = hi := by
  rcases uf with _ | ⟨f, g⟩
  · refine ⟨?_, rfl, rfl⟩
    intro s _ t _ hst
    simp only [UFun.fwd, UFun.inv, id]
    have : 0 < (hi - lo) * (t - s) := mul_pos (by linarith) (by linarith)
    linarith
  · obtain ⟨h0, h1, hm⟩ := h
    refine ⟨?_, h0, h1⟩
    intro s hs t ht hst
    obtain ⟨hs0, hs1⟩ := hs
    obtain ⟨ht0, ht1⟩ := ht
    simp only [UFun.fwd, UFun.inv]
    rcases hm with ⟨hf, hm⟩ | ⟨hf, hm⟩
    · have hd : 0 < f hi - f lo := by linarith
      apply hm
      · constructor <;> nlinarith
      · constructor <;> nlinarith
      · nlinarith
    · have hd : f hi - f lo < 0 := by linarith
      apply hm
      · constructor <;> nlinarith
      · constructor <;> nlinarith
      · nlinarith

theorem through_bounds (uf : UFun) (lo hi : ℝ) (hlt : lo < hi) (h : Spec.Inverts uf lo hi)
    (t : ℝ) (h0 : 0 ≤ t) (h1 : t ≤ 1) :
    let f := uf.fwd
    let g := uf.inv
    let y := g (f lo + (f hi - f lo) * t)
    lo ≤ y ∧ y ≤ hi ∧ (0 < t → lo < y) ∧ (t < 1 → y < hi) := by
  obtain ⟨hm, e0, e1⟩ := through_mono uf lo hi hlt h
  intro f g y
  have hz : g (f lo + (f hi - f lo) * 0) = lo := by rw [mul_zero, add_zero]; exact e0
  have ho : g (f lo + (f hi - f lo) * 1) = hi := by
    rw [mul_one, show f lo + (f hi - f lo) = f hi by ring]; exact e1
  have m0 : (0:ℝ) ∈ Set.Icc (0:ℝ) 1 := by constructor <;> norm_num
  have m1 : (1:ℝ) ∈ Set.Icc (0:ℝ) 1 := by constructor <;> norm_num
  have mt : t ∈ Set.Icc (0:ℝ) 1 := ⟨h0, h1⟩
  refine ⟨?_, ?_, ?_, ?_⟩
  · rw [← hz]; exact hm.monotoneOn m0 mt h0
  · rw [← ho]; exact hm.monotoneOn mt m1 h1
  · intro ht; rw [← hz]; exact hm m0 mt ht
  · intro ht; rw [← ho]; exact hm mt m1 ht

theorem evaluate_eq (a b : Limit) (uf : UFun) (n : ℤ) (rand : ℕ → ℝ) (lo hi : ℝ) :
    FloatVar.evaluate ⟨a, b, lo, hi⟩ uf n rand =
      match uniform (uf.fwd lo) (uf.fwd hi) n a.excl b.excl rand with
      | .scalar v => .ok (.scalar (uf.inv v))
      | .array vs => .ok (.array (vs.map uf.inv)) := by
  simp [FloatVar.evaluate, EReal.toReal_coe]
  rfl

/-- Lower/upper limit of a declaration with finite, different limits. -/
theorem make_spec (s : FSet) (lo hi : ℝ) (h : (FloatVar.make s).lo = lo)
    (h' : (FloatVar.make s).hi = hi) :
    ∃ a b, FloatVar.make s = ⟨a, b, lo, hi⟩ :=
  ⟨(FloatVar.make s).s0, (FloatVar.make s).s1, by rw [← h, ← h']⟩

/-- C09: a grid request `{n}`, n>0, yields n values, all in the declared set. -/
theorem C09_evaluate_grid (s : FSet) (lo hi : ℝ) (hlo : (FloatVar.make s).lo = lo)
    (hhi : (FloatVar.make s).hi = hi) (hlt : lo < hi) (uf : UFun)
    (huf : Spec.Inverts uf lo hi) (n : ℕ) (hn : 1 ≤ n) (rand : ℕ → ℝ) :
    ∃ xs, (FloatVar.make s).evaluate uf n rand = .ok (.array xs) ∧ xs.length = n ∧
      ∀ x ∈ xs, Spec.MemF s x := by
  obtain ⟨a, b, hm⟩ := make_spec s lo hi hlo hhi
  rw [hm, evaluate_eq]
  obtain ⟨ys, hys, hlen, hget⟩ := C07_grid (uf.fwd lo) (uf.fwd hi) n hn a.excl b.excl rand
  simp only [hys]
  refine ⟨ys.map uf.inv, rfl, by simpa using hlen, ?_⟩
  intro x hx
  obtain ⟨i, hi', rfl⟩ := List.getElem_of_mem hx
  simp only [List.length_map] at hi'
  rw [List.getElem_map, hget i hi', ← C08_inside_float, hm]
  obtain ⟨p, q, r, t⟩ := Spec.fraction_bounds n i (by omega) a.excl b.excl
  obtain ⟨k1, k2, k3, k4⟩ := through_bounds uf lo hi hlt huf _ p q
  rcases a with ⟨av, ae⟩; rcases b with ⟨bv, be⟩
  cases ae <;> cases be <;> simp only [FloatVar.inside, EReal.coe_le_coe_iff,
    EReal.coe_lt_coe_iff, Bool.and_eq_true, decide_eq_true_eq]
  · exact ⟨k1, k2⟩
  · exact ⟨k1, k4 (t rfl)⟩
  · exact ⟨k3 (r rfl), k2⟩
  · exact ⟨k3 (r rfl), k4 (t rfl)⟩

/-- C09: a random request `{-n}` yields n values within the limits (the closure
of the set), `{0}` one such scalar, for every outcome of the generator. -/
theorem C09_evaluate_random (s : FSet) (lo hi : ℝ) (hlo : (FloatVar.make s).lo = lo)
    (hhi : (FloatVar.make s).hi = hi) (hlt : lo < hi) (uf : UFun)
    (huf : Spec.Inverts uf lo hi) (n : ℕ) (rand : ℕ → ℝ)
    (hr : ∀ i, 0 ≤ rand i ∧ rand i < 1) :
    (n ≠ 0 → ∃ xs, (FloatVar.make s).evaluate uf (-(n : ℤ)) rand = .ok (.array xs) ∧
      xs.length = n ∧ ∀ x ∈ xs, lo ≤ x ∧ x < hi) ∧
    (∃ x, (FloatVar.make s).evaluate uf 0 rand = .ok (.scalar x) ∧ lo ≤ x ∧ x < hi) := by
  obtain ⟨a, b, hm⟩ := make_spec s lo hi hlo hhi
  rw [hm, evaluate_eq, evaluate_eq]
  constructor
  · intro hn
    have h0 : ¬ (-(n : ℤ) = 0) := by omega
    have h1 : -(n : ℤ) < 0 := by omega
    simp only [uniform, if_neg h0, if_pos h1]
    refine ⟨_, rfl, by simp, ?_⟩
    intro x hx
    simp only [List.map_map, List.mem_map, List.mem_range, Function.comp] at hx
    obtain ⟨i, _, rfl⟩ := hx
    obtain ⟨k1, k2, k3, k4⟩ := through_bounds uf lo hi hlt huf _ (hr i).1 (hr i).2.le
    exact ⟨k1, k4 (hr i).2⟩
  · simp only [uniform, if_true]
    refine ⟨_, rfl, ?_⟩
    obtain ⟨k1, k2, k3, k4⟩ := through_bounds uf lo hi hlt huf _ (hr 0).1 (hr 0).2.le
    exact ⟨k1, k4 (hr 0).2⟩

/-- C09: unbounded variables cannot be sampled uniformly: AssertionError. -/
theorem C09_unbounded_raises (x : FloatVar) (h : x.lo = ⊥ ∨ x.hi = ⊤) (uf : UFun) (n : ℤ)
    (rand : ℕ → ℝ) : x.evaluate uf n rand = .error .assertion := by
  rcases h with h | h <;> simp [FloatVar.evaluate, h]

/-- Non-vacuity: a decreasing transform (negation) of [0, 1). -/
example : Spec.Inverts (some ((fun x => -x), (fun x => -x))) 0 1 := by
  refine ⟨by norm_num, by norm_num, Or.inr ⟨by norm_num, ?_⟩⟩
  intro x _ y _ h; simpa using h

/-! ### C10 evaluation of discrete variables -/

theorem takeIdx_ok {α : Type} (xs : List α) (idx : List ℕ) (h : ∀ i ∈ idx, i < xs.length) :
    ∃ ys, takeIdx xs idx = .ok ys ∧ ys.length = idx.length ∧
      ∀ k (hk : k < idx.length), ys[k]? = xs[idx[k]]? := by
  induction idx with
  | nil => exact ⟨[], rfl, rfl, fun k hk => absurd hk (by simp)⟩
  | cons i idx ih =>
      obtain ⟨ys, hy, hl, hg⟩ := ih (fun j hj => h j (by simp [hj]))
      have hi : i < xs.length := h i (by simp)
      refine ⟨xs[i] :: ys, ?_, by simp [hl], ?_⟩
      · simp [takeIdx, List.getElem?_eq_getElem hi, hy, bind, Except.bind, pure, Except.pure]
      · intro k hk
        cases k with
        | zero => simp [List.getElem?_eq_getElem hi]
        | succ k => simpa using hg k (by simpa using hk)

/-- With in-range indices `values[indices]` is the mapped list. -/
theorem takeIdx_map {α : Type} (xs : List α) (idx : List ℕ) (h : ∀ i ∈ idx, i < xs.length) :
    ∃ ys, takeIdx xs idx = .ok ys ∧ ys.map some = idx.map (xs[·]?) := by
  induction idx with
  | nil => exact ⟨[], rfl, rfl⟩
  | cons i idx ih =>
      obtain ⟨ys, hy, hg⟩ := ih (fun j hj => h j (by simp [hj]))
      have hi : i < xs.length := h i (by simp)
      refine ⟨xs[i] :: ys, ?_, by simp [hg, hi]⟩
      simp [takeIdx, List.getElem?_eq_getElem hi, hy, bind, Except.bind, pure, Except.pure]

/-- How often the `j`-th member is drawn when index `i` selects member
`i % L`. -/
theorem count_mod (N L j : ℕ) (hL : 0 < L) (hj : j < L) (idx : List ℕ)
    (hp : idx.Perm (List.range N)) :
    (idx.map (· % L)).count j = N / L + if j < N % L then 1 else 0 := by
  rw [(hp.map _).count_eq, List.count_eq_countP, List.countP_map]
  have h := Nat.count_modEq_card N hL j
  rw [Nat.mod_eq_of_lt hj] at h
  rw [← h, Nat.count]
  apply List.countP_congr
  intro i _
  simp [Nat.ModEq, Nat.mod_eq_of_lt hj]

/-- C10: without a request the whole set is returned. -/
theorem C10_evaluate_all {α : Type} (isBool : Bool) (vset : List α) (r : ℕ) (perm : List ℕ) :
    evaluateD isBool vset none r perm = .ok (.array vset) := rfl

/-- C10: `{0}` returns a member for every outcome of the generator. -/
theorem C10_evaluate_zero {α : Type} (isBool : Bool) (vset : List α) (r : ℕ)
    (hr : r < vset.length) (perm : List ℕ) :
    ∃ x ∈ vset, evaluateD isBool vset (some 0) r perm = .ok (.scalar x) :=
  ⟨vset[r], List.getElem_mem hr, by simp [evaluateD, hr]⟩

theorem count_take {α : Type} [DecidableEq α] (vset : List α) (hnd : vset.Nodup)
    (idx : List ℕ) (ys : List α) (h : ys.map some = idx.map (vset[·]?))
    (j : ℕ) (hj : j < vset.length) : ys.count vset[j] = idx.count j := by
  induction idx generalizing ys with
  | nil => cases ys <;> simp_all
  | cons i idx ih =>
      cases ys with
      | nil => simp at h
      | cons y ys =>
          simp only [List.map_cons, List.cons.injEq] at h
          obtain ⟨h1, h2⟩ := h
          have := ih ys h2
          rw [List.count_cons, List.count_cons, this]
          congr 1
          have hi : i < vset.length := by
            rw [← not_le]; intro hc
            rw [List.getElem?_eq_none hc] at h1; simp at h1
          rw [List.getElem?_eq_getElem hi] at h1
          simp only [Option.some.injEq] at h1
          subst h1
          simp only [beq_iff_eq, hnd.getElem_inj_iff]

/-- C10: a request `{n}` (n>0, in order) or `{-n}` (any permutation drawn)
yields |n| members in which every member occurs |n|/L times, rounded down or
up, L being the size of the set. -/
theorem C10_evaluate_even {α : Type} [DecidableEq α] (isBool : Bool) (vset : List α)
    (hnd : vset.Nodup) (hne : vset ≠ []) (hb : isBool = true → vset.length = 2)
    (n : ℤ) (hn : n ≠ 0) (r : ℕ) (perm : List ℕ)
    (hp : perm.Perm (List.range n.natAbs)) :
    ∃ ys, evaluateD isBool vset (some n) r perm = .ok (.array ys) ∧
      ys.length = n.natAbs ∧ (∀ y ∈ ys, y ∈ vset) ∧
      ∀ x ∈ vset, n.natAbs / vset.length ≤ ys.count x ∧
        ys.count x ≤ n.natAbs / vset.length + 1 := by
  have hL : lengthD isBool vset = vset.length := by
    unfold lengthD; cases isBool
    · simp
    · simp [hb rfl]
  have hpos : 0 < vset.length := List.length_pos_iff.mpr hne
  set idx := (if 0 < n then (List.range n.natAbs) else perm) with hidx
  have hperm : idx.Perm (List.range n.natAbs) := by
    rw [hidx]; split
    · exact List.Perm.refl _
    · exact hp
  have hin : ∀ i ∈ idx.map (· % vset.length), i < vset.length := by
    intro i hi
    simp only [List.mem_map] at hi
    obtain ⟨k, _, rfl⟩ := hi
    exact Nat.mod_lt _ hpos
  obtain ⟨ys, hy, hmap⟩ := takeIdx_map vset _ hin
  refine ⟨ys, ?_, ?_, ?_, ?_⟩
  · simp only [evaluateD, if_neg hn, hL, bind, Except.bind, pure, Except.pure, ← hidx, hy]
  · have := congrArg List.length hmap
    simp only [List.length_map] at this
    rw [this, hperm.length_eq, List.length_range]
  · intro y hy
    have : some y ∈ ys.map some := List.mem_map.mpr ⟨y, hy, rfl⟩
    rw [hmap] at this
    simp only [List.mem_map] at this
    obtain ⟨i, _, h⟩ := this
    exact List.mem_of_getElem? h
  · intro x hx
    obtain ⟨j, hj, rfl⟩ := List.getElem_of_mem hx
    rw [count_take vset hnd _ ys hmap j hj, count_mod n.natAbs vset.length j hpos hj idx hperm]
    constructor
    · omega
    · split <;> omega

/-- C10 fails for a boolean variable declared with a single member: its length
is taken to be 2 and the request raises IndexError. -/
theorem C10_bool_single_fails :
    evaluateD true [true] (some 2) 0 [] = .error .index := rfl

/-- Non-vacuity: seven values of a three-element set in a random order. -/
example : ∃ ys, evaluateD false [10, 20, 30] (some (-7)) 0 [3, 1, 0, 6, 2, 5, 4] = .ok (.array ys) ∧
    ys.length = 7 := ⟨_, rfl, rfl⟩

/-! ### C11 bounded deltas -/

/-- C11 full claim for scalars: a bounded delta keeps a value in the set. -/
def C11_scalar_claim : Prop :=
  ∀ (s : FSet) (uf : UFun) (o : DeltaOpts) (len v : ℝ) (delta : Option DeltaSpec) (u : ℝ),
    Spec.MemF s v → Spec.MemF s ((FloatVar.make s).applyScalar uf o len v delta (some true) u)

theorem npMin_le (l : EReal) (w v : ℝ) (h : (v : EReal) ≤ l) : (npMin l w : EReal) ≤ l := by
  unfold npMin
  split
  · assumption
  · rename_i hw
    have h1 : l ≠ ⊤ := fun e => hw (by simp [e])
    have h2 : l ≠ ⊥ := fun e => by rw [e] at h; exact absurd h (not_le.mpr (EReal.bot_lt_coe v))
    rw [EReal.coe_toReal h1 h2]

theorem le_npMax (l : EReal) (w v : ℝ) (h : l ≤ (v : EReal)) : l ≤ (npMax l w : EReal) := by
  unfold npMax
  split
  · assumption
  · rename_i hw
    have h1 : l ≠ ⊥ := fun e => hw (by simp [e])
    have h2 : l ≠ ⊤ := fun e => by rw [e] at h; exact absurd h (not_le.mpr (EReal.coe_lt_top v))
    rw [EReal.coe_toReal h2 h1]

theorem npMin_of (l : EReal) (w : ℝ) (P : ℝ → Prop) (h1 : P w)
    (h2 : l < (w : EReal) → P l.toReal) : P (npMin l w) := by
  unfold npMin
  split
  · exact h1
  · exact h2 (not_le.mp ‹_›)

theorem npMax_of (l : EReal) (w : ℝ) (P : ℝ → Prop) (h1 : P w)
    (h2 : (w : EReal) < l → P l.toReal) : P (npMax l w) := by
  unfold npMax
  split
  · exact h1
  · exact h2 (not_le.mp ‹_›)

theorem coe_toReal_hi (l : EReal) (w v : ℝ) (h : (v : EReal) ≤ l) (hw : l < (w : EReal)) :
    ((l.toReal : ℝ) : EReal) = l :=
  EReal.coe_toReal (fun e => by rw [e] at hw; exact absurd hw (not_lt.mpr le_top))
    (fun e => by rw [e] at h; exact absurd h (not_le.mpr (EReal.bot_lt_coe v)))

theorem coe_toReal_lo (l : EReal) (w v : ℝ) (h : l ≤ (v : EReal)) (hw : (w : EReal) < l) :
    ((l.toReal : ℝ) : EReal) = l :=
  EReal.coe_toReal (fun e => by rw [e] at h; exact absurd h (not_le.mpr (EReal.coe_lt_top v)))
    (fun e => by rw [e] at hw; exact absurd hw (not_lt.mpr bot_le))

/-- Both bounding branches keep a closed interval. -/
theorem bound_closed (lo hi : EReal) (v w : ℝ) (h0 : lo ≤ (v : EReal)) (h1 : (v : EReal) ≤ hi) :
    lo ≤ (npMax lo (npMin hi w) : EReal) ∧ (npMax lo (npMin hi w) : EReal) ≤ hi := by
  refine ⟨le_npMax lo _ v h0, ?_⟩
  refine npMax_of lo _ (fun y => (y : EReal) ≤ hi) (npMin_le hi w v h1) ?_
  intro hw
  rw [coe_toReal_lo lo _ v h0 hw]
  exact h0.trans h1

theorem inside_cc (a b lo hi : EReal) (v : ℝ) :
    FloatVar.inside ⟨⟨a, false⟩, ⟨b, false⟩, lo, hi⟩ v = true ↔ lo ≤ v ∧ (v : EReal) ≤ hi := by
  simp [FloatVar.inside]
theorem inside_co (a b lo hi : EReal) (v : ℝ) :
    FloatVar.inside ⟨⟨a, false⟩, ⟨b, true⟩, lo, hi⟩ v = true ↔ lo ≤ v ∧ (v : EReal) < hi := by
  simp [FloatVar.inside]
theorem inside_oc (a b lo hi : EReal) (v : ℝ) :
    FloatVar.inside ⟨⟨a, true⟩, ⟨b, false⟩, lo, hi⟩ v = true ↔ lo < v ∧ (v : EReal) ≤ hi := by
  simp [FloatVar.inside]

/-- The array branch keeps every kind of interval. -/
theorem boundEntry_inside (x : FloatVar) (v w : ℝ) (h : x.inside v = true) :
    x.inside (x.boundEntry v w) = true := by
  rcases x with ⟨⟨a, ae⟩, ⟨b, be⟩, lo, hi⟩
  cases ae <;> cases be
  · rw [inside_cc] at h ⊢
    exact bound_closed lo hi v w h.1 h.2
  · rw [inside_co] at h ⊢
    obtain ⟨h0, h1⟩ := h
    refine ⟨le_npMax lo _ v h0, ?_⟩
    refine npMax_of lo _ (fun y => (y : EReal) < hi) ?_ ?_
    · split
      · exact h1
      · exact not_le.mp ‹_›
    · intro hw
      rw [coe_toReal_lo lo _ v h0 hw]; exact lt_of_le_of_lt h0 h1
  · rw [inside_oc] at h ⊢
    obtain ⟨h0, h1⟩ := h
    refine ⟨?_, npMin_le hi _ v h1⟩
    refine npMin_of hi _ (fun y => lo < (y : EReal)) ?_ ?_
    · split
      · exact h0
      · exact not_le.mp ‹_›
    · intro hw
      rw [coe_toReal_hi hi _ v h1 hw]; exact lt_of_lt_of_le h0 h1
  · simp only [FloatVar.boundEntry]
    by_cases hw : FloatVar.inside ⟨⟨a, true⟩, ⟨b, true⟩, lo, hi⟩ w = true
    · simp [hw]
    · simp [hw, h]

/-- C11 for arrays: full claim, every kind of interval, transform, delta and
default option. -/
theorem C11_array (s : FSet) (uf : UFun) (o : DeltaOpts) (len : ℝ) (vs : List ℝ)
    (delta : Option DeltaSpec) (u : ℝ) (h : ∀ v ∈ vs, Spec.MemF s v) :
    (∀ w ∈ (FloatVar.make s).applyArray uf o len vs delta (some true) u, Spec.MemF s w) ∧
    ((FloatVar.make s).applyArray uf o len vs delta (some true) u).length = vs.length := by
  constructor
  · intro w hw
    unfold FloatVar.applyArray at hw
    split at hw
    · exact h w hw
    · simp only [Option.getD_some, if_true, List.mem_map] at hw
      obtain ⟨v, hv, rfl⟩ := hw
      rw [← C08_inside_float]
      exact boundEntry_inside _ v _ ((C08_inside_float s v).mpr (h v hv))
  · unfold FloatVar.applyArray; split <;> simp

/-- C11 for scalars holds for closed and for open intervals (both limits of the
same kind). -/
theorem C11_scalar_partial (s : FSet) (uf : UFun) (o : DeltaOpts) (len v : ℝ)
    (delta : Option DeltaSpec) (u : ℝ) (h : Spec.MemF s v)
    (hk : (FloatVar.make s).s0.excl = (FloatVar.make s).s1.excl) :
    Spec.MemF s ((FloatVar.make s).applyScalar uf o len v delta (some true) u) := by
  unfold FloatVar.applyScalar
  split
  · exact h
  · simp only [Option.getD_some, if_true]
    rw [← C08_inside_float] at h ⊢
    generalize FloatVar.make s = x at h hk
    rcases x with ⟨⟨a, ae⟩, ⟨b, be⟩, lo, hi⟩
    simp only at hk; subst hk
    cases ae
    · rw [inside_cc] at h ⊢
      exact bound_closed lo hi v _ h.1 h.2
    · simp only [FloatVar.boundScalar]
      split
      · assumption
      · exact h

/-- C11 for scalars fails on half-open intervals: in (0, 1], stepping from 1/2 by
-1/2 returns the excluded end point 0 (the array version bounces back). -/
theorem C11_scalar_claim_fails : ¬ C11_scalar_claim := by
  intro h
  have h10 : ¬ ((1:ℝ) : EReal) < ((0:ℝ) : EReal) := by
    rw [EReal.coe_lt_coe_iff]; norm_num
  have h01 : ((0:ℝ) : EReal) ≤ ((1:ℝ) : EReal) := by
    rw [EReal.coe_le_coe_iff]; norm_num
  have hs := h (.list ⟨(0:ℝ), true⟩ ⟨(1:ℝ), false⟩) none ⟨none, false, false⟩ 1 (1/2)
    (some (.scalar (-(1/2)))) 0 (by
      simp only [Spec.MemF, if_pos h01, Spec.above, Spec.below, if_true, Bool.false_eq_true,
        if_false, EReal.coe_lt_coe_iff, EReal.coe_le_coe_iff]
      norm_num)
  have hmk : FloatVar.make (.list ⟨(0:ℝ), true⟩ ⟨(1:ℝ), false⟩) =
      ⟨⟨(0:ℝ), true⟩, ⟨(1:ℝ), false⟩, (0:ℝ), (1:ℝ)⟩ := if_neg h10
  have hz : (FloatVar.make (.list ⟨(0:ℝ), true⟩ ⟨(1:ℝ), false⟩)).applyScalar none
      ⟨none, false, false⟩ 1 (1/2) (some (.scalar (-(1/2)))) (some true) 0 = 0 := by
    have hd : effectiveDelta ⟨none, false, false⟩ 1 (some (.scalar (-(1/2)))) 0 = some (-(1/2)) := by
      simp [effectiveDelta, orDefault, DeltaSpec.truthy]
    have hw : shift none (1/2) (-(1/2)) = 0 := by simp [shift]
    rw [hmk]
    simp only [FloatVar.applyScalar, hd, hw, Option.getD_some, if_true, FloatVar.boundScalar, npMin,
      if_neg (lt_irrefl _), if_pos h01]
  rw [hz] at hs
  simp [Spec.MemF, Spec.above, Spec.below] at hs

/-- The same step on an array bounces back to the original value. -/
theorem C11_scalar_array_differ :
    (FloatVar.make (.list ⟨(0:ℝ), true⟩ ⟨(1:ℝ), false⟩)).boundScalar (1/2) 0 = 0 ∧
    (FloatVar.make (.list ⟨(0:ℝ), true⟩ ⟨(1:ℝ), false⟩)).boundEntry (1/2) 0 = 1/2 := by
  have h10 : ¬ ((1:ℝ) : EReal) < ((0:ℝ) : EReal) := by
    rw [EReal.coe_lt_coe_iff]; norm_num
  have h01 : ((0:ℝ) : EReal) ≤ ((1:ℝ) : EReal) := by
    rw [EReal.coe_le_coe_iff]; norm_num
  have hh : ((1/2:ℝ) : EReal) ≤ ((1:ℝ) : EReal) := by
    rw [EReal.coe_le_coe_iff]; norm_num
  have hmk : FloatVar.make (.list ⟨(0:ℝ), true⟩ ⟨(1:ℝ), false⟩) =
      ⟨⟨(0:ℝ), true⟩, ⟨(1:ℝ), false⟩, (0:ℝ), (1:ℝ)⟩ := if_neg h10
  rw [hmk]
  constructor
  · simp only [FloatVar.boundScalar, npMin, if_neg (lt_irrefl _), if_pos h01]
  · simp only [FloatVar.boundEntry, npMin, if_pos (le_refl _), if_pos hh]

/-- C11, integers: the claim that a bounded delta keeps membership. -/
def C11_int_claim : Prop :=
  ∀ (vset : List ℤ) (lo hi v d : ℤ), vlimsD vset = some (lo, hi) → v ∈ vset →
    intApply lo hi v d true ∈ vset

/-- C11 fails for integer sets with gaps: {0, 2} stepping 0 by 1. -/
theorem C11_int_claim_fails : ¬ C11_int_claim := by
  intro h
  have := h [0, 2] 0 2 0 1 rfl (by simp)
  simp [intApply] at this

theorem foldl_min_le (xs : List ℤ) (x : ℤ) :
    xs.foldl min x ≤ x ∧ ∀ y ∈ xs, xs.foldl min x ≤ y := by
  induction xs generalizing x with
  | nil => simp
  | cons y ys ih =>
      obtain ⟨h1, h2⟩ := ih (min x y)
      simp only [List.foldl_cons, List.mem_cons, forall_eq_or_imp]
      exact ⟨by omega, by omega, h2⟩

theorem le_foldl_max (xs : List ℤ) (x : ℤ) :
    x ≤ xs.foldl max x ∧ ∀ y ∈ xs, y ≤ xs.foldl max x := by
  induction xs generalizing x with
  | nil => simp
  | cons y ys ih =>
      obtain ⟨h1, h2⟩ := ih (max x y)
      simp only [List.foldl_cons, List.mem_cons, forall_eq_or_imp]
      exact ⟨by omega, by omega, h2⟩

/-- C11 for integer sets without gaps. -/
theorem C11_int_partial (vset : List ℤ) (lo hi v d : ℤ) (hl : vlimsD vset = some (lo, hi))
    (hv : v ∈ vset) (hgap : ∀ a ∈ vset, ∀ b ∈ vset, ∀ c, a ≤ c → c ≤ b → c ∈ vset) :
    intApply lo hi v d true ∈ vset := by
  cases vset with
  | nil => simp at hv
  | cons x xs =>
      simp only [vlimsD, Option.some.injEq, Prod.mk.injEq] at hl
      obtain ⟨rfl, rfl⟩ := hl
      have hmin : xs.foldl min x ∈ x :: xs := by
        have : ∀ (xs : List ℤ) (x : ℤ), xs.foldl min x ∈ x :: xs := by
          intro xs
          induction xs with
          | nil => simp
          | cons y ys ih =>
              intro x
              have := ih (min x y)
              simp only [List.foldl_cons, List.mem_cons] at this ⊢
              rcases this with h | h
              · rcases min_choice x y with h' | h' <;> rw [h'] at h ⊢ <;> simp [h]
              · simp [h]
        exact this xs x
      have hmax : xs.foldl max x ∈ x :: xs := by
        have : ∀ (xs : List ℤ) (x : ℤ), xs.foldl max x ∈ x :: xs := by
          intro xs
          induction xs with
          | nil => simp
          | cons y ys ih =>
              intro x
              have := ih (max x y)
              simp only [List.foldl_cons, List.mem_cons] at this ⊢
              rcases this with h | h
              · rcases max_choice x y with h' | h' <;> rw [h'] at h ⊢ <;> simp [h]
              · simp [h]
        exact this xs x
      have h1 := foldl_min_le xs x
      have h2 := le_foldl_max xs x
      refine hgap _ hmin _ hmax _ ?_ ?_
      · simp [intApply]
      · simp only [intApply, if_true]; omega

example : intApply 0 5 4 3 true ∈ ([0, 1, 2, 3, 4, 5] : List ℤ) := by decide

/-! ### C12 unbounded deltas -/

/-- C12: applying delta `a` then `b` is applying `a + b` (as `Delta` instances),
through any transform whose inverse is a right inverse on the values met. -/
theorem C12_additive (x : FloatVar) (uf : UFun) (o : DeltaOpts) (len v a b u u' u'' : ℝ)
    (hinv : ∀ f g, uf = some (f, g) → f (g (f v + a)) = f v + a) :
    x.applyScalar uf o len (x.applyScalar uf o len v (some (.named a)) (some false) u)
        (some (.named b)) (some false) u' =
      x.applyScalar uf o len v (some (.named (a + b))) (some false) u'' := by
  rcases uf with _ | ⟨f, g⟩
  · simp [FloatVar.applyScalar, effectiveDelta, orDefault, DeltaSpec.truthy, shift, add_assoc]
  · have := hinv f g rfl
    simp [FloatVar.applyScalar, effectiveDelta, orDefault, DeltaSpec.truthy, shift, this, add_assoc]

/-- C12: a delta followed by its negative restores the value. -/
theorem C12_reversible (x : FloatVar) (uf : UFun) (o : DeltaOpts) (len v a u u' : ℝ)
    (hinv : ∀ f g, uf = some (f, g) → f (g (f v + a)) = f v + a ∧ g (f v) = v) :
    x.applyScalar uf o len (x.applyScalar uf o len v (some (.named a)) (some false) u)
        (some (.named (-a))) (some false) u' = v := by
  rw [C12_additive x uf o len v a (-a) u u' 0 (fun f g h => (hinv f g h).1)]
  rcases uf with _ | ⟨f, g⟩
  · simp [FloatVar.applyScalar, effectiveDelta, orDefault, DeltaSpec.truthy, shift]
  · simp [FloatVar.applyScalar, effectiveDelta, orDefault, DeltaSpec.truthy, shift,
      (hinv f g rfl).2]

/-- C12: plain non-zero scalars behave as `Delta` instances, ... -/
theorem C12_scalar_as_named (x : FloatVar) (uf : UFun) (o : DeltaOpts) (len v a u : ℝ)
    (ha : a ≠ 0) (bound : Option Bool) :
    x.applyScalar uf o len v (some (.scalar a)) bound u =
      x.applyScalar uf o len v (some (.named a)) bound u := by
  simp [FloatVar.applyScalar, effectiveDelta, orDefault, DeltaSpec.truthy, ha]

/-- C12 full claim for plain scalars: adding delta 0 changes nothing. -/
def C12_zero_claim : Prop :=
  ∀ (x : FloatVar) (o : DeltaOpts) (len v u : ℝ),
    x.applyScalar none o len v (some (.scalar 0)) (some false) u = v

/-- ... but a plain 0 is replaced by the default delta (`delta or self._delta`):
with default delta 1 a requested step of 0 moves by 1. -/
theorem C12_zero_claim_fails : ¬ C12_zero_claim := by
  intro h
  have := h ⟨⟨0, false⟩, ⟨1, false⟩, 0, 1⟩ ⟨some (.scalar 1), false, false⟩ 1 0 0
  simp [FloatVar.applyScalar, effectiveDelta, orDefault, DeltaSpec.truthy, shift] at this

/-- C12: booleans: an odd delta flips, an even one keeps, and every delta is an
involution. -/
theorem C12_bool_flip (v : Bool) (d : ℤ) :
    boolShift v (2 * d + 1) = !v ∧ boolShift v (2 * d) = v ∧
      boolShift (boolShift v d) d = v := by
  refine ⟨?_, ?_, ?_⟩
  · cases v <;> simp only [boolShift, Bool.false_eq_true, if_false, if_true, Bool.not_true,
      Bool.not_false, beq_iff_eq, beq_eq_false_iff_ne, ne_eq] <;> omega
  · cases v <;> simp only [boolShift, Bool.false_eq_true, if_false, if_true, Bool.not_true,
      Bool.not_false, beq_iff_eq, beq_eq_false_iff_ne, ne_eq] <;> omega
  · rcases Int.emod_two_eq d with h | h <;> cases v <;>
      simp only [boolShift, Bool.false_eq_true, if_false, if_true, zero_add, h]
    · simp [h]
    · have : (1 + d) % 2 = 1 := by omega
      simp [this]
    · have : (1 + d) % 2 = 0 := by omega
      simp [this]
    · have : (1 + d) % 2 = 0 := by omega
      simp [this, h]

/-- Non-vacuity of the transform hypothesis: a scaling transform. -/
example : ∀ f g, (some ((fun x : ℝ => 2 * x), (fun y : ℝ => y / 2)) : UFun) = some (f, g) →
    f (g (f 3 + 5)) = f 3 + 5 ∧ g (f 3) = 3 := by
  intro f g h
  simp only [Option.some.injEq, Prod.mk.injEq] at h
  obtain ⟨rfl, rfl⟩ := h
  norm_num

end Probayes
