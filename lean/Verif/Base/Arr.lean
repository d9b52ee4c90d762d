/-
numpy arrays of floats, written from the numpy documentation: a shape with an
entry for every index list.  Entries at index lists outside the shape are
irrelevant.
-/
import Mathlib.Data.Real.Basic
import Mathlib.Algebra.BigOperators.Group.Finset.Basic
import Mathlib.Algebra.BigOperators.Group.Finset.Sigma
import Mathlib.Data.List.Forall2
import Mathlib.Tactic.Ring
import Mathlib.Data.Finset.Dedup
import Verif.Base.Py

namespace Probayes

/-- A numpy array (a Python float or numpy scalar is the array of shape `[]`). -/
structure Arr where
  shape : List ℕ
  get : List ℕ → ℝ

/-- `vtypes.isscalar` on floats and arrays (vtypes.py:99-109). -/
def Arr.isscalar (a : Arr) : Bool := a.shape.isEmpty

/-- All index lists of a shape in row-major (C) order. -/
def indices : List ℕ → List (List ℕ)
  | [] => [[]]
  | n :: s => (List.range n).flatMap fun i => (indices s).map (i :: ·)

/-- The index lists of a shape, as a set. -/
def idx (s : List ℕ) : Finset (List ℕ) := (indices s).toFinset

/-- `np.ravel`. -/
def Arr.ravel (a : Arr) : List ℝ := (indices a.shape).map a.get

/-- Elementwise operation. -/
def Arr.map (f : ℝ → ℝ) (a : Arr) : Arr := ⟨a.shape, fun i => f (a.get i)⟩

/-- The elements of a list at positions not selected by `p`. -/
def dropAxes {α : Type _} (p : ℕ → Bool) : List α → List α
  | [] => []
  | x :: l => if p 0 then dropAxes (fun n => p (n + 1)) l
              else x :: dropAxes (fun n => p (n + 1)) l

/-- The elements of a list at positions selected by `p`. -/
def takeAxes {α : Type _} (p : ℕ → Bool) (l : List α) : List α := dropAxes (fun n => !p n) l

/-- `np.sum(a, axis=tuple(set(axes)), keepdims=False)`.  Axes out of range raise
AxisError (a ValueError). -/
noncomputable def sumAxes (axes : List ℕ) (a : Arr) : Py Arr :=
  if axes.all (· < a.shape.length) then
    .ok ⟨dropAxes (· ∈ axes) a.shape,
      fun j => ∑ i ∈ (idx a.shape).filter (fun i => dropAxes (· ∈ axes) i = j), a.get i⟩
  else .error .value

/-- `np.sum(a, axis=tuple(axes), keepdims=True)`: summed axes keep size 1. -/
noncomputable def sumAxesKeep (axes : List ℕ) (a : Arr) : Py Arr :=
  if axes.all (· < a.shape.length) then
    .ok ⟨a.shape.mapIdx (fun n s => if n ∈ axes then 1 else s),
      fun j => ∑ i ∈ (idx a.shape).filter
        (fun i => dropAxes (· ∈ axes) i = dropAxes (· ∈ axes) j), a.get i⟩
  else .error .value

/-- `np.prod(a, axis=tuple(axes))`. -/
noncomputable def prodAxes (axes : List ℕ) (a : Arr) : Py Arr :=
  if axes.all (· < a.shape.length) then
    .ok ⟨dropAxes (· ∈ axes) a.shape,
      fun j => ∏ i ∈ (idx a.shape).filter (fun i => dropAxes (· ∈ axes) i = j), a.get i⟩
  else .error .value

/-- `np.sum(a)`. -/
noncomputable def sumAll (a : Arr) : ℝ := ∑ i ∈ idx a.shape, a.get i

/-- `np.transpose(a, order)`: axis `k` of the result is axis `order[k]`. -/
def transpose (order : List ℕ) (a : Arr) : Arr :=
  ⟨order.map (a.shape.getD · 0),
   fun j => a.get ((List.range a.shape.length).map fun ax => j.getD (order.idxOf ax) 0)⟩

/-- The axis order made by `np.moveaxis`: destination axes take their source
axis, "other axes remain in their original order" (numpy documentation).
`k` is the axis of the result being filled. -/
def moveOrder (src dst : List ℕ) : ℕ → ℕ → List ℕ → List ℕ
  | 0, _, _ => []
  | n + 1, k, rest =>
      if k ∈ dst then src.getD (dst.idxOf k) 0 :: moveOrder src dst n (k + 1) rest
      else match rest with
        | [] => []
        | r :: rest => r :: moveOrder src dst n (k + 1) rest

/-- `np.moveaxis(a, src, dst)`: raises for repeated, out-of-range or unequally
many axes (ValueError / AxisError). -/
def moveaxis (a : Arr) (src dst : List ℕ) : Py Arr :=
  let n := a.shape.length
  if src.all (· < n) && dst.all (· < n) && src.Nodup && dst.Nodup
      && src.length == dst.length then
    .ok (transpose (moveOrder src dst n 0 ((List.range n).filter (· ∉ src))) a)
  else .error .value

/-- Row-major position of an index list. -/
def ravelIx : List ℕ → List ℕ → ℕ
  | _ :: s, i :: j => i * s.prod + ravelIx s j
  | _, _ => 0

/-- Index list at a row-major position. -/
def unravelIx : List ℕ → ℕ → List ℕ
  | [], _ => []
  | _ :: s, k => k / s.prod :: unravelIx s (k % s.prod)

/-- `a.reshape(shape)`. -/
def reshape (shape : List ℕ) (a : Arr) : Py Arr :=
  if shape.prod = a.shape.prod then
    .ok ⟨shape, fun j => a.get (unravelIx a.shape (ravelIx shape j))⟩
  else .error .value

/-- Broadcast of two shapes of equal rank. -/
def bshapeSame : List ℕ → List ℕ → Py (List ℕ)
  | m :: s, n :: t => do
      let r ← bshapeSame s t
      if m = n then return m :: r
      else if m = 1 then return n :: r
      else if n = 1 then return m :: r
      else .error .value
  | _, _ => .ok []

/-- Broadcast of two shapes: the shorter is padded with leading ones. -/
def bshape (s t : List ℕ) : Py (List ℕ) :=
  bshapeSame (List.replicate (t.length - s.length) 1 ++ s)
    (List.replicate (s.length - t.length) 1 ++ t)

/-- Entry of a broadcast operand at an index of the result. -/
def Arr.bget (a : Arr) (j : List ℕ) : ℝ :=
  a.get (List.zipWith (fun n i => if n = 1 then 0 else i) a.shape
    (j.drop (j.length - a.shape.length)))

/-- Elementwise binary operation with broadcasting. -/
def Arr.zip (f : ℝ → ℝ → ℝ) (a b : Arr) : Py Arr := do
  let s ← bshape a.shape b.shape
  return ⟨s, fun j => f (a.bget j) (b.bget j)⟩

/-! ### Lemmas -/

theorem mem_indices {s i : List ℕ} : i ∈ indices s ↔ List.Forall₂ (· < ·) i s := by
  induction s generalizing i with
  | nil => simp [indices]
  | cons n s ih =>
    simp only [indices, List.mem_flatMap, List.mem_range, List.mem_map, ih]
    constructor
    · rintro ⟨a, ha, b, hb, rfl⟩; exact List.Forall₂.cons ha hb
    · intro h
      cases h with
      | cons ha hb => exact ⟨_, ha, _, hb, rfl⟩

theorem mem_idx {s i : List ℕ} : i ∈ idx s ↔ List.Forall₂ (· < ·) i s := by
  rw [idx, List.mem_toFinset, mem_indices]

theorem nodup_indices (s : List ℕ) : (indices s).Nodup := by
  induction s with
  | nil => simp [indices]
  | cons n s ih =>
    rw [indices, List.nodup_flatMap]
    refine ⟨fun i _ => (List.nodup_map_iff (fun a b h => by simpa using h)).mpr ih, ?_⟩
    refine List.nodup_range.pairwise_of_forall_ne fun a _ b _ hab => ?_
    rw [Function.onFun, List.disjoint_left]
    intro x hx hy
    obtain ⟨u, _, rfl⟩ := List.mem_map.mp hx
    obtain ⟨v, _, hv⟩ := List.mem_map.mp hy
    simp only [List.cons.injEq] at hv
    exact hab hv.1.symm

theorem length_of_mem_idx {s i : List ℕ} (h : i ∈ idx s) : i.length = s.length :=
  (mem_idx.mp h).length_eq

theorem getElem?_lt_of_mem_idx {s i : List ℕ} (h : i ∈ idx s) {n x m : ℕ} (hx : i[n]? = some x)
    (hm : s[n]? = some m) : x < m := by
  rw [mem_idx] at h
  induction h generalizing n with
  | nil => simp at hx
  | cons h1 _ ih =>
    cases n with
    | zero => simp at hx hm; omega
    | succ n => simp at hx hm; exact ih hx hm

theorem mem_idx_iff {s i : List ℕ} : i ∈ idx s ↔
    i.length = s.length ∧ ∀ n x m : ℕ, i[n]? = some x → s[n]? = some m → x < m := by
  refine ⟨fun h => ⟨length_of_mem_idx h, fun n x m => getElem?_lt_of_mem_idx h⟩, ?_⟩
  rintro ⟨hl, h⟩
  rw [mem_idx]
  induction i generalizing s with
  | nil => cases s <;> simp_all
  | cons a i ih =>
    cases s with
    | nil => simp at hl
    | cons b s =>
      refine List.Forall₂.cons (h 0 a b rfl rfl) (ih (by simpa using hl) ?_)
      intro n x m hx hm
      exact h (n + 1) x m (by simpa using hx) (by simpa using hm)

/-! dropAxes -/

variable {α : Type _}

@[simp] theorem dropAxes_nil (p : ℕ → Bool) : dropAxes p ([] : List α) = [] := rfl

theorem dropAxes_map {β : Type _} (f : α → β) (p : ℕ → Bool) (l : List α) :
    dropAxes p (l.map f) = (dropAxes p l).map f := by
  induction l generalizing p with
  | nil => rfl
  | cons x l ih => by_cases h : p 0 <;> simp [dropAxes, h, ih]

/-- Number of dropped positions below `n`. -/
def dropped (p : ℕ → Bool) (n : ℕ) : ℕ := (List.range n).countP p

theorem dropped_succ (p : ℕ → Bool) (n : ℕ) :
    dropped p (n + 1) = (if p 0 then 1 else 0) + dropped (fun m => p (m + 1)) n := by
  unfold dropped
  rw [List.range_succ_eq_map, List.countP_cons, List.countP_map, Nat.add_comm]
  rfl

theorem dropped_le (p : ℕ → Bool) (n : ℕ) : dropped p n ≤ n := by
  simpa [dropped] using List.countP_le_length (p := p) (l := List.range n)

theorem getElem?_dropAxes (p : ℕ → Bool) (l : List α) (n : ℕ) (h : p n = false) :
    (dropAxes p l)[n - dropped p n]? = l[n]? := by
  induction l generalizing p n with
  | nil => simp
  | cons x l ih =>
    cases n with
    | zero => simp [dropped, dropAxes, h]
    | succ n =>
      have h1 := ih (fun m => p (m + 1)) n h
      have h2 := dropped_le (fun m => p (m + 1)) n
      rw [dropped_succ]
      by_cases h0 : p 0
      · simp only [dropAxes, h0, if_true]
        rw [show n + 1 - (1 + dropped (fun m => p (m + 1)) n)
          = n - dropped (fun m => p (m + 1)) n by omega, h1]
        simp
      · simp only [dropAxes, h0]
        rw [show n + 1 - ((if false = true then 1 else 0) + dropped (fun m => p (m + 1)) n)
          = (n - dropped (fun m => p (m + 1)) n) + 1 by simp; omega]
        simpa using h1

theorem length_dropAxes (p : ℕ → Bool) (l : List α) :
    (dropAxes p l).length = l.length - dropped p l.length := by
  induction l generalizing p with
  | nil => simp
  | cons x l ih =>
    have h2 := dropped_le (fun m => p (m + 1)) l.length
    rw [List.length_cons, dropped_succ]
    by_cases h0 : p 0
    · simp only [dropAxes, h0, if_true, ih]; omega
    · simp only [dropAxes, h0, Bool.false_eq_true, if_false, List.length_cons, ih]; omega

/-- Two lists of the same length agree after dropping iff they agree at every
kept position. -/
theorem dropAxes_eq_iff (p : ℕ → Bool) (l m : List α) (hl : l.length = m.length) :
    dropAxes p l = dropAxes p m ↔ ∀ n, p n = false → l[n]? = m[n]? := by
  induction l generalizing p m with
  | nil => cases m <;> simp_all
  | cons x l ih =>
    cases m with
    | nil => simp at hl
    | cons y m =>
      have hl' : l.length = m.length := by simpa using hl
      by_cases h0 : p 0
      · simp only [dropAxes, h0, if_true, ih _ m hl']
        constructor
        · intro h n hn
          cases n with
          | zero => simp [h0] at hn
          | succ n => simpa using h n hn
        · intro h n hn; simpa using h (n + 1) hn
      · simp only [dropAxes, h0, Bool.false_eq_true, if_false, List.cons.injEq, ih _ m hl']
        constructor
        · rintro ⟨rfl, h⟩ n hn
          cases n with
          | zero => rfl
          | succ n => simpa using h n hn
        · intro h
          refine ⟨by simpa using h 0 (by simpa using h0), fun n hn => by simpa using h (n + 1) hn⟩

theorem dropAxes_mem_idx (p : ℕ → Bool) {s i : List ℕ} (h : i ∈ idx s) :
    dropAxes p i ∈ idx (dropAxes p s) := by
  rw [mem_idx] at h ⊢
  induction h generalizing p with
  | nil => exact List.Forall₂.nil
  | cons h1 _ ih =>
    by_cases h0 : p 0
    · simp only [dropAxes, h0, if_true]; exact ih _
    · simp only [dropAxes, h0]; exact List.Forall₂.cons h1 (ih _)

theorem dropAxes_none (l : List α) (p : ℕ → Bool) (h : ∀ n < l.length, p n = false) :
    dropAxes p l = l := by
  induction l generalizing p with
  | nil => rfl
  | cons x l ih =>
    have h0 := h 0 (by simp)
    simp only [dropAxes, h0, Bool.false_eq_true, if_false]
    rw [ih _ fun n hn => h (n + 1) (by simpa using hn)]

theorem dropAxes_congr (l : List α) (p q : ℕ → Bool) (h : ∀ n < l.length, p n = q n) :
    dropAxes p l = dropAxes q l := by
  induction l generalizing p q with
  | nil => rfl
  | cons x l ih =>
    have h0 := h 0 (by simp)
    simp only [dropAxes, h0]
    rw [ih _ _ fun n hn => h (n + 1) (by simpa using hn)]

/-! ravel / unravel -/

theorem unravel_ravel {s j : List ℕ} (h : j ∈ idx s) : unravelIx s (ravelIx s j) = j := by
  have h := mem_idx.mp h
  clear * - h
  have aux : ∀ s j : List ℕ, List.Forall₂ (· < ·) j s → ravelIx s j < s.prod ∧
      unravelIx s (ravelIx s j) = j := by
    intro s j h
    induction h with
    | nil => simp [ravelIx, unravelIx]
    | @cons i n j s h1 _ ih =>
      obtain ⟨h2, h3⟩ := ih
      have hp : 0 < s.prod := by omega
      refine ⟨?_, ?_⟩
      · simp only [ravelIx, List.prod_cons]
        calc i * s.prod + ravelIx s j < i * s.prod + s.prod := by omega
          _ = (i + 1) * s.prod := by ring
          _ ≤ n * s.prod := Nat.mul_le_mul_right _ h1
      · simp only [ravelIx, unravelIx]
        rw [Nat.add_comm, Nat.add_mul_div_right _ _ hp, Nat.add_mul_mod_self_right,
          Nat.div_eq_of_lt h2, Nat.mod_eq_of_lt h2, h3, Nat.zero_add]
  exact (aux s j h).2

/-- Dropping axes of size one does not change the row-major position. -/
theorem ravel_squeeze {s j : List ℕ} (h : j ∈ idx s) (p : ℕ → Bool)
    (hp : ∀ n m, p n = true → s[n]? = some m → m = 1) :
    ravelIx (dropAxes p s) (dropAxes p j) = ravelIx s j ∧ (dropAxes p s).prod = s.prod := by
  have h := mem_idx.mp h
  induction h generalizing p with
  | nil => simp
  | @cons i n j s h1 _ ih =>
    obtain ⟨h2, h3⟩ := ih (mem_idx.mpr ‹_›) (fun m => p (m + 1)) (fun a b hab hb => hp (a + 1) b hab (by simpa using hb))
    by_cases h0 : p 0
    · have : n = 1 := hp 0 n h0 (by simp)
      subst this
      have : i = 0 := by omega
      subst this
      simp only [dropAxes, h0, if_true, ravelIx, h2, h3, List.prod_cons]
      simp
    · simp only [dropAxes, h0, Bool.false_eq_true, if_false, ravelIx, h2, h3, List.prod_cons]
      simp

end Probayes
