/-
Lemmas on broadcasting.
-/
import Verif.Base.Arr
import Verif.Model.PD

namespace Probayes

/-- Shape `t` broadcasts to shape `s` of the same rank. -/
def Fits (t s : List ℕ) : Prop := List.Forall₂ (fun m n => m = n ∨ m = 1) t s

theorem Fits.refl (s : List ℕ) : Fits s s := List.forall₂_same.mpr fun _ _ => Or.inl rfl

theorem bshapeSame_fits {s t : List ℕ} (h : Fits t s) : bshapeSame s t = .ok s := by
  induction h with
  | nil => rfl
  | @cons m n t s h1 _ ih =>
    simp only [bshapeSame, ih, bind, Except.bind]
    by_cases e : n = m
    · simp [e, pure, Except.pure]
    · have hm : m = 1 := h1.resolve_left fun hh => e hh.symm
      by_cases e' : n = 1
      · exact absurd (e'.trans hm.symm) e
      · simp [e, e', hm, pure, Except.pure]

theorem bshape_fits {s t : List ℕ} (h : Fits t s) : bshape s t = .ok s := by
  have hl : t.length = s.length := h.length_eq
  simp [bshape, hl, bshapeSame_fits h]

/-- Index of a broadcast operand. -/
def clip (t j : List ℕ) : List ℕ := List.zipWith (fun n i => if n = 1 then 0 else i) t j

theorem bget_eq {a : Arr} {j : List ℕ} (h : j.length = a.shape.length) :
    a.bget j = a.get (clip a.shape j) := by
  simp [Arr.bget, h, clip]

theorem clip_self {s j : List ℕ} (h : j ∈ idx s) : clip s j = j := by
  rw [mem_idx] at h
  induction h with
  | nil => rfl
  | @cons i n j s h1 _ ih =>
    simp only [clip] at ih
    simp only [clip, List.zipWith_cons_cons, ih, List.cons.injEq, and_true]
    split <;> omega

theorem bget_self {a : Arr} {j : List ℕ} (h : j ∈ idx a.shape) : a.bget j = a.get j := by
  rw [bget_eq (length_of_mem_idx h), clip_self h]

theorem clip_mem {t s j : List ℕ} (ht : Fits t s) (hj : j ∈ idx s) : clip t j ∈ idx t := by
  rw [mem_idx] at *
  induction ht generalizing j with
  | nil => cases hj; exact List.Forall₂.nil
  | @cons m n t s h1 _ ih =>
    cases hj with
    | cons h2 h3 =>
      refine List.Forall₂.cons ?_ (ih h3)
      dsimp only
      rcases h1 with rfl | rfl
      · split <;> omega
      · simp

theorem zip_fits (f : ℝ → ℝ → ℝ) {a b : Arr} (h : Fits b.shape a.shape) :
    ∃ r, Arr.zip f a b = .ok r ∧ r.shape = a.shape ∧
      ∀ j ∈ idx a.shape, r.get j = f (a.get j) (b.get (clip b.shape j)) := by
  refine ⟨⟨a.shape, fun j => f (a.bget j) (b.bget j)⟩, ?_, rfl, ?_⟩
  · simp [Arr.zip, bshape_fits h, bind, Except.bind, pure, Except.pure]
  · intro j hj
    have hl : b.shape.length = a.shape.length := h.length_eq
    simp only [bget_self hj]
    rw [bget_eq (by rw [length_of_mem_idx hj, hl])]

/-! one axis -/

theorem length_axisShape (n a m : ℕ) : (axisShape n a m).length = n := by simp [axisShape]

theorem fits_axisShape {s : List ℕ} {a n : ℕ} (h : s[a]? = some n) :
    Fits (axisShape s.length a n) s := by
  rw [Fits, List.forall₂_iff_get]
  refine ⟨length_axisShape _ _ _, ?_⟩
  intro i h1 h2
  simp only [List.get_eq_getElem, axisShape, List.getElem_set]
  split
  · rename_i e
    subst e
    rw [List.getElem?_eq_getElem h2] at h
    simp only [Option.some.injEq] at h
    exact Or.inl h.symm
  · right; simp

theorem ravelIx_clip_ones (n : ℕ) (j : List ℕ) (h : j.length = n) :
    ravelIx (List.replicate n 1) (clip (List.replicate n 1) j) = 0 := by
  induction n generalizing j with
  | zero => simp [ravelIx]
  | succ n ih =>
    cases j with
    | nil => simp at h
    | cons i j =>
      have := ih j (by simpa using h)
      simp only [clip] at this
      simp [List.replicate_succ, clip, ravelIx, this]

theorem ravelIx_axisShape {n a m x : ℕ} {j : List ℕ} (hl : j.length = n) (hx : j[a]? = some x)
    (hm : x < m) : ravelIx (axisShape n a m) (clip (axisShape n a m) j) = x := by
  induction n generalizing j a with
  | zero => simp at hl; subst hl; simp at hx
  | succ n ih =>
    cases j with
    | nil => simp at hl
    | cons i j =>
      have hl' : j.length = n := by simpa using hl
      cases a with
      | zero =>
        simp only [List.getElem?_cons_zero, Option.some.injEq] at hx
        subst hx
        have e : axisShape (n + 1) 0 m = m :: List.replicate n 1 := by simp [axisShape, List.replicate_succ]
        have := ravelIx_clip_ones n j hl'
        simp only [clip] at this
        rw [e]
        simp only [clip, List.zipWith_cons_cons, ravelIx, this, List.prod_replicate, one_pow, mul_one, add_zero]
        split <;> omega
      | succ a =>
        have e : axisShape (n + 1) (a + 1) m = 1 :: axisShape n a m := by
          simp [axisShape, List.replicate_succ]
        rw [e]
        have := ih hl' (a := a) (by simpa using hx)
        simp only [clip] at this
        simp [clip, ravelIx, this]

end Probayes
