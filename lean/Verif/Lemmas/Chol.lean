/-
Positive definite matrices are those with a Cholesky factor; used for C84.
-/
import Mathlib.Analysis.Matrix.LDL
import Mathlib.LinearAlgebra.Matrix.Block
import Mathlib.Algebra.Order.Star.Real

namespace Probayes

open Matrix

theorem exists_factor {n : ℕ} (S : Matrix (Fin n) (Fin n) ℝ) (hS : S.PosDef) :
    ∃ L : Matrix (Fin n) (Fin n) ℝ, (∀ i j, i < j → L i j = 0) ∧ (∀ i, 0 < L i i) ∧ L * Lᵀ = S := by
  classical
  set A := LDL.lower hS with hA
  have htri : (LDL.lowerInv hS).IsLowerTriangular := fun i j h => LDL.lowerInv_triangular hS h
  have hAtri : A.IsLowerTriangular := by
    rw [hA, LDL.lower]
    exact blockTriangular_inv_of_blockTriangular htri
  have hu : IsUnit A.det := by
    rw [hA, LDL.lower]
    exact (Matrix.isUnit_iff_isUnit_det _).mp (by
      rw [Matrix.isUnit_nonsing_inv_iff]
      exact isUnit_of_invertible _)
  have hdiag : ∀ i, A i i ≠ 0 := by
    intro i h
    rw [det_of_isLowerTriangular A hAtri] at hu
    exact hu.ne_zero (Finset.prod_eq_zero (Finset.mem_univ i) h)
  have hD : ∀ i, 0 < LDL.diagEntries hS i := by
    have hpd : (LDL.diag hS).PosDef := by
      rw [LDL.diag_eq_lowerInv_conj]
      refine Matrix.PosDef.mul_mul_conjTranspose_same hS ?_
      exact Matrix.vecMul_injective_of_isUnit (isUnit_of_invertible _)
    exact posDef_diagonal_iff.mp hpd
  let f : Fin n → ℝ := fun i => Real.sqrt (LDL.diagEntries hS i) * SignType.sign (A i i)
  have hf : ∀ i, f i * f i = LDL.diagEntries hS i := by
    intro i
    have h1 : ((SignType.sign (A i i) : SignType) : ℝ) * (SignType.sign (A i i) : SignType) = 1 := by
      rcases lt_or_gt_of_ne (hdiag i) with h | h
      · simp [sign_neg h]
      · simp [sign_pos h]
    calc f i * f i = (Real.sqrt (LDL.diagEntries hS i) * Real.sqrt (LDL.diagEntries hS i)) *
          (((SignType.sign (A i i) : SignType) : ℝ) * (SignType.sign (A i i) : SignType)) := by simp only [f]; ring
      _ = _ := by rw [h1, mul_one, Real.mul_self_sqrt (hD i).le]
  refine ⟨A * diagonal f, ?_, ?_, ?_⟩
  · intro i j h
    rw [Matrix.mul_diagonal, hAtri h, zero_mul]
  · intro i
    rw [Matrix.mul_diagonal]
    simp only [f]
    have : A i i * ((SignType.sign (A i i) : SignType) : ℝ) = |A i i| := by
      rw [self_mul_sign]
    calc 0 < Real.sqrt (LDL.diagEntries hS i) * |A i i| :=
          mul_pos (Real.sqrt_pos.mpr (hD i)) (abs_pos.mpr (hdiag i))
      _ = _ := by rw [← this]; ring
  · rw [Matrix.transpose_mul, diagonal_transpose, Matrix.mul_assoc, ← Matrix.mul_assoc (diagonal f), diagonal_mul_diagonal]
    simp only [hf]
    have := LDL.lower_conj_diag hS
    rw [LDL.diag, Matrix.mul_assoc, conjTranspose_eq_transpose_of_trivial] at this
    exact this

theorem factor_isUnit {n : ℕ} {L : Matrix (Fin n) (Fin n) ℝ} (h1 : ∀ i j, i < j → L i j = 0) (h2 : ∀ i, 0 < L i i) :
    IsUnit L := by
  rw [Matrix.isUnit_iff_isUnit_det, det_of_isLowerTriangular L fun i j h => h1 i j h]
  exact (Finset.prod_pos fun i _ => h2 i).ne'.isUnit

theorem factor_posDef {n : ℕ} {L : Matrix (Fin n) (Fin n) ℝ} (h1 : ∀ i j, i < j → L i j = 0) (h2 : ∀ i, 0 < L i i) :
    (L * Lᵀ).PosDef := by
  have := Matrix.PosDef.mul_conjTranspose_self L (Matrix.vecMul_injective_of_isUnit (factor_isUnit h1 h2))
  rwa [conjTranspose_eq_transpose_of_trivial] at this

end Probayes
