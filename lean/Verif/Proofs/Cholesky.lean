import Mathlib.Analysis.Matrix.LDL
import Mathlib.LinearAlgebra.Matrix.Block
import Verif.Spec.Stats

/-! Existence of the Cholesky factor. -/

open Matrix

namespace Proofs.Cholesky

variable {n : ℕ}

theorem exists_cholesky {S : Matrix (Fin n) (Fin n) ℝ} (hS : S.PosDef) : ∃ L, Spec.IsCholesky S L := by
  set V := LDL.lowerInv hS with hV
  have hVtri : V.BlockTriangular OrderDual.toDual := by
    intro i j hij
    exact LDL.lowerInv_triangular hS (OrderDual.toDual_lt_toDual.mp hij)
  have hVu : IsUnit V.det := (Matrix.isUnit_iff_isUnit_det V).mp (isUnit_of_invertible V)
  have hLtri : V⁻¹.BlockTriangular OrderDual.toDual := by
    letI : Invertible V := inferInstance
    exact Matrix.blockTriangular_inv_of_blockTriangular hVtri
  have hdiag : ∀ i, V⁻¹ i i ≠ 0 := by
    intro i h0
    have h1 : IsUnit V⁻¹.det := Matrix.isUnit_nonsing_inv_det V hVu
    rw [Matrix.det_of_isLowerTriangular _ hLtri] at h1
    exact h1.ne_zero (Finset.prod_eq_zero (Finset.mem_univ i) h0)
  have hD := LDL.diag_eq_lowerInv_conj hS
  have hDpos : (LDL.diag hS).PosDef := by
    rw [hD]
    refine hS.mul_mul_conjTranspose_same ?_
    exact Matrix.vecMul_injective_of_isUnit ((Matrix.isUnit_iff_isUnit_det V).mpr hVu)
  have hd : ∀ i, 0 < LDL.diagEntries hS i := by
    intro i
    have := hDpos.diag_pos (i := i)
    rwa [LDL.diag, Matrix.diagonal_apply_eq] at this
  have hmain := LDL.lower_conj_diag hS
  rw [LDL.lower, ← hV] at hmain
  refine ⟨V⁻¹ * Matrix.diagonal fun i => Real.sqrt (LDL.diagEntries hS i) * SignType.sign (V⁻¹ i i), ?_, ?_, ?_⟩
  · intro i j hij
    rw [Matrix.mul_diagonal, hLtri (OrderDual.toDual_lt_toDual.mpr hij), zero_mul]
  · intro i
    rw [Matrix.mul_diagonal, mul_left_comm]
    rw [self_mul_sign]
    exact mul_pos (Real.sqrt_pos.mpr (hd i)) (abs_pos.mpr (hdiag i))
  · rw [Matrix.transpose_mul, Matrix.diagonal_transpose, Matrix.mul_assoc, ← Matrix.mul_assoc (Matrix.diagonal _),
      Matrix.diagonal_mul_diagonal]
    have h2 : (Matrix.diagonal fun i => Real.sqrt (LDL.diagEntries hS i) * ((SignType.sign (V⁻¹ i i) : SignType) : ℝ)
        * (Real.sqrt (LDL.diagEntries hS i) * ((SignType.sign (V⁻¹ i i) : SignType) : ℝ))) = LDL.diag hS := by
      rw [LDL.diag]
      congr 1
      funext i
      have h3 : ((SignType.sign (V⁻¹ i i) : SignType) : ℝ) * ((SignType.sign (V⁻¹ i i) : SignType) : ℝ) = 1 := by
        rcases lt_or_gt_of_ne (hdiag i) with h | h
        · rw [sign_neg h]; norm_num
        · rw [sign_pos h]; norm_num
      have h4 := Real.mul_self_sqrt (hd i).le
      linear_combination h4 + LDL.diagEntries hS i * h3 +
        (((SignType.sign (V⁻¹ i i) : SignType) : ℝ) * ((SignType.sign (V⁻¹ i i) : SignType) : ℝ) - 1) * h4
    rw [h2, ← Matrix.mul_assoc]
    exact hmain

end Proofs.Cholesky
