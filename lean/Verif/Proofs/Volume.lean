import Mathlib.Analysis.Matrix.Spectrum
import Mathlib.Analysis.Matrix.PosDef
import Mathlib.Data.Real.StarOrdered
import Mathlib.LinearAlgebra.Matrix.NonsingularInverse

/-!
# The volume of the matrix of inner products of two orthonormal families
-/

open Matrix

namespace Proofs.Volume

variable {m n : ℕ}

theorem self_dot_eq_zero {v : Fin n → ℝ} (h : v ⬝ᵥ v = 0) : v = 0 := dotProduct_self_eq_zero.mp h

theorem eigenvalue_le_one {S : Matrix (Fin n) (Fin n) ℝ} (hS : S.IsHermitian) (h : ∀ v : Fin n → ℝ, v ⬝ᵥ S.mulVec v ≤ v ⬝ᵥ v)
    (i : Fin n) : hS.eigenvalues i ≤ 1 := by
  have h1 := hS.mulVec_eigenvectorBasis i
  have h2 := h (hS.eigenvectorBasis i).ofLp
  rw [h1, dotProduct_smul, smul_eq_mul] at h2
  have h3 : (hS.eigenvectorBasis i).ofLp ⬝ᵥ (hS.eigenvectorBasis i).ofLp = 1 := by
    have h4 := hS.eigenvectorBasis.orthonormal.1 i
    have h5 := EuclideanSpace.real_norm_sq_eq (hS.eigenvectorBasis i)
    rw [h4] at h5
    rw [dotProduct]
    simp only [one_pow] at h5
    rw [h5]
    exact Finset.sum_congr rfl fun j _ => by ring
  rw [h3] at h2
  linarith

theorem det_le_one {S : Matrix (Fin n) (Fin n) ℝ} (hS : S.PosSemidef) (h : ∀ v : Fin n → ℝ, v ⬝ᵥ S.mulVec v ≤ v ⬝ᵥ v) : S.det ≤ 1 := by
  rw [hS.1.det_eq_prod_eigenvalues]
  exact Finset.prod_le_one (fun i _ => hS.eigenvalues_nonneg i) fun i _ => eigenvalue_le_one hS.1 h i

theorem trace_of_det_one {S : Matrix (Fin n) (Fin n) ℝ} (hS : S.PosSemidef) (h : ∀ v : Fin n → ℝ, v ⬝ᵥ S.mulVec v ≤ v ⬝ᵥ v)
    (hd : S.det = 1) : S.trace = n := by
  have hd' := hS.1.det_eq_prod_eigenvalues
  rw [hd] at hd'
  have hall : ∀ i, hS.1.eigenvalues i = 1 := by
    intro i
    by_contra hi
    have hlt := lt_of_le_of_ne (eigenvalue_le_one hS.1 h i) hi
    have h2 : ∏ j, hS.1.eigenvalues j ≤ hS.1.eigenvalues i := by
      rw [← Finset.mul_prod_erase Finset.univ _ (Finset.mem_univ i)]
      exact mul_le_of_le_one_right (hS.eigenvalues_nonneg i)
        (Finset.prod_le_one (fun j _ => hS.eigenvalues_nonneg j) fun j _ => eigenvalue_le_one hS.1 h j)
    have h3 : (1 : ℝ) = ∏ j, hS.1.eigenvalues j := by simpa using hd'
    linarith
  rw [hS.1.trace_eq_sum_eigenvalues]
  simp [hall]

variable {A B : Matrix (Fin m) (Fin n) ℝ}

/-- The component of `A` orthogonal to the columns of `B`. -/
theorem residual (hA : A.transpose * A = 1) (hB : B.transpose * B = 1) :
    (A - B * (B.transpose * A)).transpose * (A - B * (B.transpose * A)) = 1 - (A.transpose * B) * (A.transpose * B).transpose := by
  have h1 : (A - B * (B.transpose * A)).transpose = A.transpose - A.transpose * B * B.transpose := by
    rw [transpose_sub, transpose_mul, transpose_mul, transpose_transpose]
  have h2 : A.transpose * B * B.transpose * (B * (B.transpose * A)) = A.transpose * B * (B.transpose * A) := by
    rw [Matrix.mul_assoc _ B.transpose, ← Matrix.mul_assoc B.transpose B, hB, Matrix.one_mul]
  rw [h1, Matrix.sub_mul, Matrix.mul_sub, Matrix.mul_sub, hA, h2, Matrix.mul_assoc (A.transpose * B) B.transpose A, sub_self, sub_zero,
    transpose_mul, transpose_transpose, Matrix.mul_assoc A.transpose B]

theorem gram_le (hA : A.transpose * A = 1) (hB : B.transpose * B = 1) (v : Fin n → ℝ) :
    v ⬝ᵥ ((A.transpose * B) * (A.transpose * B).transpose).mulVec v ≤ v ⬝ᵥ v := by
  have h := residual hA hB
  have h1 : ((A.transpose * B) * (A.transpose * B).transpose)
      = 1 - (A - B * (B.transpose * A)).transpose * (A - B * (B.transpose * A)) := by rw [h]; abel
  rw [h1, Matrix.sub_mulVec, dotProduct_sub, Matrix.one_mulVec, ← Matrix.mulVec_mulVec, Matrix.dotProduct_mulVec, Matrix.vecMul_transpose]
  have := dotProduct_self_star_nonneg ((A - B * (B.transpose * A)).mulVec v)
  rw [star_trivial] at this
  linarith

theorem gram_psd : ((A.transpose * B) * (A.transpose * B).transpose).PosSemidef := by
  have := posSemidef_self_mul_conjTranspose (A.transpose * B)
  rwa [conjTranspose_eq_transpose_of_trivial] at this

/-- The determinant of the inner products of two orthonormal families of the same size is at most 1. -/
theorem abs_det_le_one (hA : A.transpose * A = 1) (hB : B.transpose * B = 1) : |(A.transpose * B).det| ≤ 1 := by
  have h := det_le_one gram_psd (gram_le hA hB)
  rw [det_mul, det_transpose, ← sq] at h
  exact abs_le_one_iff_mul_self_le_one.mpr (by rw [← sq]; exact h)

/-- If it is 1 then the columns of `A` lie in the span of those of `B`. -/
theorem of_abs_det_eq_one (hA : A.transpose * A = 1) (hB : B.transpose * B = 1) (hd : |(A.transpose * B).det| = 1) :
    A = B * (B.transpose * A) := by
  have hd' : ((A.transpose * B) * (A.transpose * B).transpose).det = 1 := by
    rw [det_mul, det_transpose, ← abs_mul_abs_self, hd, one_mul]
  have ht := trace_of_det_one gram_psd (gram_le hA hB) hd'
  have hr := congrArg trace (residual hA hB)
  rw [trace_sub, ht, trace_one, Fintype.card_fin, sub_self] at hr
  have h0 := trace_conjTranspose_mul_self_eq_zero_iff (A := A - B * (B.transpose * A)) |>.mp
    (by rw [conjTranspose_eq_transpose_of_trivial]; exact hr)
  exact sub_eq_zero.mp h0

/-- If the columns of `A` are combinations of those of `B`, it is 1. -/
theorem abs_det_eq_one (hA : A.transpose * A = 1) (hB : B.transpose * B = 1) {C : Matrix (Fin n) (Fin n) ℝ} (h : A = B * C) :
    |(A.transpose * B).det| = 1 := by
  have h1 : A.transpose * B = C.transpose := by rw [h, transpose_mul, Matrix.mul_assoc, hB, Matrix.mul_one]
  have h2 : C.transpose * C = 1 := by
    rw [h, transpose_mul, Matrix.mul_assoc, ← Matrix.mul_assoc B.transpose, hB, Matrix.one_mul] at hA
    exact hA
  have h3 := congrArg det h2
  rw [det_mul, det_transpose, det_one, ← abs_mul_abs_self] at h3
  rw [h1, det_transpose]
  nlinarith [abs_nonneg C.det]

end Proofs.Volume
