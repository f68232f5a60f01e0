import Mathlib.Data.Matrix.Mul
import Mathlib.Data.Real.Basic
import Mathlib.LinearAlgebra.Matrix.Notation

/-!
# Eigenvalue decompositions of symmetric matrices
-/

namespace Spec

/-- What `np.linalg.eigh` returns for a symmetric matrix: an orthogonal matrix of eigenvectors, with eigenvalues in the same
order.  (LAPACK also sorts the eigenvalues; this is not used.) -/
structure IsEigh {n : ℕ} (A : Matrix (Fin n) (Fin n) ℝ) (e : Fin n → ℝ) (V : Matrix (Fin n) (Fin n) ℝ) : Prop where
  vecs : A * V = V * Matrix.diagonal e
  orth : V.transpose * V = 1

/-- The decomposition `sorted_eigh` should return for a positive semidefinite matrix: eigenvalues non-negative and in
descending order, orthonormal eigenvectors, first components non-negative. -/
structure IsSortedEigh {n : ℕ} (A : Matrix (Fin n) (Fin n) ℝ) (e : Fin n → ℝ) (W : Matrix (Fin n) (Fin n) ℝ) : Prop where
  vec : ∀ j, A.mulVec (fun i => W i j) = e j • fun i => W i j
  orth : ∀ j k, ∑ i, W i j * W i k = if j = k then 1 else 0
  nonneg : ∀ j, 0 ≤ e j
  anti : Antitone e
  first : ∀ (i j : Fin n), (i : ℕ) = 0 → 0 ≤ W i j

end Spec
