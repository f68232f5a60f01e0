import Mathlib.LinearAlgebra.Matrix.Charpoly.Basic
import Mathlib.Data.Real.Basic
import Mathlib.LinearAlgebra.Matrix.Notation

/-!
# Contract of the eigenvalue routines
-/

open Polynomial

namespace Spec

/-- What `np.linalg.eig` returns for a real matrix with real eigenvalues: every eigenvalue with its multiplicity,
and a unit eigenvector for each (not necessarily independent ones). -/
structure IsEig {n : ℕ} (A : Matrix (Fin n) (Fin n) ℝ) (e : Fin n → ℝ) (V : Matrix (Fin n) (Fin n) ℝ) : Prop where
  vecs : A * V = V * Matrix.diagonal e
  unit : ∀ j, ∑ i, V i j ^ 2 = 1
  vals : A.charpoly = ∏ i, (X - C (e i))

end Spec
