import Mathlib.Algebra.Polynomial.AlgebraMap
import Mathlib.Data.Real.Basic
import Mathlib.LinearAlgebra.Matrix.ToLin
import Mathlib.Analysis.SpecialFunctions.Pow.Real

/-!
# Orthogonal polynomials by recurrence, and the symmetric tridiagonal matrix
-/

open Polynomial

namespace Spec

/-- The monic polynomials of the three-term recurrence with coefficients `a_k`, `b_k`. -/
noncomputable def monicPoly (a b : ℕ → ℝ) : ℕ → ℝ[X]
  | 0 => 1
  | 1 => X - C (a 0)
  | k + 2 => (X - C (a (k + 1))) * monicPoly a b (k + 1) - C (b (k + 1)) * monicPoly a b k

/-- The symmetric tridiagonal matrix with diagonal `a_k` and off-diagonal `sqrt b_k`. -/
noncomputable def tridiag (a b : ℕ → ℝ) (n : ℕ) : Matrix (Fin n) (Fin n) ℝ :=
  Matrix.of fun i j =>
    if (i : ℕ) = j then a i
    else if (j : ℕ) = i + 1 then Real.sqrt (b j)
    else if (i : ℕ) = j + 1 then Real.sqrt (b i)
    else 0

end Spec
