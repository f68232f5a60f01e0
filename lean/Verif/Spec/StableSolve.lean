import Mathlib.Data.Real.Basic
import Mathlib.LinearAlgebra.Matrix.Defs
import Mathlib.Data.Matrix.Mul
import Verif.Spec.LinAlg

/-!
# Solutions of linear systems in floating point
-/

namespace Spec

/-- What a backward stable solver returns: the exact solution `x` of a system whose matrix differs from `C`, in every entry, by at most `η` times a bound of the
entries of `C`. -/
def StableSolve (η : ℝ) {n q : ℕ} (C : Matrix (Fin n) (Fin n) ℝ) (b x : Matrix (Fin n) (Fin q) ℝ) : Prop :=
  ∃ E : Matrix (Fin n) (Fin n) ℝ, (∀ Λ, (∀ i j, |C i j| ≤ Λ) → ∀ i j, |E i j| ≤ η * Λ) ∧ (C + E) * x = b

/-- What a backward stable least squares solver returns: a minimiser for a matrix and a right-hand side that differ from `A` and `b`, in every entry, by at most `η`
times a bound of the entries. -/
def StableLstsq (η : ℝ) {r c : ℕ} (A : Matrix (Fin r) (Fin c) ℝ) (b : Fin r → ℝ) (x : Fin c → ℝ) : Prop :=
  ∃ (E : Matrix (Fin r) (Fin c) ℝ) (d : Fin r → ℝ), (∀ Λ, (∀ i j, |A i j| ≤ Λ) → ∀ i j, |E i j| ≤ η * Λ) ∧ (∀ Λ, (∀ i, |b i| ≤ Λ) → ∀ i, |d i| ≤ η * Λ) ∧
    IsLeastSquares (A + E) (b + d) x

end Spec
