import Mathlib.Analysis.SpecialFunctions.Exp
import Mathlib.Algebra.MvPolynomial.Degrees
import Mathlib.LinearAlgebra.Matrix.Defs

/-!
# Sums of Gaussian bumps
-/

namespace Spec

variable {m p q : ℕ}

/-- The Gaussian bump around `y` with the scale `ell k` in direction `k`. -/
noncomputable def gauss (ell : Fin m → ℝ) (x y : Fin m → ℝ) : ℝ := Real.exp (-∑ k, (x k - y k) ^ 2 / ell k)

/-- A sum of bumps around the rows of `Z`. -/
noncomputable def bumps (ell : Fin m → ℝ) (Z : Matrix (Fin p) (Fin m) ℝ) (c : Fin p → ℝ) (x : Fin m → ℝ) : ℝ := ∑ j, c j * gauss ell x (Z j)

/-- The inner product of two sums of bumps in the native space of the Gaussian. -/
noncomputable def inner (ell : Fin m → ℝ) (Z : Matrix (Fin p) (Fin m) ℝ) (c : Fin p → ℝ) (W : Matrix (Fin q) (Fin m) ℝ) (d : Fin q → ℝ) : ℝ :=
  ∑ i, ∑ j, c i * d j * gauss ell (Z i) (W j)

/-- A sum of bumps plus a polynomial. -/
noncomputable def expansion (ell : Fin m → ℝ) (Z : Matrix (Fin p) (Fin m) ℝ) (c : Fin p → ℝ) (q : MvPolynomial (Fin m) ℝ) (x : Fin m → ℝ) : ℝ :=
  bumps ell Z c x + MvPolynomial.eval x q

/-- The squared norm of an expansion plus the weighted squared misfit to the data. -/
noncomputable def penalty {M : ℕ} (ell : Fin m → ℝ) (X : Matrix (Fin M) (Fin m) ℝ) (f reg : Fin M → ℝ) (Z : Matrix (Fin p) (Fin m) ℝ) (c : Fin p → ℝ)
    (q : MvPolynomial (Fin m) ℝ) : ℝ :=
  ∑ i, (expansion ell Z c q (X i) - f i) ^ 2 / reg i + inner ell Z c Z c

/-- The variance of the prediction error at `y` of the linear predictor with weights `b`, for a random field with the Gaussian as covariance, observed at the
points `X` with noise of variance `reg`. -/
noncomputable def spread {M : ℕ} (ell : Fin m → ℝ) (X : Matrix (Fin M) (Fin m) ℝ) (reg : Fin M → ℝ) (y : Fin m → ℝ) (b : Fin M → ℝ) : ℝ :=
  1 - 2 * ∑ i, b i * gauss ell y (X i) + inner ell X b X b + ∑ i, reg i * b i ^ 2

/-- The same for the prediction of `∑ lam l * h (Y l)`. -/
noncomputable def spreadOf {M L : ℕ} (ell : Fin m → ℝ) (X : Matrix (Fin M) (Fin m) ℝ) (reg : Fin M → ℝ) (Y : Matrix (Fin L) (Fin m) ℝ) (lam : Fin L → ℝ)
    (b : Fin M → ℝ) : ℝ :=
  inner ell Y lam Y lam - 2 * inner ell Y lam X b + inner ell X b X b + ∑ i, reg i * b i ^ 2

/-- The same for the prediction of the derivative in direction `k`. -/
noncomputable def spreadGrad {M : ℕ} (ell : Fin m → ℝ) (X : Matrix (Fin M) (Fin m) ℝ) (reg : Fin M → ℝ) (y : Fin m → ℝ) (k : Fin m) (b : Fin M → ℝ) : ℝ :=
  2 / ell k + 2 * ∑ i, b i * (gauss ell y (X i) * (2 * (y k - X i k) / ell k)) + inner ell X b X b + ∑ i, reg i * b i ^ 2

end Spec
