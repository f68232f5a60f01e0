import Mathlib.Data.Real.Basic
import Mathlib.LinearAlgebra.Matrix.Notation
import Mathlib.Algebra.BigOperators.Group.Finset.Basic
import Mathlib.LinearAlgebra.Matrix.PosDef

/-!
# Elementary statistics, independent of the model
-/

namespace Spec

variable {M m : ℕ}

/-- Mean of the values of `f` on the finite set `s`. -/
noncomputable def meanOn {ι : Type*} (s : Finset ι) (f : ι → ℝ) : ℝ := (∑ i ∈ s, f i) / s.card

/-- (Population) variance of the values of `f` on the finite set `s`. -/
noncomputable def varOn {ι : Type*} (s : Finset ι) (f : ι → ℝ) : ℝ :=
  (∑ i ∈ s, (f i - meanOn s f) ^ 2) / s.card

/-- A weighted sample `X` (one point per row, weights `w` summing to one) has mean `mu`. -/
def HasMean (w : Fin M → ℝ) (X : Matrix (Fin M) (Fin m) ℝ) (mu : Fin m → ℝ) : Prop :=
  (∑ i, w i = 1) ∧ ∀ j, ∑ i, w i * X i j = mu j

/-- A weighted sample `X` has covariance `C` about `mu`. -/
def HasCov (w : Fin M → ℝ) (X : Matrix (Fin M) (Fin m) ℝ) (mu : Fin m → ℝ)
    (C : Matrix (Fin m) (Fin m) ℝ) : Prop :=
  ∀ j k, ∑ i, w i * ((X i j - mu j) * (X i k - mu k)) = C j k

/-- `L` is the Cholesky factor of `C`. -/
structure IsCholesky (C L : Matrix (Fin m) (Fin m) ℝ) : Prop where
  lower : ∀ i j, i < j → L i j = 0
  diag_pos : ∀ i, 0 < L i i
  mul : L * L.transpose = C

end Spec
