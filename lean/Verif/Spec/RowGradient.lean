import Mathlib.Analysis.Calculus.FDeriv.Pi
import Verif.Np

/-!
# A pair of functions on arrays of rows of which the second returns the gradients of the first
-/

open Py

namespace Spec

/-- `fn` maps each row `z` of an `M`-by-`m` array to one number, the same function of `z` for every array, and the rows of `grad` are the
gradients of that function wherever the row and its value satisfy `P`. -/
def RowGradient (m : ℕ) (fn grad : Arr → Except Err NpMat) (P : (Fin m → ℝ) → ℝ → Prop) : Prop :=
  ∃ φ : (Fin m → ℝ) → ℝ, ∀ (M : ℕ) (Z : Matrix (Fin M) (Fin m) ℝ),
    fn (.mat (.of Z)) = .ok (.of (Matrix.of fun i (_ : Fin 1) => φ (Z i))) ∧
    ∃ G : Matrix (Fin M) (Fin m) ℝ, grad (.mat (.of Z)) = .ok (.of G) ∧
      ∀ i, P (Z i) (φ (Z i)) → HasFDerivAt φ (∑ j, G i j • (ContinuousLinearMap.proj j : (Fin m → ℝ) →L[ℝ] ℝ)) (Z i)

end Spec
