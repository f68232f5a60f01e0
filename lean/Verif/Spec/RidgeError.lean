import Mathlib.Analysis.Calculus.FDeriv.Basic
import Mathlib.Analysis.Normed.Group.Constructions
import Mathlib.Data.Matrix.Mul
import Mathlib.Probability.Distributions.Gaussian.Real

/-!
# Smooth functions of normal inputs and their means over the inactive variables
-/

open MeasureTheory ProbabilityTheory

namespace Spec

/-- At most the growth of a power. -/
def PolyGrowth {E : Type*} [Norm E] (f : E → ℝ) : Prop := ∃ (K : ℝ) (p : ℕ), ∀ x, |f x| ≤ K * (1 + ‖x‖) ^ p

/-- `df` is the gradient of `f`, continuous and of polynomial growth. -/
structure Smooth {k : ℕ} (f : (Fin k → ℝ) → ℝ) (df : (Fin k → ℝ) → Fin k → ℝ) : Prop where
  deriv : ∀ x, HasFDerivAt f (∑ j, df x j • (ContinuousLinearMap.proj j : (Fin k → ℝ) →L[ℝ] ℝ)) x
  cont : ∀ j, Continuous fun x => df x j
  growth : ∀ j, PolyGrowth fun x => df x j

/-- The mean of `f (V1 y + V2 z)` over standard normal `z`. -/
noncomputable def condMean {m n k : ℕ} (f : (Fin m → ℝ) → ℝ) (V1 : Matrix (Fin m) (Fin n) ℝ) (V2 : Matrix (Fin m) (Fin k) ℝ) (y : Fin n → ℝ) : ℝ :=
  ∫ z, f (V1.mulVec y + V2.mulVec z) ∂(Measure.pi fun _ : Fin k => gaussianReal 0 1)

end Spec
