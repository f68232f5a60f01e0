import Mathlib.MeasureTheory.Integral.Bochner.Basic

/-!
# Input distributions with uncorrelated, centred components
-/

open MeasureTheory

namespace Spec

/-- A probability distribution on `ℝ^m` with mean zero and second moments `γ I`. -/
structure IsWhite {m : ℕ} (μ : Measure (Fin m → ℝ)) (γ : ℝ) : Prop where
  prob : IsProbabilityMeasure μ
  int1 : ∀ k, Integrable (fun x => x k) μ
  int2 : ∀ k l, Integrable (fun x => x k * x l) μ
  mean : ∀ k, ∫ x, x k ∂μ = 0
  moment : ∀ k l, ∫ x, x k * x l ∂μ = if k = l then γ else 0

end Spec
