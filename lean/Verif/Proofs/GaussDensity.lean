import Mathlib.MeasureTheory.Constructions.Pi
import Mathlib.MeasureTheory.Measure.Lebesgue.Basic
import Mathlib.Probability.Distributions.Gaussian.Real

/-!
# The density of independent normal numbers
-/

open MeasureTheory ProbabilityTheory
open scoped ENNReal NNReal

namespace Proofs.GaussDensity

theorem lintegral_pi_prod : ∀ {k : ℕ} (ν : Fin k → Measure ℝ) [∀ i, SigmaFinite (ν i)] {g : Fin k → ℝ → ℝ≥0∞}, (∀ i, Measurable (g i)) →
    ∫⁻ x, ∏ i, g i (x i) ∂Measure.pi ν = ∏ i, ∫⁻ t, g i t ∂ν i
  | 0, ν, _, g, _ => by simp
  | k + 1, ν, _, g, hg => by
    have h := (measurePreserving_piFinSuccAbove ν 0).lintegral_comp (f := fun p : ℝ × (Fin k → ℝ) => g 0 p.1 * ∏ i, g i.succ (p.2 i)) (by fun_prop)
    have e : ∀ x : Fin (k + 1) → ℝ, ∏ i, g i (x i)
        = (fun p : ℝ × (Fin k → ℝ) => g 0 p.1 * ∏ i, g i.succ (p.2 i)) (MeasurableEquiv.piFinSuccAbove (fun _ => ℝ) 0 x) := fun x => by
      rw [Fin.prod_univ_succ]
      rfl
    simp only [e]
    have hq : Measurable fun q : Fin k → ℝ => ∏ i, g i.succ (q i) := Finset.measurable_fun_prod _ fun i _ => (hg i.succ).comp (measurable_pi_apply i)
    have hs : ∀ j : Fin k, SigmaFinite (ν (Fin.succAbove 0 j)) := fun j => inferInstance
    rw [h]
    refine (lintegral_prod_mul (μ := ν 0) (ν := Measure.pi fun j => ν (Fin.succAbove 0 j)) (f := g 0) (g := fun q : Fin k → ℝ => ∏ i, g i.succ (q i)) (hg 0).aemeasurable hq.aemeasurable).trans ?_
    rw [Fin.prod_univ_succ]
    congr 1
    exact lintegral_pi_prod (fun i => ν i.succ) fun i => hg i.succ

/-- Independent normal numbers have the product of the densities. -/
theorem pi_gaussian {k : ℕ} (z : Fin k → ℝ) {v : ℝ≥0} (hv : v ≠ 0) :
    (Measure.pi fun j => gaussianReal (z j) v) = (volume : Measure (Fin k → ℝ)).withDensity fun x => ∏ j, gaussianPDF (z j) v (x j) := by
  refine Measure.pi_eq fun s hs => ?_
  rw [withDensity_apply _ (MeasurableSet.univ_pi hs), volume_pi, Measure.restrict_pi_pi, lintegral_pi_prod _ fun j => measurable_gaussianPDF (z j) v]
  exact Finset.prod_congr rfl fun j _ => (gaussianReal_apply (z j) hv (s j)).symm

/-- The density in terms of the distance. -/
theorem prod_pdf {k : ℕ} (z x : Fin k → ℝ) (v : ℝ≥0) :
    ∏ j, gaussianPDF (z j) v (x j) = ENNReal.ofReal ((√(2 * Real.pi * v))⁻¹ ^ k * Real.exp (-(∑ j, (x j - z j) ^ 2) / (2 * v))) := by
  simp only [gaussianPDF]
  rw [← ENNReal.ofReal_prod_of_nonneg fun j _ => gaussianPDFReal_nonneg _ _ _]
  simp only [gaussianPDFReal]
  rw [Finset.prod_mul_distrib, Finset.prod_const, Finset.card_univ, Fintype.card_fin, ← Real.exp_sum, ← Finset.sum_div, Finset.sum_neg_distrib]

end Proofs.GaussDensity
