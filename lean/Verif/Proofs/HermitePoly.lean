import Mathlib.Probability.Distributions.Gaussian.Real
import Mathlib.MeasureTheory.Integral.IntegralEqImproper
import Mathlib.Analysis.Calculus.Deriv.Polynomial
import Verif.Spec.OrthoPoly
import Verif.Proofs.GaussRule

/-!
# Moments of the standard Gaussian and Hermite polynomials
-/

open Polynomial Spec MeasureTheory ProbabilityTheory

namespace Proofs.HermitePoly

/-- Polynomials are integrable for the standard Gaussian. -/
theorem integrable_poly (p : ℝ[X]) : Integrable (fun x => p.eval x) (gaussianReal 0 1) := by
  have hpow : ∀ j : ℕ, Integrable (fun x : ℝ => x ^ j) (gaussianReal 0 1) := by
    intro j
    have h := memLp_id_gaussianReal (μ := 0) (v := 1) (p := j)
    have := h.integrable_norm_pow'
    refine (integrable_norm_iff (by fun_prop)).mp ?_
    simpa [norm_pow] using this
  have : (fun x => p.eval x) = fun x => ∑ j ∈ Finset.range (p.natDegree + 1), p.coeff j * x ^ j := by
    funext x
    exact eval_eq_sum_range x
  rw [this]
  exact integrable_finset_sum _ fun j _ => (hpow j).const_mul _

/-- The Gaussian functional. -/
noncomputable def gaussL : ℝ[X] →ₗ[ℝ] ℝ where
  toFun p := ∫ x, p.eval x ∂(gaussianReal 0 1)
  map_add' p q := by
    simp only [eval_add]
    exact integral_add (integrable_poly p) (integrable_poly q)
  map_smul' c p := by
    simp only [eval_smul, smul_eq_mul, RingHom.id_apply]
    exact integral_const_mul c _

theorem gaussL_apply (p : ℝ[X]) : gaussL p = ∫ x, p.eval x ∂(gaussianReal 0 1) := rfl

theorem gaussL_one : gaussL 1 = 1 := by
  simp [gaussL_apply]

theorem integrable_pdf_poly (p : ℝ[X]) : Integrable (fun x => gaussianPDFReal 0 1 x * p.eval x) := by
  have h := integrable_poly p
  rw [gaussianReal_of_var_ne_zero _ one_ne_zero,
    integrable_withDensity_iff_integrable_smul' (measurable_gaussianPDF _ _) (ae_of_all _ fun _ => gaussianPDF_lt_top)] at h
  simpa [toReal_gaussianPDF] using h

theorem hasDerivAt_pdf (x : ℝ) : HasDerivAt (gaussianPDFReal 0 1) (-x * gaussianPDFReal 0 1 x) x := by
  rw [gaussianPDFReal_def]
  have h1 : HasDerivAt (fun x : ℝ => -(x - 0) ^ 2 / (2 * ((1 : NNReal) : ℝ))) (-x) x := by
    have := ((((hasDerivAt_id x).sub_const 0).pow 2).neg).div_const (2 * ((1 : NNReal) : ℝ))
    refine this.congr_deriv ?_
    simp only [id, NNReal.coe_one, sub_zero, Nat.cast_ofNat]
    ring
  refine ((h1.exp).const_mul _).congr_deriv ?_
  ring

/-- Integration by parts against the Gaussian. -/
theorem gaussL_parts (p : ℝ[X]) : gaussL (X * p - derivative p) = 0 := by
  rw [gaussL_apply, integral_gaussianReal_eq_integral_smul one_ne_zero]
  have hd : ∀ x, HasDerivAt (fun x => gaussianPDFReal 0 1 x * -p.eval x)
      (gaussianPDFReal 0 1 x • (X * p - derivative p).eval x) x := by
    intro x
    refine ((hasDerivAt_pdf x).mul (p.hasDerivAt x).neg).congr_deriv ?_
    simp only [eval_sub, eval_mul, eval_X, smul_eq_mul, Pi.neg_apply]
    ring
  refine integral_eq_zero_of_hasDerivAt_of_integrable hd ?_ ?_
  · exact integrable_pdf_poly (X * p - derivative p)
  · simpa using integrable_pdf_poly (-p)

/-- The recurrence coefficients `a_k = 0`, `b_k = k`. -/
noncomputable def herm (k : ℕ) : ℝ[X] := monicPoly (fun _ => 0) (fun k => k) k

theorem herm_rec (k : ℕ) : herm (k + 2) = X * herm (k + 1) - C ((k : ℝ) + 1) * herm k := by
  simp [herm, monicPoly]

theorem herm_deriv (k : ℕ) : derivative (herm (k + 1)) = C ((k : ℝ) + 1) * herm k := by
  induction k using Nat.strong_induction_on with
  | _ k ih =>
    rcases k with _ | _ | k
    · simp [herm, monicPoly]
    · rw [herm_rec]
      simp [herm, monicPoly]
      ring
    · rw [herm_rec, derivative_sub, derivative_mul, derivative_X, derivative_C_mul, ih (k + 1) (by omega), ih k (by omega)]
      have h1 : X * herm (k + 1) = herm (k + 2) + C ((k : ℝ) + 1) * herm k := by rw [herm_rec]; ring
      simp only [Nat.cast_add, Nat.cast_one, C_add, C_1]
      simp only [C_add, C_1] at h1
      linear_combination ((C (k : ℝ)) + 1 + 1) * h1

theorem herm_succ (k : ℕ) : herm (k + 1) = X * herm k - derivative (herm k) := by
  rcases k with _ | k
  · simp [herm, monicPoly]
  · rw [herm_rec, herm_deriv]

theorem gaussL_herm (k : ℕ) : gaussL (monicPoly (fun _ => 0) (fun k => k) (k + 1)) = 0 := by
  have := herm_succ k
  unfold herm at this
  rw [this]
  exact gaussL_parts _

end Proofs.HermitePoly
