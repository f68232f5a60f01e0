import Mathlib.Analysis.Calculus.Deriv.Pi
import Mathlib.Analysis.Calculus.Deriv.Prod
import Mathlib.Analysis.Calculus.Deriv.Comp
import Mathlib.Analysis.Calculus.FDeriv.Pi
import Mathlib.Analysis.Calculus.FDeriv.Comp
import Mathlib.Analysis.Calculus.Deriv.Mul
import Mathlib.Analysis.Calculus.Deriv.Add

/-!
# Gradients from partial derivatives
-/

namespace Proofs.Partials

variable {m : ℕ}

/-- The linear map with coefficients `g`. -/
noncomputable def lin (g : Fin m → ℝ) : (Fin m → ℝ) →L[ℝ] ℝ := ∑ j, g j • (ContinuousLinearMap.proj j : (Fin m → ℝ) →L[ℝ] ℝ)

theorem lin_apply (g v : Fin m → ℝ) : lin g v = ∑ j, g j * v j := by
  simp [lin]

/-- A differentiable function is determined to first order by its derivatives along lines. -/
theorem grad_of_lines {f : (Fin m → ℝ) → ℝ} {x g : Fin m → ℝ} (hd : DifferentiableAt ℝ f x)
    (hp : ∀ v : Fin m → ℝ, HasDerivAt (fun t : ℝ => f fun j => x j + t * v j) (∑ j, g j * v j) 0) : HasFDerivAt f (lin g) x := by
  have h4 : fderiv ℝ f x = lin g := by
    ext v
    rw [lin_apply]
    have h1 : HasDerivAt (fun t : ℝ => fun j => x j + t * v j) v 0 := by
      refine hasDerivAt_pi.2 ?_
      intro j
      simpa using ((hasDerivAt_id (0 : ℝ)).mul_const (v j)).const_add (x j)
    have h2 : HasFDerivAt f (fderiv ℝ f x) ((fun t : ℝ => fun j => x j + t * v j) 0) := by
      have : ((fun t : ℝ => fun j => x j + t * v j) 0) = x := by funext j; simp
      rw [this]
      exact hd.hasFDerivAt
    exact (h2.comp_hasDerivAt (0 : ℝ) h1).unique (hp v)
  rw [← h4]
  exact hd.hasFDerivAt

/-- The derivative of a coordinate along a line. -/
theorem line (x v : Fin m → ℝ) (j : Fin m) : HasDerivAt (fun t : ℝ => x j + t * v j) (v j) 0 := by
  simpa using ((hasDerivAt_id (0 : ℝ)).mul_const (v j)).const_add (x j)

theorem line_zero (x v : Fin m → ℝ) (j : Fin m) : x j + (0 : ℝ) * v j = x j := by ring

/-- The chain rule for a change of each coordinate by itself. -/
theorem comp_coords {f : (Fin m → ℝ) → ℝ} {φ : Fin m → ℝ → ℝ} {g c z : Fin m → ℝ} (h : HasFDerivAt f (lin g) fun j => φ j (z j))
    (hφ : ∀ j, HasDerivAt (φ j) (c j) (z j)) : HasFDerivAt (fun z : Fin m → ℝ => f fun j => φ j (z j)) (lin fun j => g j * c j) z := by
  have h1 : HasFDerivAt (fun z : Fin m → ℝ => fun j => φ j (z j))
      (ContinuousLinearMap.pi fun j => c j • (ContinuousLinearMap.proj j : (Fin m → ℝ) →L[ℝ] ℝ)) z := by
    rw [hasFDerivAt_pi']
    intro j
    have h2 : HasFDerivAt (fun z : Fin m → ℝ => z j) (ContinuousLinearMap.proj j : (Fin m → ℝ) →L[ℝ] ℝ) z := hasFDerivAt_apply j z
    exact (hφ j).comp_hasFDerivAt z h2
  have h3 := HasFDerivAt.comp z h h1
  refine h3.congr_fderiv ?_
  ext v
  rw [lin_apply, ContinuousLinearMap.comp_apply, lin_apply]
  refine Finset.sum_congr rfl fun j _ => ?_
  simp only [ContinuousLinearMap.pi_apply, ContinuousLinearMap.smul_apply, ContinuousLinearMap.proj_apply, smul_eq_mul]
  ring

end Proofs.Partials
