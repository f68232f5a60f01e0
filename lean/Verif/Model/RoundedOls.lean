import Verif.Model.RoundedTraining

/-!
# `ols_subspace` in floating point
-/

open Py Model.Misc Model.ResponseSurfaces

namespace Model.Rounded

variable {M m : ℕ}

/-- subspaces.py 236-239: the solution of the weighted least squares problem.  `np.sqrt` is correctly rounded. -/
noncomputable def olsFit (rd : ℝ → ℝ) (lstsq : Lstsq) (X : Matrix (Fin M) (Fin m) ℝ) (f weights : Fin M → ℝ) : Fin (1 + m) → ℝ :=
  let A : Matrix (Fin M) (Fin (1 + m)) ℝ := Matrix.of fun i j => rd (Np.hstack (Np.ones M 1) X i j * rd (Real.sqrt (weights i)))
  let b : Fin M → ℝ := fun i => rd (f i * rd (Real.sqrt (weights i)))
  lstsq M (1 + m) A b

/-- subspaces.py 234-245 `ols_subspace`, after the check of the inputs; `sorted_eigh` is exact but for `eigh`. -/
noncomputable def ols_subspace (rd : ℝ → ℝ) (d : Dot) (lstsq : Lstsq) (lib : Subspaces.Lib) (X : Matrix (Fin M) (Fin m) ℝ) (f weights : Fin M → ℝ) :
    Except Err Subspaces.EigPair :=
  let u := olsFit rd lstsq X f weights
  let w : Matrix (Fin m) (Fin 1) ℝ := Matrix.of fun i _ => u (Fin.natAdd 1 i)
  Subspaces.sorted_eigh lib (NpMat.of (d m 1 m w w.transpose))

end Model.Rounded
