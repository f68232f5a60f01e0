import Verif.Model.Rounded

/-!
# `qphd_subspace` in floating point, after the fit of the quadratic model
-/

open Py Model.Misc

namespace Model.Rounded

variable {m : ℕ}

/-- subspaces.py 289: `C`, for the second moment `gamma`; `1.0 / 3.0` is rounded. -/
def qphdMatrix (rd : ℝ → ℝ) (d : Dot) (gamma : ℝ) (b : Fin m → ℝ) (A : Matrix (Fin m) (Fin m) ℝ) : Matrix (Fin m) (Fin m) ℝ :=
  Matrix.of fun i j => rd (rd (b i * b j) + rd (rd gamma * d m m m A A.transpose i j))

/-- subspaces.py 276-279 and 289-291: `qphd_subspace` for the coefficients `b` and `A` of the fitted model.  The comparison in line 276 is exact. -/
noncomputable def qphd_subspace (rd : ℝ → ℝ) (d : Dot) (lib : Subspaces.Lib) (X : NpMat) (b : Fin m → ℝ) (A : Matrix (Fin m) (Fin m) ℝ) :
    Except Err Subspaces.EigPair := do
  let gamma ← Subspaces.gamma X
  Subspaces.sorted_eigh lib (NpMat.of (qphdMatrix rd d gamma b A))

end Model.Rounded
