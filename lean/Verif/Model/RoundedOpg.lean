import Verif.Model.RoundedLocal
import Verif.Model.Rounded

/-!
# `opg_subspace` in floating point
-/

open Py Model.Misc

namespace Model.Rounded

variable {W : Type} {M m : ℕ}

/-- gradients.py 52-63: the loop over `K` random centres.  `dist ii` are the squared distances from the point `ii`, as they were computed. -/
noncomputable def localLoop (rd : ℝ → ℝ) (argsort : (Fin M → ℝ) → (Fin M → Fin M)) (lstsq : Lstsq) (dist : Fin M → Fin M → ℝ) (randint : PyM W (Fin M))
    (X : Matrix (Fin M) (Fin m) ℝ) (f weights : Fin M → ℝ) (p K : ℕ) : PyM W (Matrix (Fin K) (Fin m) ℝ) :=
  (List.finRange K).foldlM (fun df i => do
    let ii ← randint
    let g ← PyM.lift (localModel rd argsort lstsq (dist ii) X f (weights ii) p)
    return Matrix.updateRow df i g) (Np.zeros K m)

/-- subspaces.py 317-324 `opg_subspace`, after the check of the inputs, for `K` models with `p` points each.  Simplified: `p` and `K` are given; their computation
from the shape (gradients.py 42 and 51) is in `Model.Gradients`. -/
noncomputable def opg_subspace (rd : ℝ → ℝ) (d : Dot) (argsort : (Fin M → ℝ) → (Fin M → Fin M)) (lstsq : Lstsq) (lib : Subspaces.Lib) (dist : Fin M → Fin M → ℝ)
    (randint : PyM W (Fin M)) (X : Matrix (Fin M) (Fin m) ℝ) (f weights : Fin M → ℝ) (p K : ℕ) : PyM W Subspaces.EigPair := do
  let df ← localLoop rd argsort lstsq dist randint X f weights p K
  PyM.lift (active_subspace rd d lib (.mat (NpMat.of df)) (NpMat.of (Matrix.of fun (_ : Fin K) (_ : Fin 1) => rd (1 / (K : ℝ)))))

end Model.Rounded
