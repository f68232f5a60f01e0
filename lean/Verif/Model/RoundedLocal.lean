import Verif.Model.RoundedTraining

/-!
# Local linear models in floating point
-/

open Py Model.Misc

namespace Model.Rounded

variable {M m : ℕ}

/-- gradients.py 57-58 and `ind[:p]`: as `Model.Gradients.neighbours`, for the squared distances `D2` as they were computed. -/
noncomputable def neighbours (argsort : (Fin M → ℝ) → (Fin M → Fin M)) (D2 : Fin M → ℝ) (p : ℕ) : List (Fin M) :=
  open Classical in
  (((List.finRange M).filter fun k => D2 k ≠ 0).map (argsort D2)).take p

/-- gradients.py 57-62: one local model, for a centre of weight `w`.  `np.sqrt` is correctly rounded.  Nothing is assumed about the distances `D2`, so the
order of the sums in line 56 does not matter. -/
noncomputable def localModel (rd : ℝ → ℝ) (argsort : (Fin M → ℝ) → (Fin M → Fin M)) (lstsq : Lstsq) (D2 : Fin M → ℝ) (X : Matrix (Fin M) (Fin m) ℝ) (f : Fin M → ℝ) (w : ℝ)
    (p : ℕ) : Except Err (Fin m → ℝ) :=
  let ind := neighbours argsort D2 p
  if h : ind.length = p then
    let s : Fin p → Fin M := fun k => ind.get (k.cast h.symm)
    let A : Matrix (Fin p) (Fin (1 + m)) ℝ := Matrix.of fun k j => rd (Np.hstack (Np.ones p 1) (X.submatrix s id) k j * rd (Real.sqrt w))
    let b : Fin p → ℝ := fun k => rd (f (s k) * rd (Real.sqrt w))
    let u := lstsq p (1 + m) A b
    .ok fun j => u (Fin.natAdd 1 j)
  else .error .valueError

end Model.Rounded
