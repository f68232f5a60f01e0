import Verif.Model.RoundedMaps
import Verif.Model.RoundedSurfaces

/-!
# Response surfaces on the active variables in floating point
-/

open Py Model.Misc Model.ResponseSurfaces Model.Subspaces

namespace Model.Rounded

/-- response_surfaces.py 179-208 `ActiveSubspaceResponseSurface.predict`, for the `predict` of the surface.  `np.dot(None, W1.T)` raises `TypeError`. -/
def activePredict (d : Dot) (predict : Arr → Bool → Except Err (NpVec × Option NpMat)) (s : Subspaces) (X : Arr) (compgrad : Bool) :
    Except Err (NpVec × Option NpMat) := do
  let YZ ← forward d s X
  let p ← predict (.mat YZ.1) compgrad
  if compgrad then
    match p.2, s.W1 with
    | some dfdy, some W1 => do
      let dfdx ← dot d dfdy W1.transpose
      return (p.1, some dfdx)
    | _, _ => .error .typeError
  else return (p.1, none)

end Model.Rounded
