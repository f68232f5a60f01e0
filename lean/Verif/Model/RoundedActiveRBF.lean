import Verif.Model.RoundedActive
import Verif.Model.RoundedKernelGrads

/-!
# Radial basis surfaces on the active variables in floating point
-/

open Py Model.ResponseSurfaces

namespace Model.Rounded

/-- response_surfaces.py 277-328 `RadialBasisApproximation.predict`, see `rbfPredict` and `rbfPredictGrad`. -/
noncomputable def rbfSurface (fl : Fl) (s : RBF) (X : Arr) (compgrad : Bool) : Except Err (NpVec × Option NpMat) :=
  if compgrad then
    match rbfPredictGrad fl s X with
    | .error e => .error e
    | .ok (f, df) => .ok (f, some df)
  else
    match rbfPredict fl s X with
    | .error e => .error e
    | .ok f => .ok (f, none)

end Model.Rounded
