import Verif.Model.Domains
import Verif.Model.Rounded

/-!
# The maps of `active_subspaces/domains.py` in floating point

The matrix products are rounded, in any order of the sums; see `Model.Domains` for the rest.
-/

open Py Model.Misc Model.Subspaces Model.Domains

namespace Model.Rounded

/-- domains.py 156-181 `forward` -/
def forward (d : Dot) (s : Subspaces) (X : Arr) : Except Err (NpMat × NpMat) := do
  let X ← process_inputs X
  match s.W1, s.W2 with
  | some W1, some W2 => do
    let Y ← dot d X W1
    let Z ← dot d X W2
    return (Y, Z)
  | _, _ => .error .typeError

/-- domains.py 746-758 `_rotate_x` -/
def rotate_x (d : Dot) (Y : NpMat) (Z : Arr3) (W : NpMat) : Except Err (NpMat × NpMat) :=
  if h : Z.a = Y.rows then
    match dot d (NpMat.of (flattenYZ (concatYZ Y Z h))) W.transpose with
    | .error e => .error e
    | .ok X => if X.cols = Y.cols + Z.b then .ok (X, NpMat.of (rotateInd Y.rows Z.c)) else .error .valueError
  else .error .valueError

end Model.Rounded
