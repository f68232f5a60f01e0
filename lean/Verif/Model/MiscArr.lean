import Verif.Model.Misc
import Verif.Model.Subspaces

/-!
# Model of UnboundedNormalizer on run-time arrays: misc.py 123-207

`Model.Misc` has the class for a mean and a covariance matrix of the same order.  Here the order of the one and the size of the other are
known at run time only.
-/

open Py Model.Misc

namespace Model.MiscArr

/-- `np.linalg.cholesky` of square matrices. -/
abbrev Chol : Type := (n : ℕ) → Matrix (Fin n) (Fin n) ℝ → Except Err (Matrix (Fin n) (Fin n) ℝ)

/-- misc.py 145: mean row and Cholesky factor -/
structure Normalizer where
  mu : NpMat
  L : NpMat

/-- misc.py 159: `mu.reshape((1, mu.size))`, `mu` given by its flattened entries -/
def meanRow (mu : List ℝ) : NpMat := NpMat.of (Matrix.of fun (_ : Fin 1) (j : Fin mu.length) => mu.get j)

/-- misc.py 160: `np.linalg.cholesky(C)`; arrays of fewer than two dimensions and matrices that are not square are a `LinAlgError`.
Simplified: so are arrays of more than two dimensions, which newer NumPy takes for a stack of matrices. -/
def cholesky (chol : Chol) : Arr → Except Err NpMat
  | .mat C => if h : C.rows = C.cols then (chol C.rows (C.val.submatrix id (Fin.cast h))).map NpMat.of else .error .linAlgError
  | _ => .error .linAlgError

/-- misc.py 147-160 `__init__` -/
def Normalizer.init (chol : Chol) (mu : List ℝ) (C : Arr) : Except Err Normalizer := do
  let L ← cholesky chol C
  return ⟨meanRow mu, L⟩

/-- `np.linalg.solve(A, B)` of two-dimensional arrays: `LinAlgError` when `A` is not square, `ValueError` when the numbers of rows differ. -/
noncomputable def solve (A B : NpMat) : Except Err NpMat :=
  if h : A.rows = A.cols then
    if h' : B.rows = A.rows then
      (Np.solve (A.val.submatrix id (Fin.cast h)) (B.val.submatrix (Fin.cast h'.symm) id)).map NpMat.of
    else .error .valueError
  else .error .linAlgError

/-- misc.py 162-182 `normalize` -/
noncomputable def Normalizer.normalize (s : Normalizer) (X : Arr) : Except Err NpMat := do
  let X ← process_inputs X
  let X0 ← NpMat.zipB (· - ·) X s.mu
  let Z ← solve s.L X0.transpose
  return Z.transpose

/-- misc.py 184-207 `unnormalize` -/
def Normalizer.unnormalize (s : Normalizer) (X : Arr) : Except Err NpMat := do
  let X ← process_inputs X
  let X0 ← X.dot s.L.transpose
  NpMat.zipB (· + ·) X0 s.mu

end Model.MiscArr
