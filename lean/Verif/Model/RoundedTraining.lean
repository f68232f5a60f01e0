import Verif.Model.RoundedSurfaces

/-!
# Training of response surfaces in floating point
-/

open Py Model.Misc Model.ResponseSurfaces

namespace Model.Rounded

variable {M m : ℕ}

/-- `np.linalg.solve` with a column on the right. -/
abbrev Solve := (n : ℕ) → Matrix (Fin n) (Fin n) ℝ → Matrix (Fin n) (Fin 1) ℝ → Except Err (Matrix (Fin n) (Fin 1) ℝ)

/-- response_surfaces.py 258-259: the kernel matrix, and `K += np.diag(v)`. -/
noncomputable def covMat (fl : Fl) (X : Matrix (Fin M) (Fin m) ℝ) (ell : Fin m → ℝ) (v : Fin M → ℝ) : Matrix (Fin M) (Fin M) ℝ :=
  Matrix.of fun i j => fl.rd (exponential_squared fl X X 1 ell i j + if i = j then v i else 0)

/-- response_surfaces.py 254-266: the weights of the radial functions and of the monomials, for given length scales `ell` and regularisation `v`. -/
noncomputable def rbfWeights (fl : Fl) (solve : Solve) (N : ℕ) (X : Matrix (Fin M) (Fin m) ℝ) (f : Fin M → ℝ) (ell : Fin m → ℝ) (v : Fin M → ℝ) :
    Except Err (NpVec × NpVec) := do
  let K := covMat fl X ell fun i => max (v i) (fl.rd 1e-6)
  let I ← index_set N m
  let B := monomials fl X I
  let weights ← solve (M + I.length) (saddle K B) (Np.vstack (colMat f) (Np.zeros I.length 1))
  return (NpVec.of fun i : Fin M => weights (Fin.castAdd _ i) 0, NpVec.of fun j : Fin I.length => weights (Fin.natAdd M j) 0)

/-- `np.linalg.lstsq(A, b)[0]`. -/
abbrev Lstsq := (r c : ℕ) → Matrix (Fin r) (Fin c) ℝ → (Fin r → ℝ) → (Fin c → ℝ)

/-- response_surfaces.py 102-103: rows of `B` and entries of `f` scaled by the weights (an M-by-1 column). -/
def applyWeights (fl : Fl) {p : ℕ} (weights : Option (Fin M → ℝ)) (B : Matrix (Fin M) (Fin p) ℝ) (f : Fin M → ℝ) : Matrix (Fin M) (Fin p) ℝ × (Fin M → ℝ) :=
  match weights with
  | none => (B, f)
  | some w => (Matrix.of fun i j => fl.rd (w i * B i j), fun i => fl.rd (w i * f i))

/-- response_surfaces.py 97-105: the coefficients of the polynomial. -/
def polyWeights (fl : Fl) (lstsq : Lstsq) (N : ℕ) (X : Matrix (Fin M) (Fin m) ℝ) (f : Fin M → ℝ) (weights : Option (Fin M → ℝ)) : Except Err NpVec :=
  if M < (N + m).choose m then .error .exception
  else do
    let I ← index_set N m
    let Bf := applyWeights fl weights (monomials fl X I) f
    return NpVec.of (lstsq M I.length Bf.1 Bf.2)

end Model.Rounded
