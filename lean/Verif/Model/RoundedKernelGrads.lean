import Verif.Model.RoundedSurfaces

/-!
# Gradients of radial basis surfaces in floating point

The same lines as in `Model.ResponseSurfaces`, with `rd` applied to the result of every arithmetic operation.
-/

open Py Model.Misc Model.ResponseSurfaces

namespace Model.Rounded

variable {M m : ℕ}

/-- response_surfaces.py 443-451: one slice `dC[:,:,k]` of `grad_exponential_squared`, with the products taken from the left. -/
noncomputable def grad_exponential_squared (fl : Fl) {M1 M2 : ℕ} (X1 : Matrix (Fin M1) (Fin m) ℝ) (X2 : Matrix (Fin M2) (Fin m) ℝ) (sigma : ℝ)
    (ell : Fin m → ℝ) (k : Fin m) : Matrix (Fin M1) (Fin M2) ℝ :=
  let c : Fin m → ℝ := fun l => fl.rd (-1 / ell l)
  Matrix.of fun j i =>
    let B : Matrix (Fin M1) (Fin m) ℝ := Matrix.of fun j l => fl.rd (X1 j l - X2 i l)
    fl.rd (fl.rd (sigma * fl.rd (fl.rd (-2 * c k) * B j k)) * fl.exp (fl.d M1 m 1 (Matrix.of fun j l => fl.rd (B j l * B j l)) (colMat c) j 0))

/-- response_surfaces.py 316-323: gradients from the stored data. -/
noncomputable def rbfGradMat (fl : Fl) {M0 : ℕ} (N : ℕ) (X0 : Matrix (Fin M0) (Fin m) ℝ) (ell : Fin m → ℝ) (radial poly : NpVec)
    (X : Matrix (Fin M) (Fin m) ℝ) : Except Err (Matrix (Fin M) (Fin m) ℝ) := do
  let I ← index_set N m
  let cols ← (List.finRange m).mapM fun k => do
    let a ← vecDot fl.d (grad_exponential_squared fl X0 X 1 ell k).transpose radial
    let b ← vecDot fl.d (gradMonomials fl X I k) poly
    return fun i => fl.rd (a i + b i)
  return Matrix.of fun i k => (cols.getD k fun _ => 0) i

/-- response_surfaces.py 277-328 `RadialBasisApproximation.predict` with gradients.  Simplified: points with the number of columns used in training. -/
noncomputable def rbfPredictGrad (fl : Fl) (s : RBF) (X : Arr) : Except Err (NpVec × NpMat) :=
  match process_inputs X with
  | .error e => .error e
  | .ok X =>
    match s.X, s.ell, s.radial_weights, s.poly_weights with
    | some X0, some ell, some radial, some poly =>
      if h : X0.cols = X.cols ∧ ell.n = X.cols then
        let X0' : Matrix (Fin X0.rows) (Fin X.cols) ℝ := Matrix.of fun i j => X0.val i (Fin.cast h.1.symm j)
        let ell' : Fin X.cols → ℝ := fun j => ell.val (Fin.cast h.2.symm j)
        match rbfPredictMat fl s.N X0' ell' radial poly X.val with
        | .error e => .error e
        | .ok f =>
          match rbfGradMat fl s.N X0' ell' radial poly X.val with
          | .error e => .error e
          | .ok df => .ok (NpVec.of f, NpMat.of df)
      else .error .valueError
    | _, _, _, _ => .error .attributeError

end Model.Rounded
