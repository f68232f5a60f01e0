import Verif.Model.ResponseSurfaces
import Verif.Model.Rounded

/-!
# Predictions of response surfaces in floating point

The same lines as in `Model.ResponseSurfaces`, with `rd` applied to the result of every arithmetic operation.  The multi-indices are small integers,
which are exact.
-/

open Py Model.Misc Model.ResponseSurfaces

namespace Model.Rounded

variable {M m : ℕ}

/-- The routines of the library: products of matrices, `np.prod` along an axis, `np.power` and `np.exp`. -/
structure Fl where
  rd : ℝ → ℝ
  d : Dot
  prod : List ℝ → ℝ
  power : ℝ → ℕ → ℝ
  exp : ℝ → ℝ

/-- `np.dot(B, w)` with a column. -/
def vecDot (d : Dot) {p : ℕ} (B : Matrix (Fin M) (Fin p) ℝ) (w : NpVec) : Except Err (Fin M → ℝ) :=
  if h : w.n = p then .ok fun i => d M p 1 B (colMat fun j => w.val (Fin.cast h.symm j)) i 0 else .error .valueError

/-- response_surfaces.py 474-477: the matrix `B` for the multi-indices `I`. -/
def monomials (fl : Fl) (X : Matrix (Fin M) (Fin m) ℝ) (I : List (Fin m → ℕ)) : Matrix (Fin M) (Fin I.length) ℝ :=
  Matrix.of fun i j => fl.prod (List.ofFn fun k => fl.power (X i k) (I.get j k))

/-- response_surfaces.py 502-511: one slice `dB[:,:,k]` for the multi-indices `I`. -/
def gradMonomials (fl : Fl) (X : Matrix (Fin M) (Fin m) ℝ) (I : List (Fin m → ℕ)) (k : Fin m) : Matrix (Fin M) (Fin I.length) ℝ :=
  Matrix.of fun i j =>
    let ind := I.get j
    let indk := ind k
    if indk = 0 then 0
    else fl.rd (indk * fl.prod (List.ofFn fun l => fl.power (X i l) (Function.update ind k (indk - 1) l)))

/-- response_surfaces.py 149-164: predictions and, for `compgrad`, gradients. -/
def polyPredictMat (fl : Fl) (s : PolyApprox) (X : Matrix (Fin M) (Fin m) ℝ) (compgrad : Bool) :
    Except Err ((Fin M → ℝ) × Option (Matrix (Fin M) (Fin m) ℝ)) := do
  let I ← index_set s.N m
  match s.poly_weights with
  | none => .error .typeError
  | some c =>
    let f ← vecDot fl.d (monomials fl X I) c
    if compgrad then
      let cols ← (List.finRange m).mapM fun k => vecDot fl.d (gradMonomials fl X I k) c
      return (f, some (Matrix.of fun i k => (cols.getD k fun _ => 0) i))
    else return (f, none)

/-- response_surfaces.py 129-164 `PolynomialApproximation.predict` -/
def polyPredict (fl : Fl) (s : PolyApprox) (X : Arr) (compgrad : Bool) : Except Err (NpVec × Option NpMat) :=
  match process_inputs X with
  | .error e => .error e
  | .ok X =>
    match polyPredictMat fl s X.val compgrad with
    | .error e => .error e
    | .ok (f, df) => .ok (NpVec.of f, df.map NpMat.of)

/-- response_surfaces.py 410-418 `exponential_squared`: differences, their products with themselves, `np.dot` with `-1.0 / ell`, exponentials, times `sigma`. -/
noncomputable def exponential_squared (fl : Fl) {M1 M2 : ℕ} (X1 : Matrix (Fin M1) (Fin m) ℝ) (X2 : Matrix (Fin M2) (Fin m) ℝ) (sigma : ℝ)
    (ell : Fin m → ℝ) : Matrix (Fin M1) (Fin M2) ℝ :=
  let c : Matrix (Fin m) (Fin 1) ℝ := colMat fun k => fl.rd (-1 / ell k)
  Matrix.of fun i j =>
    let B : Matrix (Fin M1) (Fin m) ℝ := Matrix.of fun i k => fl.rd (X1 i k - X2 j k)
    fl.rd (sigma * fl.exp (fl.d M1 m 1 (Matrix.of fun i k => fl.rd (B i k * B i k)) c i 0))

/-- response_surfaces.py 308-314: predictions from the stored data. -/
noncomputable def rbfPredictMat (fl : Fl) {M0 : ℕ} (N : ℕ) (X0 : Matrix (Fin M0) (Fin m) ℝ) (ell : Fin m → ℝ) (radial poly : NpVec)
    (X : Matrix (Fin M) (Fin m) ℝ) : Except Err (Fin M → ℝ) := do
  let K := exponential_squared fl X X0 1 ell
  let I ← index_set N m
  let fr ← vecDot fl.d K radial
  let fp ← vecDot fl.d (monomials fl X I) poly
  return fun i => fl.rd (fr i + fp i)

/-- response_surfaces.py 277-328 `RadialBasisApproximation.predict` without gradients.  Simplified: points with the number of columns used in training. -/
noncomputable def rbfPredict (fl : Fl) (s : RBF) (X : Arr) : Except Err NpVec :=
  match process_inputs X with
  | .error e => .error e
  | .ok X =>
    match s.X, s.ell, s.radial_weights, s.poly_weights with
    | some X0, some ell, some radial, some poly =>
      if h : X0.cols = X.cols ∧ ell.n = X.cols then
        match rbfPredictMat fl s.N (Matrix.of fun i j => X0.val i (Fin.cast h.1.symm j)) (fun j => ell.val (Fin.cast h.2.symm j)) radial poly X.val with
        | .error e => .error e
        | .ok f => .ok (NpVec.of f)
      else .error .valueError
    | _, _, _, _ => .error .attributeError

end Model.Rounded
