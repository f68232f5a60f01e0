import Mathlib.Analysis.SpecialFunctions.Pow.Real
import Mathlib.Analysis.SpecialFunctions.Log.Basic
import Mathlib.Data.Nat.Choose.Basic
import Verif.Model.Misc

/-!
# Model of `active_subspaces/utils/response_surfaces.py`
-/

open Py Model.Misc

/-- A column (n-by-1 array) with run-time length. -/
structure NpVec where
  n : ℕ
  val : Fin n → ℝ

namespace NpVec

/-- The column of a typed vector. -/
def of {n : ℕ} (v : Fin n → ℝ) : NpVec := ⟨n, v⟩

/-- `np.dot(B, w)` with a column; `ValueError` when the lengths differ. -/
def dot {M p : ℕ} (B : Matrix (Fin M) (Fin p) ℝ) (w : NpVec) : Except Err (Fin M → ℝ) :=
  if h : w.n = p then .ok (B.mulVec fun j => w.val (Fin.cast h.symm j)) else .error .valueError

@[simp] theorem dot_of {M p : ℕ} (B : Matrix (Fin M) (Fin p) ℝ) (w : Fin p → ℝ) : dot B (of w) = .ok (B.mulVec w) :=
  dif_pos rfl

end NpVec

namespace Model.ResponseSurfaces

variable {M m : ℕ}

/-! ## Index sets -/

/-- response_surfaces.py 514-529 `_full_index_set(n, d+1)`, as the list of rows.  Entries are natural numbers
(in the code: non-negative integers, most of them stored as floats). -/
def fullIndexSet : (d : ℕ) → ℕ → List (Fin (d + 1) → ℕ)
  | 0, n => [fun _ => n]
  | d + 1, n =>
    (fullIndexSet d n).map (Fin.cons 0)
      ++ (List.range' 1 n).flatMap fun i => (fullIndexSet d (n - i)).map (Fin.cons i)

/-- response_surfaces.py 531-551 `index_set(n, d)`, as the list of rows, columns reversed.  `_full_index_set` does not
terminate for `d = 0`. -/
def index_set (n : ℕ) : (d : ℕ) → Except Err (List (Fin d → ℕ))
  | 0 => if n = 0 then .ok [Fin.elim0] else .error .recursionError
  | d + 1 => .ok (((fun _ => 0) :: (List.range' 1 n).flatMap (fullIndexSet d)).map fun I => I ∘ Fin.rev)

/-! ## Monomial bases -/

/-- response_surfaces.py 474-477: the matrix `B` for the multi-indices `I`.  Simplified: the exponents are natural
numbers (in the code non-negative integer-valued floats). -/
def monomials (X : Matrix (Fin M) (Fin m) ℝ) (I : List (Fin m → ℕ)) : Matrix (Fin M) (Fin I.length) ℝ :=
  Matrix.of fun i j => ∏ k, X i k ^ (I.get j k)

/-- The pair returned by `polynomial_bases`. -/
structure Bases (M m : ℕ) where
  I : List (Fin m → ℕ)
  B : Matrix (Fin M) (Fin I.length) ℝ

/-- response_surfaces.py 453-478 `polynomial_bases` -/
def polynomial_bases (X : Matrix (Fin M) (Fin m) ℝ) (N : ℕ) : Except Err (Bases M m) :=
  match index_set N m with
  | .ok I => .ok ⟨I, monomials X I⟩
  | .error e => .error e

/-- response_surfaces.py 502-511: one slice `dB[:,:,k]` for the multi-indices `I`. -/
def gradMonomials (X : Matrix (Fin M) (Fin m) ℝ) (I : List (Fin m → ℕ)) (k : Fin m) : Matrix (Fin M) (Fin I.length) ℝ :=
  Matrix.of fun i j =>
    let ind := I.get j
    let indk := ind k
    if indk = 0 then 0
    else indk * ∏ l, X i l ^ (Function.update ind k (indk - 1) l)

/-- The three-dimensional array returned by `grad_polynomial_bases`, by slices. -/
structure GradBases (M m : ℕ) where
  I : List (Fin m → ℕ)
  dB : Fin m → Matrix (Fin M) (Fin I.length) ℝ

/-- response_surfaces.py 480-512 `grad_polynomial_bases` -/
def grad_polynomial_bases (X : Matrix (Fin M) (Fin m) ℝ) (N : ℕ) : Except Err (GradBases M m) :=
  match index_set N m with
  | .ok I => .ok ⟨I, gradMonomials X I⟩
  | .error e => .error e

/-! ## PolynomialApproximation -/

/-- The library routines used: `np.linalg.lstsq(A, b)[0]`, `np.linalg.cholesky`, `scipy.optimize.fminbound`. -/
structure Lib where
  lstsq : (r c : ℕ) → Matrix (Fin r) (Fin c) ℝ → (Fin r → ℝ) → (Fin c → ℝ)
  cholesky : (n : ℕ) → Matrix (Fin n) (Fin n) ℝ → Except Err (Matrix (Fin n) (Fin n) ℝ)
  fminbound : (ℝ → Except Err ℝ) → ℝ → ℝ → Except Err ℝ

/-- A typed column as a matrix. -/
def colMat {n : ℕ} (v : Fin n → ℝ) : Matrix (Fin n) (Fin 1) ℝ := Matrix.of fun i _ => v i

/-- The attributes of a `PolynomialApproximation` object (response_surfaces.py 28-32, 71-72). -/
structure PolyApprox where
  N : ℕ
  X : Option NpMat := none
  f : Option NpMat := none
  Rsqr : Option ℝ := none
  poly_weights : Option NpVec := none
  g : Option NpVec := none
  H : Option NpMat := none

/-- `np.var` of a column -/
noncomputable def npVar (f : Fin M → ℝ) : ℝ := (∑ i, (f i - (∑ j, f j) / M) ^ 2) / M

/-- `np.linalg.norm(v)**2` -/
def normSq {n : ℕ} (v : Fin n → ℝ) : ℝ := ∑ i, v i ^ 2

/-- `H[a,b] = v` -/
def setEntry (H : Matrix (Fin m) (Fin m) ℝ) (a b : Fin m) (v : ℝ) : Matrix (Fin m) (Fin m) ℝ :=
  Matrix.of fun i j => if i = a ∧ j = b then v else H i j

/-- response_surfaces.py 117-126: the body of the loop for one index `ind` with coefficient `c`. -/
def hessStep (H : Matrix (Fin m) (Fin m) ℝ) (ind : Fin m → ℕ) (c : ℝ) : Except Err (Matrix (Fin m) (Fin m) ℝ) :=
  match (List.finRange m).filter fun k => ind k ≠ 0 with
  | [a] => .ok (setEntry H a a (2 * c))
  | [a, b] => .ok (setEntry (setEntry H a b c) b a c)
  | _ => .error .exception

/-- response_surfaces.py 115-126: the loop, over the positions `is`. -/
def hessLoop (I : List (Fin m → ℕ)) (c : Fin I.length → ℝ) : List ℕ → Matrix (Fin m) (Fin m) ℝ →
    Except Err (Matrix (Fin m) (Fin m) ℝ)
  | [], H => .ok H
  | i :: is, H =>
    if h : i < I.length then
      match hessStep H (I.get ⟨i, h⟩) (c ⟨i, h⟩) with
      | .ok H => hessLoop I c is H
      | .error e => .error e
    else .error .indexError

/-- response_surfaces.py 113-127: `g` and `H` from the coefficients; reshaping a slice of the wrong length is a
`ValueError`. -/
def organize (N : ℕ) (I : List (Fin m → ℕ)) (c : Fin I.length → ℝ) : PyM PolyApprox Unit :=
  if h : m + 1 ≤ I.length then do
    PyM.modify fun s => { s with g := some (NpVec.of fun k : Fin m => c ⟨k + 1, by omega⟩) }
    if N > 1 then do
      let H ← PyM.lift (hessLoop I c (List.range' (m + 1) ((m + 1).choose 2)) (Np.zeros m m))
      PyM.modify fun s => { s with H := some (NpMat.of H) }
    else pure ()
  else PyM.raise .valueError

/-- response_surfaces.py 98-99: rows of `B` and entries of `f` scaled by the weights (an M-by-1 column). -/
def applyWeights {p : ℕ} (weights : Option (Fin M → ℝ)) (B : Matrix (Fin M) (Fin p) ℝ) (f : Fin M → ℝ) :
    Matrix (Fin M) (Fin p) ℝ × (Fin M → ℝ) :=
  match weights with
  | none => (B, f)
  | some w => (Matrix.of fun i j => w i * B i j, fun i => w i * f i)

/-- response_surfaces.py 92-127: `train` after the input check. -/
noncomputable def trainMat (lib : Lib) (N : ℕ) (X : Matrix (Fin M) (Fin m) ℝ) (f : Fin M → ℝ)
    (weights : Option (Fin M → ℝ)) : PyM PolyApprox Unit :=
  if M < (N + m).choose m then PyM.raise .exception
  else match polynomial_bases X N with
  | .error e => PyM.raise e
  | .ok ⟨I, B⟩ => do
    let Bf := applyWeights weights B f
    let c := lib.lstsq M I.length Bf.1 Bf.2
    let Rsqr := 1 - normSq (Bf.1.mulVec c - Bf.2) / (M * npVar Bf.2)
    PyM.modify fun s => { s with X := some (NpMat.of X), f := some (NpMat.of (colMat Bf.2)),
                                 poly_weights := some (NpVec.of c), Rsqr := some Rsqr }
    organize N I c

/-- response_surfaces.py 74-127 `PolynomialApproximation.train`.  Simplified: `weights` is a column; a wrong number of
weights is a `ValueError`. -/
noncomputable def PolyApprox.train (lib : Lib) (X f : Arr) (weights : Option NpVec) : PyM PolyApprox Unit := do
  let s ← PyM.get
  match process_inputs_outputs X f with
  | .error e => PyM.raise e
  | .ok ⟨X, f⟩ =>
    let f : Fin X.rows → ℝ := fun i => f.get i 0
    match weights with
    | none => trainMat lib s.N X.val f none
    | some w =>
      if h : w.n = X.rows then trainMat lib s.N X.val f (some fun i => w.val (Fin.cast h.symm i))
      else PyM.raise .valueError

/-- response_surfaces.py 149-164: predictions and, for `compgrad`, gradients (M-by-m).  `poly_weights` is `None` before
training and `np.dot(B, None)` raises `TypeError`. -/
def PolyApprox.predictMat (s : PolyApprox) (X : Matrix (Fin M) (Fin m) ℝ) (compgrad : Bool) :
    Except Err ((Fin M → ℝ) × Option (Matrix (Fin M) (Fin m) ℝ)) := do
  let ⟨_, B⟩ ← polynomial_bases X s.N
  match s.poly_weights with
  | none => .error .typeError
  | some c =>
    let f ← NpVec.dot B c
    if compgrad then
      let ⟨_, dB⟩ ← grad_polynomial_bases X s.N
      let cols ← (List.finRange m).mapM fun k => NpVec.dot (dB k) c
      return (f, some (Matrix.of fun i k => (cols.getD k fun _ => 0) i))
    else return (f, none)

/-- response_surfaces.py 129-164 `PolynomialApproximation.predict` -/
def PolyApprox.predict (s : PolyApprox) (X : Arr) (compgrad : Bool) : Except Err (NpVec × Option NpMat) :=
  match process_inputs X with
  | .error e => .error e
  | .ok X =>
    match s.predictMat X.val compgrad with
    | .error e => .error e
    | .ok (f, df) => .ok (NpVec.of f, df.map NpMat.of)

/-! ## Radial basis functions -/

/-- response_surfaces.py 390-418 `exponential_squared`.  Simplified: both arrays have `m` columns and `ell` has `m`
entries. -/
noncomputable def exponential_squared {M1 M2 : ℕ} (X1 : Matrix (Fin M1) (Fin m) ℝ) (X2 : Matrix (Fin M2) (Fin m) ℝ)
    (sigma : ℝ) (ell : Fin m → ℝ) : Matrix (Fin M1) (Fin M2) ℝ :=
  Matrix.of fun i j => sigma * Real.exp (∑ k, (X1 i k - X2 j k) * (X1 i k - X2 j k) * (-1 / ell k))

/-- response_surfaces.py 420-451: one slice `dC[:,:,k]` of `grad_exponential_squared`. -/
noncomputable def grad_exponential_squared {M1 M2 : ℕ} (X1 : Matrix (Fin M1) (Fin m) ℝ) (X2 : Matrix (Fin M2) (Fin m) ℝ)
    (sigma : ℝ) (ell : Fin m → ℝ) (k : Fin m) : Matrix (Fin M1) (Fin M2) ℝ :=
  Matrix.of fun j i => sigma * (-2 * (-1 / ell k) * (X1 j k - X2 i k))
    * Real.exp (∑ l, (X1 j l - X2 i l) * (X1 j l - X2 i l) * (-1 / ell l))

/-- The attributes of a `RadialBasisApproximation` object. -/
structure RBF where
  N : ℕ
  X : Option NpMat := none
  f : Option NpVec := none
  Rsqr : Option ℝ := none
  K : Option NpMat := none
  ell : Option NpVec := none
  radial_weights : Option NpVec := none
  poly_weights : Option NpVec := none

/-- Length scales and regularisation. -/
structure Params (M m : ℕ) where
  ell : Fin m → ℝ
  v : Fin M → ℝ

/-- response_surfaces.py 244-251 and 359-366: `ell` and `v` for the factor `g`.  `e` is a column of eigenvalues; fewer
than `m` of them make a later `np.dot` raise `ValueError`, as does a `v` of the wrong size. -/
noncomputable def params (M m : ℕ) (g : ℝ) (v e : Option NpVec) : Except Err (Params M m) :=
  match e with
  | none =>
    match v with
    | none => .ok ⟨fun _ => g, fun _ => 1e-6⟩
    | some v => if h : v.n = M then .ok ⟨fun _ => g, fun i => v.val (Fin.cast h.symm i)⟩ else .error .valueError
  | some e =>
    if he : m ≤ e.n then
      let ell : Fin m → ℝ := fun k => g * (∑ i, e.val i) / e.val (Fin.castLE he k)
      match v with
      | none => .ok ⟨ell, fun _ => g * ∑ i ∈ Finset.univ.filter (fun i : Fin e.n => m ≤ (i : ℕ)), e.val i⟩
      | some v => if h : v.n = M then .ok ⟨ell, fun i => v.val (Fin.cast h.symm i)⟩ else .error .valueError
    else .error .valueError

/-- response_surfaces.py 257-258 and 369-370: kernel matrix plus diagonal. -/
noncomputable def covMat (X : Matrix (Fin M) (Fin m) ℝ) (q : Params M m) : Matrix (Fin M) (Fin M) ℝ :=
  exponential_squared X X 1 q.ell + Matrix.diagonal q.v

/-- response_surfaces.py 330-388 `_rbf_objective` -/
noncomputable def rbf_objective (lib : Lib) (X : Matrix (Fin M) (Fin m) ℝ) (f : Fin M → ℝ) (v : Option NpVec) (N : ℕ)
    (e : Option NpVec) (log10g : ℝ) : Except Err ℝ := do
  let g := (10 : ℝ) ^ log10g
  let q ← params M m g v e
  let K := covMat X q
  let L ← lib.cholesky M K
  let ⟨_, B⟩ ← polynomial_bases X N
  let KB ← Np.solve K B
  let A := B.transpose * KB
  let Kf ← Np.solve K (colMat f)
  let z := B.transpose * Kf
  let beta ← Np.solve A z
  let res : Matrix (Fin M) (Fin 1) ℝ := colMat f - B * beta
  let Kres ← Np.solve K res
  let sig2 := max ((res.transpose * Kres) 0 0 / M) (5 * 2 ^ (-52 : ℤ))
  return (∑ i, Real.log (L i i)) + M * Real.log sig2

/-- response_surfaces.py 262: the block matrix `[[K, B], [B^T, 0]]`. -/
def saddle {p : ℕ} (K : Matrix (Fin M) (Fin M) ℝ) (B : Matrix (Fin M) (Fin p) ℝ) : Matrix (Fin (M + p)) (Fin (M + p)) ℝ :=
  Np.hstack (Np.vstack K B.transpose) (Np.vstack B (Np.zeros p p))

/-- The data computed by `RadialBasisApproximation.train` for a given factor `g`. -/
structure Fit (M m : ℕ) where
  q : Params M m
  K : Matrix (Fin M) (Fin M) ℝ
  I : List (Fin m → ℕ)
  radial : Fin M → ℝ
  poly : Fin I.length → ℝ
  Rsqr : ℝ

/-- response_surfaces.py 241-269: everything after `fminbound`. -/
noncomputable def rbfFit (X : Matrix (Fin M) (Fin m) ℝ) (f : Fin M → ℝ) (v : Option NpVec) (N : ℕ) (e : Option NpVec)
    (g : ℝ) : Except Err (Fit M m) := do
  let q0 ← params M m g v e
  let q : Params M m := ⟨q0.ell, fun i => max (q0.v i) 1e-6⟩
  let K := covMat X q
  let ⟨I, B⟩ ← polynomial_bases X N
  let weights ← Np.solve (saddle K B) (Np.vstack (colMat f) (Np.zeros I.length 1))
  let radial : Fin M → ℝ := fun i => weights (Fin.castAdd _ i) 0
  let poly : Fin I.length → ℝ := fun j => weights (Fin.natAdd M j) 0
  let res : Matrix (Fin M) (Fin 1) ℝ := colMat f - B * colMat poly
  let Kres ← Np.solve K res
  let Kf ← Np.solve K (colMat f)
  let Rsqr := 1 - (res.transpose * Kres) 0 0 / ((colMat f).transpose * Kf) 0 0
  return ⟨q, K, I, radial, poly, Rsqr⟩

/-- response_surfaces.py 232-275: `train` after the input check. -/
noncomputable def rbfTrainMat (lib : Lib) (N : ℕ) (X : Matrix (Fin M) (Fin m) ℝ) (f : Fin M → ℝ) (v e : Option NpVec) :
    Except Err (Fit M m) :=
  if M < (N + m).choose m then .error .exception
  else
    match lib.fminbound (rbf_objective lib X f v N e) (-10) 1 with
    | .error er => .error er
    | .ok log10g => rbfFit X f v N e ((10 : ℝ) ^ log10g)

/-- response_surfaces.py 199-275 `RadialBasisApproximation.train`; the attributes are stored at the end. -/
noncomputable def RBF.train (lib : Lib) (X f : Arr) (v e : Option NpVec) : PyM RBF Unit := do
  let s ← PyM.get
  match process_inputs_outputs X f with
  | .error er => PyM.raise er
  | .ok ⟨X, f⟩ =>
    let f : Fin X.rows → ℝ := fun i => f.get i 0
    match rbfTrainMat lib s.N X.val f v e with
    | .error er => PyM.raise er
    | .ok t =>
      PyM.modify fun s => { s with X := some X, f := some (NpVec.of f), Rsqr := some t.Rsqr, K := some (NpMat.of t.K),
                                   ell := some (NpVec.of t.q.ell), radial_weights := some (NpVec.of t.radial),
                                   poly_weights := some (NpVec.of t.poly) }

/-- response_surfaces.py 308-328: predictions and gradients from the stored data. -/
noncomputable def rbfPredictMat {M0 : ℕ} (N : ℕ) (X0 : Matrix (Fin M0) (Fin m) ℝ) (ell : Fin m → ℝ) (radial poly : NpVec)
    (X : Matrix (Fin M) (Fin m) ℝ) (compgrad : Bool) : Except Err ((Fin M → ℝ) × Option (Matrix (Fin M) (Fin m) ℝ)) := do
  let K := exponential_squared X X0 1 ell
  let ⟨_, B⟩ ← polynomial_bases X N
  let fr ← NpVec.dot K radial
  let fp ← NpVec.dot B poly
  if compgrad then
    let ⟨_, dB⟩ ← grad_polynomial_bases X N
    let cols ← (List.finRange m).mapM fun k => do
      let a ← NpVec.dot (grad_exponential_squared X0 X 1 ell k).transpose radial
      let b ← NpVec.dot (dB k) poly
      return a + b
    return (fr + fp, some (Matrix.of fun i k => (cols.getD k fun _ => 0) i))
  else return (fr + fp, none)

/-- response_surfaces.py 410-418 with columns that do not fit: `X1 - x2` repeats a single column, and `np.dot(B*B, c)` is a `ValueError` unless
the result has as many columns as there are length scales. -/
noncomputable def kernelOther (X1 X2 : NpMat) (ell : NpVec) : Except Err (Matrix (Fin X1.rows) (Fin X2.rows) ℝ) :=
  if X2.rows = 0 ∨ NpMat.bdim X1.cols X2.cols = some ell.n then
    .ok (Matrix.of fun i j => 1 * Real.exp (∑ k : Fin ell.n, (X1.bget i k - X2.bget j k) * (X1.bget i k - X2.bget j k) * (-1 / ell.val k)))
  else .error .valueError

/-- response_surfaces.py 443-451 with columns that do not fit: one slice `dC[:,:,k]`.  There are as many slices as `X1` has columns. -/
noncomputable def gradKernelOther (X1 X2 : NpMat) (ell : NpVec) (k : ℕ) : Except Err (Matrix (Fin X1.rows) (Fin X2.rows) ℝ) :=
  if h : k < ell.n ∧ k < X1.cols then
    .ok (Matrix.of fun j i => 1 * (-2 * (-1 / ell.val ⟨k, h.1⟩) * (X1.bget j k - X2.bget i k))
      * Real.exp (∑ l : Fin ell.n, (X1.bget j l - X2.bget i l) * (X1.bget j l - X2.bget i l) * (-1 / ell.val l)))
  else .error .indexError

/-- response_surfaces.py 308-328 for points with another number of columns than in training. -/
noncomputable def rbfPredictOther (N : ℕ) (X0 : NpMat) (ell radial poly : NpVec) (X : NpMat) (compgrad : Bool) :
    Except Err ((Fin X.rows → ℝ) × Option (Matrix (Fin X.rows) (Fin X.cols) ℝ)) := do
  let K ← kernelOther X X0 ell
  let ⟨_, B⟩ ← polynomial_bases X.val N
  let fr ← NpVec.dot K radial
  let fp ← NpVec.dot B poly
  if compgrad then
    let ⟨_, dB⟩ ← grad_polynomial_bases X.val N
    let cols ← (List.finRange X.cols).mapM fun k : Fin X.cols => do
      let dK ← gradKernelOther X0 X ell k
      let a ← NpVec.dot dK.transpose radial
      let b ← NpVec.dot (dB k) poly
      return a + b
    return (fr + fp, some (Matrix.of fun i k => (cols.getD k fun _ => 0) i))
  else return (fr + fp, none)

/-- response_surfaces.py 277-328 `RadialBasisApproximation.predict`.  Before training `self.X` is `None` and
`X2.shape` raises `AttributeError`. -/
noncomputable def RBF.predict (s : RBF) (X : Arr) (compgrad : Bool) : Except Err (NpVec × Option NpMat) :=
  match process_inputs X with
  | .error e => .error e
  | .ok X =>
    match s.X, s.ell, s.radial_weights, s.poly_weights with
    | some X0, some ell, some radial, some poly =>
      if h : X0.cols = X.cols ∧ ell.n = X.cols then
        match rbfPredictMat s.N (Matrix.of fun i j => X0.val i (Fin.cast h.1.symm j))
            (fun j => ell.val (Fin.cast h.2.symm j)) radial poly X.val compgrad with
        | .error e => .error e
        | .ok (f, df) => .ok (NpVec.of f, df.map NpMat.of)
      else
        match rbfPredictOther s.N X0 ell radial poly X compgrad with
        | .error e => .error e
        | .ok (f, df) => .ok (NpVec.of f, df.map NpMat.of)
    | _, _, _, _ => .error .attributeError

/-! ## The methods of the base class -/

/-- response_surfaces.py 35-36 `ResponseSurface.train`; a class without a `train` of its own. -/
def baseTrain {W : Type} (_X _f : Arr) : PyM W Unit := PyM.raise .notImplementedError

/-- response_surfaces.py 38-39 `ResponseSurface.predict` -/
def basePredict (_X : Arr) (_compgrad : Bool) : Except Err (NpVec × Option NpMat) := .error .notImplementedError

/-- response_surfaces.py 41-42 `ResponseSurface.gradient`, for the `predict` of the class of the object. -/
def surfaceGradient (predict : Arr → Bool → Except Err (NpVec × Option NpMat)) (X : Arr) : Except Err (Option NpMat) := do
  let p ← predict X true
  return p.2

/-- response_surfaces.py 44-45 `ResponseSurface.__call__`, for the `predict` of the class of the object. -/
def surfaceCall (predict : Arr → Bool → Except Err (NpVec × Option NpMat)) (X : Arr) : Except Err NpVec := do
  let p ← predict X false
  return p.1

end Model.ResponseSurfaces
