import Mathlib.Analysis.SpecialFunctions.Pow.Real
import Verif.Model.Misc

/-!
# Model of `active_subspaces/utils/quadrature.py`
-/

open Py

namespace NpMat

/-- `np.kron(A, B)` of two-dimensional arrays -/
def kron (A B : NpMat) : NpMat := ⟨A.rows * B.rows, A.cols * B.cols, Np.kron A.val B.val⟩

/-- `np.hstack((A, B))`; `ValueError` when the numbers of rows differ. -/
def hstack (A B : NpMat) : Except Err NpMat :=
  if h : B.rows = A.rows then
    .ok ⟨A.rows, A.cols + B.cols, Np.hstack A.val (Matrix.of fun i j => B.val (Fin.cast h.symm i) j)⟩
  else .error .valueError

/-- `A[:, 1:]` -/
def dropCol (A : NpMat) : NpMat :=
  ⟨A.rows, A.cols - 1, Matrix.of fun i j => A.val i ⟨j + 1, by omega⟩⟩

end NpMat

namespace Model.Quadrature

/-- A Python number as passed for `N`. -/
inductive Num where
  | int (n : ℤ)
  | float (x : ℝ)

/-- quadrature.py 9-46 `r_hermite` -/
def r_hermite : Num → Except Err NpMat
  | .float _ => .error .typeError
  | .int N =>
    if N ≤ 0 then .error .valueError
    else if N = 1 then .ok ⟨1, 2, Matrix.of fun _ j => if j = 0 then 0 else 1⟩
    else
      let b : Matrix (Fin (1 + N.toNat)) (Fin 1) ℝ :=
        Np.vstack (Matrix.of fun _ _ => 1) (Matrix.of fun i _ => ((i : ℕ) + 1 : ℝ))
      let a : Matrix (Fin (1 + N.toNat)) (Fin 1) ℝ := Np.zeros _ _
      .ok ⟨1 + N.toNat, 1 + 1, Np.hstack a b⟩

/-- quadrature.py 48-101 `r_jacobi`.  The parameters `l, r, a, b` are real numbers: every division in the code has
a float operand. -/
noncomputable def r_jacobi (N : Num) (l r a b : ℝ) : Except Err NpMat :=
  match N with
  | .float _ => .error .typeError
  | .int N =>
    if N ≤ 0 then .error .valueError
    else
      let a0 := (b - a) / (a + b + 2)
      let b2a2 := b ^ 2 - a ^ 2
      let s := (r - l) / 2
      let o := l + (r - l) / 2
      let ab : Fin (N.toNat + 1) → Fin 2 → ℝ := fun k j =>
        if (k : ℕ) = 0 then
          if j = 0 then s * a0 + o else 1
        else
          let k : ℝ := (k : ℕ)
          if j = 0 then s * b2a2 / ((2 * k + a + b) * (2 * (k + 1) + a + b)) + o
          else if k = 1 then
            ((r - l) ^ 2 * k * (k + a) * (k + b)) / ((2 * k + a + b) ^ 2 * (2 * k + a + b + 1))
          else
            ((r - l) ^ 2 * k * (k + a) * (k + b) * (k + a + b))
              / ((2 * k + a + b) ^ 2 * (2 * k + a + b + 1) * (2 * k + a + b - 1))
      .ok ⟨N.toNat + 1, 2, Matrix.of ab⟩

/-- quadrature.py 138-147: the assignments to `J`, row by row (first row, inner rows, last row), for `n >= 2`.
Simplified: `np.sqrt` of a negative number would be `nan`; here it is 0. -/
noncomputable def jacobiEntries (ab : NpMat) (n : ℕ) : Matrix (Fin n) (Fin n) ℝ :=
  Matrix.of fun i j =>
    let i : ℕ := i
    let j : ℕ := j
    if i = 0 then
      if j = 0 then ab.get 0 0 else if j = 1 then Real.sqrt (ab.get 1 1) else 0
    else if i < n - 1 then
      if j = i then ab.get i 0
      else if j = i - 1 then Real.sqrt (ab.get i 1)
      else if j = i + 1 then Real.sqrt (ab.get (i + 1) 1)
      else 0
    else
      if j = n - 1 then ab.get (n - 1) 0
      else if j = n - 2 then Real.sqrt (ab.get (n - 1) 1)
      else 0

/-- quadrature.py 103-147 `jacobi_matrix`.  An array without rows makes `np.zeros((-1, -1))` raise `ValueError`;
with two rows `J[0,1]` is out of range. -/
noncomputable def jacobi_matrix (ab : Arr) : Except Err Arr :=
  match ab with
  | .mat ab =>
    if ab.cols ≠ 2 then .error .valueError
    else if ab.rows = 0 then .error .valueError
    else if ab.rows = 1 then .ok (.scalar (ab.get 0 0))
    else if ab.rows = 2 then .error .indexError
    else .ok (.mat ⟨ab.rows - 1, ab.rows - 1, jacobiEntries ab (ab.rows - 1)⟩)
  | _ => .error .valueError

/-- The NumPy routines used: `np.linalg.eig` (eigenvalues, eigenvectors as columns; may raise `LinAlgError`) and
`np.argsort`.  The eigenvalues are real numbers because `eig` is only called with symmetric matrices. -/
structure Lib where
  eig : {n : ℕ} → Matrix (Fin n) (Fin n) ℝ → Except Err ((Fin n → ℝ) × Matrix (Fin n) (Fin n) ℝ)
  argsort : {n : ℕ} → (Fin n → ℝ) → Fin n → Fin n

/-- A quadrature rule: nodes (one per row) and weights (a column). -/
structure Rule where
  x : NpMat
  w : NpMat

/-- quadrature.py 239-243: nodes and weights from the Jacobi matrix. -/
noncomputable def eigRule (lib : Lib) {n : ℕ} (J : Matrix (Fin n) (Fin n) ℝ) : Except Err Rule :=
  open Classical in
  match lib.eig J with
  | .error e => .error e
  | .ok (e, V) =>
    let ind := lib.argsort e
    let x : Matrix (Fin n) (Fin 1) ℝ := Matrix.of fun i _ => if |e (ind i)| < 1e-12 then 0 else e (ind i)
    let w : Matrix (Fin n) (Fin 1) ℝ := Matrix.of fun i _ => if h : 0 < n then V ⟨0, h⟩ (ind i) * V ⟨0, h⟩ (ind i) else 0
    .ok ⟨NpMat.of x, NpMat.of w⟩

/-- quadrature.py 238-243: the rule from the recurrence coefficients.  (`jacobi_matrix` always gives an array in
`g1d`, because `N > 1`.) -/
noncomputable def jacobiRule (lib : Lib) (ab : NpMat) : Except Err Rule :=
  match jacobi_matrix (.mat ab) with
  | .ok (.mat J) =>
    if h : J.cols = J.rows then eigRule lib (Matrix.of fun i j => J.val i (Fin.cast h.symm j)) else .error .linAlgError
  | .ok _ => .error .linAlgError
  | .error e => .error e

/-- `quadtype` -/
inductive QuadType where
  | legendre
  | hermite
  | other

/-- quadrature.py 230: `N > 1`. -/
noncomputable def Num.gtOne : Num → Bool
  | .int n => decide (1 < n)
  | .float x => open Classical in decide (1 < x)

/-- quadrature.py 203-246 `g1d` -/
noncomputable def g1d (lib : Lib) (N : Num) (quadtype : QuadType) : Except Err Rule :=
  if N.gtOne then
    match (match quadtype with
      | .hermite => r_hermite N
      | .legendre => r_jacobi N (-1) 1 0 0
      | .other => .error .valueError) with
    | .ok ab => jacobiRule lib ab
    | .error e => .error e
  else .ok ⟨NpMat.of (Matrix.of fun (_ _ : Fin 1) => 0), NpMat.of (Matrix.of fun (_ _ : Fin 1) => 1)⟩

/-- quadrature.py 149-174 `gl1d` -/
noncomputable def gl1d (lib : Lib) (N : Num) : Except Err Rule := g1d lib N .legendre

/-- quadrature.py 176-201 `gh1d` -/
noncomputable def gh1d (lib : Lib) (N : Num) : Except Err Rule := g1d lib N .hermite

/-- The argument of the tensor rules: a number, a list of numbers, or anything else. -/
inductive Arg where
  | num (N : Num)
  | list (N : List Num)
  | other

/-- quadrature.py 281-286, 324-329: one step of the loop over the dimensions. -/
def tensorStep (r ri : Rule) : Except Err Rule := do
  let xL := NpMat.kron r.x (NpMat.of (Np.ones ri.x.rows ri.x.cols))
  let xU := NpMat.kron (NpMat.of (Np.ones r.x.rows 1)) ri.x
  let x ← NpMat.hstack xL xU
  let w := NpMat.kron r.w ri.w
  return ⟨x, w⟩

/-- quadrature.py 278-287, 321-330: the loop, then `x[:,1:]`. -/
def tensorLoop (rule : Num → Except Err Rule) (N : List Num) : Except Err Rule := do
  let one : NpMat := NpMat.of (Matrix.of fun (_ _ : Fin 1) => 1)
  let r ← N.foldlM (fun r n => do tensorStep r (← rule n)) ⟨one, one⟩
  return ⟨r.x.dropCol, r.w⟩

/-- quadrature.py 269-289, 312-332: the common body of `gauss_hermite` and `gauss_legendre`. -/
def gauss (rule : Num → Except Err Rule) (N : Arg) : Except Err Rule :=
  match N with
  | .num (.int n) => rule (.int n)
  | .list [n] => rule n
  | .list ns => tensorLoop rule ns
  | _ => .error .typeError

/-- quadrature.py 248-289 `gauss_hermite` -/
noncomputable def gauss_hermite (lib : Lib) (N : Arg) : Except Err Rule := gauss (gh1d lib) N

/-- quadrature.py 291-332 `gauss_legendre` -/
noncomputable def gauss_legendre (lib : Lib) (N : Arg) : Except Err Rule := gauss (gl1d lib) N

/-- designs.py 89-103 `gauss_hermite_design` -/
noncomputable def gauss_hermite_design (lib : Lib) (N : Arg) : Except Err NpMat := do
  return (← gauss_hermite lib N).x

end Model.Quadrature
