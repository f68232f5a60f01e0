import Mathlib.LinearAlgebra.Matrix.Determinant.Basic
import Mathlib.Data.Real.Sign
import Verif.Model.Gradients
import Verif.Model.Quadrature
import Verif.Model.ResponseSurfaces
import Verif.NpReduce

/-!
# Model of `active_subspaces/subspaces.py`
-/

open Py Model.Misc

namespace NpMat

/-- `np.dot(A, B)` of two-dimensional arrays; `ValueError` when the shapes do not match. -/
def dot (A B : NpMat) : Except Err NpMat :=
  if h : B.rows = A.cols then .ok ⟨A.rows, B.cols, A.val * B.val.submatrix (Fin.cast h.symm) id⟩ else .error .valueError

/-- `A[ind, :]` for non-negative indices; `IndexError` when one is out of range. -/
def takeRows (A : NpMat) {k : ℕ} (ind : Fin k → ℕ) : Except Err NpMat :=
  if h : ∀ i, ind i < A.rows then .ok ⟨k, A.cols, Matrix.of fun i j => A.val ⟨ind i, h i⟩ j⟩ else .error .indexError

end NpMat

/-- `A[ind, :]` of an array of any rank; too few dimensions is an `IndexError`.  Simplified: arrays of rank above two are
returned as they are (they occur only as an `f` that is never used). -/
def Arr.takeRows (A : Arr) {k : ℕ} (ind : Fin k → ℕ) : Except Err Arr :=
  match A with
  | .mat A => match A.takeRows ind with
    | .ok B => .ok (.mat B)
    | .error e => .error e
  | .nd .. => .ok A
  | _ => .error .indexError

namespace Np

/-- Quotient of an array by a number, entry by entry; `none` is nan.  Simplified: every entry becomes nan when the divisor is
zero (NumPy gives an infinity for a nonzero entry; the divisors used are sums of the non-negative entries). -/
noncomputable def divNan (a b : ℝ) : Option ℝ :=
  open Classical in
  if b = 0 then none else some (a / b)

/-- `np.argmin` of an array that may contain nan: the first nan if there is one. -/
noncomputable def argminNan {k : ℕ} (v : Fin k → Option ℝ) : Except Err (Fin k) :=
  match (List.finRange k).find? fun i => (v i).isNone with
  | some i => .ok i
  | none => argmin fun i => (v i).getD 0

/-- `np.linalg.norm(A, ord=2)`: the largest length of `A x` over `x` of length at most one. -/
noncomputable def norm2 {r c : ℕ} (A : Matrix (Fin r) (Fin c) ℝ) : ℝ :=
  sSup {y | ∃ x : Fin c → ℝ, ∑ j, x j ^ 2 ≤ 1 ∧ y = Real.sqrt (∑ i, A.mulVec x i ^ 2)}

/-- `W[:, :k]` -/
def firstCols {r m : ℕ} (W : Matrix (Fin r) (Fin m) ℝ) (k : ℕ) (h : k ≤ m) : Matrix (Fin r) (Fin k) ℝ :=
  W.submatrix id (Fin.castLE h)

/-- `W[:, k:]` -/
def lastCols {r m : ℕ} (W : Matrix (Fin r) (Fin m) ℝ) (k : ℕ) : Matrix (Fin r) (Fin (m - k)) ℝ :=
  W.submatrix id fun j => ⟨k + j, by omega⟩

end Np

namespace Model.Subspaces

/-- A pair `e, W` as returned by the subspace functions, for some number `m` of inputs. -/
structure EigPair where
  m : ℕ
  e : Fin m → ℝ
  W : Matrix (Fin m) (Fin m) ℝ

/-- The library routines used: `np.linalg.eigh`, `np.argsort`, and those of the response surfaces (`np.linalg.lstsq`). -/
structure Lib where
  eigh : (n : ℕ) → Matrix (Fin n) (Fin n) ℝ → (Fin n → ℝ) × Matrix (Fin n) (Fin n) ℝ
  argsort : (n : ℕ) → (Fin n → ℝ) → (Fin n → Fin n)
  surf : ResponseSurfaces.Lib

/-- The routines as passed to `local_linear_gradients`. -/
def Lib.grad (lib : Lib) : Gradients.Lib := ⟨fun v => lib.argsort _ v, fun A b => lib.surf.lstsq _ _ A b⟩

/-! ## Eigenvalue decompositions -/

/-- subspaces.py 512-513: the factor that makes the first component of a column non-negative. -/
noncomputable def signFlip (x : ℝ) : ℝ :=
  open Classical in
  if Real.sign x = 0 then 1 else Real.sign x

/-- subspaces.py 507-515 on a square matrix with at least one row. -/
noncomputable def sortedEighMat (lib : Lib) {m : ℕ} (h0 : 0 < m) (C : Matrix (Fin m) (Fin m) ℝ) : EigPair :=
  let eW := lib.eigh m C
  let e : Fin m → ℝ := fun i => |eW.1 i|
  let ind := lib.argsort m e
  let e' : Fin m → ℝ := fun i => e (ind i.rev)
  let W : Matrix (Fin m) (Fin m) ℝ := Matrix.of fun i j => eW.2 i (ind j.rev)
  ⟨m, e', Matrix.of fun i j => W i j * signFlip (W ⟨0, h0⟩ j)⟩

/-- subspaces.py 486-515 `sorted_eigh`.  `eigh` of a matrix that is not square raises `LinAlgError`; `W[0,:]` of an empty
matrix is an `IndexError`. -/
noncomputable def sorted_eigh (lib : Lib) (C : NpMat) : Except Err EigPair :=
  if h : C.cols = C.rows then
    if h0 : 0 < C.rows then .ok (sortedEighMat lib h0 (C.val.submatrix id (Fin.cast h.symm)))
    else .error .indexError
  else .error .linAlgError

/-- subspaces.py 182-205 `active_subspace`; `weights` is a two-dimensional array. -/
noncomputable def active_subspace (lib : Lib) (df : Arr) (weights : NpMat) : Except Err EigPair := do
  let df ← process_inputs df
  let dfw ← NpMat.zipB (· * ·) df weights
  let C ← NpMat.dot df.transpose dfw
  sorted_eigh lib C

/-- `np.linalg.lstsq(A, b)[0]` with one right-hand side; `LinAlgError` when the numbers of rows differ. -/
def lstsqCol (lib : Lib) (A b : NpMat) : Except Err (Fin A.cols → ℝ) :=
  if h : b.rows = A.rows then
    .ok (lib.surf.lstsq A.rows A.cols A.val fun i => b.get i 0)
  else .error .linAlgError

/-- subspaces.py 207-245 `ols_subspace`; `weights` is a two-dimensional array.  Simplified: `sqrt` of a negative weight is 0
(nan in the code); several columns of weights are a `ValueError` (in the code `reshape` raises it, unless `m` is 0). -/
noncomputable def ols_subspace (lib : Lib) (X f : Arr) (weights : NpMat) : Except Err EigPair := do
  let ⟨X, f⟩ ← process_inputs_outputs X f
  let sw := weights.map Real.sqrt
  let A ← NpMat.zipB (· * ·) ⟨X.rows, 1 + X.cols, Np.hstack (Np.ones X.rows 1) X.val⟩ sw
  let b ← NpMat.zipB (· * ·) f sw
  if h : A.cols = 1 + X.cols ∧ b.cols = 1 then
    let u ← lstsqCol lib A b
    let w : Matrix (Fin X.cols) (Fin 1) ℝ := Matrix.of fun i _ => u (Fin.cast h.1.symm (Fin.natAdd 1 i))
    sorted_eigh lib (NpMat.of (w * w.transpose))
  else .error .valueError

/-- A column of weights for `PolynomialApproximation.train`.  Simplified: anything but one column is a `ValueError`. -/
def toVec (w : NpMat) : Except Err NpVec :=
  if h : w.cols = 1 then .ok ⟨w.rows, fun i => w.val i (Fin.cast h.symm 0)⟩ else .error .valueError

/-- subspaces.py 276-279: `np.amax(X) > 1.0 or np.amin < -1.0`.  The second operand compares a function with a number,
which is `False` in Python 2. -/
noncomputable def gamma (X : NpMat) : Except Err ℝ :=
  match Np.amax (Np.ravel X.val) with
  | .error e => .error e
  | .ok mx =>
    open Classical in
    if mx > 1 then .ok 1 else .ok (1 / 3)

/-- subspaces.py 247-291 `qphd_subspace` -/
noncomputable def qphd_subspace (lib : Lib) (X f : Arr) (weights : NpMat) : Except Err EigPair := do
  let ⟨X, f⟩ ← process_inputs_outputs X f
  let gamma ← gamma X
  let weights ← toVec weights
  match (ResponseSurfaces.PolyApprox.train lib.surf (.mat X) (.mat f) (some weights)).run { N := 2 } with
  | (.error e, _) => .error e
  | (.ok _, pr) =>
    match pr.g, pr.H with
    | some b, some A =>
      let AA ← NpMat.dot A A.transpose
      let C ← NpMat.zipB (· + ·) ⟨b.n, b.n, Matrix.of fun i j => b.val i * b.val j⟩ (AA.map (gamma * ·))
      sorted_eigh lib C
    | _, _ => .error .attributeError

variable {S E : Type}

/-- `np.random.randint(n)`; `ValueError` for `n = 0`. -/
def randint (rng : Rng S) : (n : ℕ) → PyM (S × E) (Fin n)
  | 0 => PyM.raise .valueError
  | n + 1 => Rng.draw (rng.randint n)

/-- subspaces.py 293-326 `opg_subspace`.  Simplified: `weights` has one row and one column entry per sample (other shapes:
`ValueError`). -/
noncomputable def opg_subspace (lib : Lib) (rng : Rng S) (X f : Arr) (weights : NpMat) : PyM (S × E) EigPair :=
  match process_inputs_outputs X f with
  | .error e => PyM.raise e
  | .ok ⟨X, f⟩ =>
    if h : weights.rows = X.rows ∧ weights.cols = 1 then do
      let df ← Gradients.local_linear_gradients lib.grad (randint rng X.rows) X.val (fun i => f.get i 0) .none
        (some fun i => weights.val (Fin.cast h.1.symm i) (Fin.cast h.2.symm 0))
      let k := Gradients.numModels X.rows X.cols
      PyM.lift (active_subspace lib (.mat (NpMat.of df)) (NpMat.of (Matrix.of fun (_ : Fin k) (_ : Fin 1) => 1 / (k : ℝ))))
    else PyM.raise .valueError

/-! ## Partitions -/

/-- subspaces.py 328-348 `eig_partition` -/
noncomputable def eig_partition {m : ℕ} (e : Fin m → ℝ) : Except Err (ℕ × (Fin (m - 1) → ℝ)) := do
  let ediff : Fin (m - 1) → ℝ := fun i => |e ⟨i + 1, by omega⟩ - e ⟨i, by omega⟩|
  let n ← Np.argmax ediff
  return (n + 1, ediff)

/-- subspaces.py 350-384 `errbnd_partition`.  `np.zeros` of a negative size is a `ValueError`, too few entries of `sub_err` an
`IndexError`.  Simplified: `sqrt` of a negative sum is 0 (nan in the code; the eigenvalues are non-negative). -/
noncomputable def errbnd_partition {m : ℕ} (e : Fin m → ℝ) (sub_err : NpVec) : Except Err (ℕ × (Fin (m - 1) → ℝ)) :=
  if m = 0 then .error .valueError
  else if h : m - 1 ≤ sub_err.n then do
    let errbnd : Fin (m - 1) → ℝ := fun i =>
      Real.sqrt (∑ k ∈ Finset.univ.filter (fun k : Fin m => (k : ℕ) < i + 1), e k) * sub_err.val (Fin.castLE h i)
        + Real.sqrt (∑ k ∈ Finset.univ.filter (fun k : Fin m => (i : ℕ) + 1 ≤ k), e k)
    let n ← Np.argmin errbnd
    return (n + 1, errbnd)
  else .error .indexError

/-- subspaces.py 386-409 `ladle_partition`; `none` is nan.  Simplified: `li_F` has one entry per eigenvalue. -/
noncomputable def ladle_partition {m : ℕ} (e : Fin m → ℝ) (li_F : Fin m → Option ℝ) : Except Err (ℕ × (Fin m → Option ℝ)) := do
  let G : Fin m → Option ℝ := fun i => do
    let a ← li_F i
    let b ← Np.divNan (e i) (∑ k, e k)
    return a + b
  let n ← Np.argminNan G
  return (n + 1, G)

/-! ## Bootstrap -/

/-- `np.random.randint(n + 1, size=(k,))`, as `k` draws. -/
def randints (rng : Rng S) (n : ℕ) : (k : ℕ) → S → (Fin k → Fin (n + 1)) × S
  | 0, s => (Fin.elim0, s)
  | k + 1, s =>
    let r := rng.randint n s
    let rs := randints rng n k r.2
    (Fin.cons r.1 rs.1, rs.2)

/-- A sample: the optional arrays and the weights. -/
structure Data where
  X : Option NpMat
  f : Option Arr
  df : Option NpMat
  weights : NpMat

/-- subspaces.py 527-544: the rows `ind` of every array. -/
def Data.take (d : Data) {k : ℕ} (ind : Fin k → ℕ) : Except Err Data := do
  let X0 ← d.X.mapM fun X => X.takeRows ind
  let f0 ← d.f.mapM fun f => f.takeRows ind
  let df0 ← d.df.mapM fun df => df.takeRows ind
  let weights0 ← d.weights.takeRows ind
  return ⟨X0, f0, df0, weights0⟩

/-- subspaces.py 517-544 `_bootstrap_replicate` -/
def bootstrap_replicate (rng : Rng S) (d : Data) : PyM (S × E) Data :=
  match d.weights.rows with
  | 0 => PyM.raise .valueError
  | M + 1 => do
    let ind ← Rng.draw (randints rng M (M + 1))
    PyM.lift (d.take fun i => (ind i : ℕ))

/-- The subspace types. -/
inductive SS where
  | AS | OLS | QPHD | OPG
  deriving DecidableEq

/-- subspaces.py 109-132: the strings. -/
def SS.ofString (s : String) : Option SS :=
  if s = "AS" then some .AS else if s = "OLS" then some .OLS else if s = "QPHD" then some .QPHD
  else if s = "OPG" then some .OPG else none

/-- subspaces.py 109-128: the required data are checked, then the subspace function is called.  (The functions `ssmethod`
used by the bootstrap do not check again; the bootstrap passes `None` only where the first call had it.) -/
noncomputable def ssCall (lib : Lib) (rng : Rng S) (t : SS) (X : Option NpMat) (f df : Option Arr) (weights : NpMat) :
    PyM (S × E) EigPair :=
  match t with
  | .AS => match df with
    | some df => PyM.lift (active_subspace lib df weights)
    | none => PyM.raise .exception
  | .OLS => match X, f with
    | some X, some f => PyM.lift (ols_subspace lib (.mat X) f weights)
    | _, _ => PyM.raise .exception
  | .QPHD => match X, f with
    | some X, some f => PyM.lift (qphd_subspace lib (.mat X) f weights)
    | _, _ => PyM.raise .exception
  | .OPG => match X, f with
    | some X, some f => opg_subspace lib rng (.mat X) f weights
    | _, _ => PyM.raise .exception

/-- One column of `e_boot`, `sub_dist` and `sub_det`. -/
structure BootCol (m : ℕ) where
  e : Fin m → ℝ
  dist : Fin (m - 1) → ℝ
  det : Fin (m - 1) → ℝ

/-- subspaces.py 466-469: the column for the replicate `e0, W0`. -/
noncomputable def bootCol {m : ℕ} (W : Matrix (Fin m) (Fin m) ℝ) (e0 : Fin m → ℝ) (W0 : Matrix (Fin m) (Fin m) ℝ) :
    BootCol m where
  e := e0
  dist j := Np.norm2 ((Np.firstCols W (j + 1) (by omega)).transpose * Np.lastCols W0 (j + 1))
  det j := ((Np.firstCols W (j + 1) (by omega)).transpose * Np.firstCols W0 (j + 1) (by omega)).det

/-- subspaces.py 463-469: the loop.  A number of eigenvalues other than `m` makes `reshape` raise `ValueError`. -/
noncomputable def bootLoop (lib : Lib) (rng : Rng S) (t : SS) (d : Data) {m : ℕ} (W : Matrix (Fin m) (Fin m) ℝ) :
    (nboot : ℕ) → PyM (S × E) (Fin nboot → BootCol m)
  | 0 => pure Fin.elim0
  | n + 1 => do
    let d0 ← bootstrap_replicate rng d
    let p0 ← ssCall lib rng t d0.X d0.f (d0.df.map .mat) d0.weights
    if h : p0.m = m then
      let c := bootCol W (fun i => p0.e (Fin.cast h.symm i)) (p0.W.submatrix (Fin.cast h.symm) (Fin.cast h.symm))
      let cs ← bootLoop lib rng t d W n
      return Fin.cons c cs
    else PyM.raise .valueError

/-- The value of `_bootstrap_ranges`: `e_br` (m-by-2), `sub_br` ((m-1)-by-3) and `li_F` (m-by-1, possibly nan). -/
structure Boot (m : ℕ) where
  e_br : Matrix (Fin m) (Fin 2) ℝ
  sub_br : Matrix (Fin (m - 1)) (Fin 3) ℝ
  li_F : Fin m → Option ℝ

/-- `np.amin` of a non-empty array -/
noncomputable def min' {k : ℕ} (v : Fin (k + 1) → ℝ) : ℝ := Finset.univ.inf' Finset.univ_nonempty v

/-- `np.amax` of a non-empty array -/
noncomputable def max' {k : ℕ} (v : Fin (k + 1) → ℝ) : ℝ := Finset.univ.sup' Finset.univ_nonempty v

/-- subspaces.py 472-484: the results from the columns. -/
noncomputable def bootRanges {m k : ℕ} (c : Fin (k + 1) → BootCol m) : Boot m :=
  let raw : Fin m → ℝ := fun i =>
    if h : (i : ℕ) = 0 then 0 else (∑ b, (1 - |(c b).det ⟨i - 1, by omega⟩|)) / ((k + 1 : ℕ) : ℝ)
  { e_br := Matrix.of fun i j => if j = 0 then min' (fun b => (c b).e i) else max' (fun b => (c b).e i)
    sub_br := Matrix.of fun i j =>
      if j = 0 then min' (fun b => (c b).dist i)
      else if j = 1 then (∑ b, (c b).dist i) / ((k + 1 : ℕ) : ℝ)
      else max' (fun b => (c b).dist i)
    li_F := fun i => Np.divNan (raw i) (∑ i, raw i) }

/-- `_bootstrap_ranges` with its run-time size. -/
structure BootRes where
  m : ℕ
  boot : Boot m

/-- subspaces.py 411-484 `_bootstrap_ranges` for `nboot = k + 1`.  `m` is taken from `df` when it is given. -/
noncomputable def bootstrap_ranges (lib : Lib) (rng : Rng S) (t : SS) (p : EigPair) (X : Option NpMat) (f df : Option Arr)
    (weights : NpMat) (k : ℕ) : PyM (S × E) BootRes :=
  match df.mapM process_inputs with
  | .error e => PyM.raise e
  | .ok df =>
    let m := match df, X with
      | some df, _ => df.cols
      | none, some X => X.cols
      | none, none => 0
    if h : m = p.m then do
      let c ← bootLoop lib rng t ⟨X, f, df, weights⟩ p.W (k + 1)
      return ⟨p.m, bootRanges c⟩
    else do
      let d0 ← bootstrap_replicate rng ⟨X, f, df, weights⟩
      let _ ← ssCall lib rng t d0.X d0.f (d0.df.map .mat) d0.weights
      PyM.raise .valueError

/-! ## The class `Subspaces` -/

/-- The attributes (subspaces.py 36-38). -/
structure Subspaces where
  eigenvals : Option NpVec := none
  eigenvecs : Option NpMat := none
  W1 : Option NpMat := none
  W2 : Option NpMat := none
  e_br : Option NpMat := none
  sub_br : Option NpMat := none

/-- A Python argument that should be an integer. -/
inductive IntArg where
  | int (n : ℤ)
  | other

/-- Change the object in the world. -/
def modifyObj (g : E → E) : PyM (S × E) Unit := PyM.modify fun w => (w.1, g w.2)

/-- subspaces.py 161-180 `partition` -/
def partition (n : IntArg) : PyM (S × Subspaces) Unit :=
  match n with
  | .other => PyM.raise .typeError
  | .int n => do
    let w ← PyM.get
    match w.2.eigenvecs with
    | none => PyM.raise .attributeError
    | some W =>
      if n < 1 ∨ n > W.rows then PyM.raise .valueError
      else modifyObj fun s => { s with
        W1 := some (NpMat.of (W.val.submatrix id (Fin.castLE (Nat.min_le_right n.toNat W.cols))))
        W2 := some (NpMat.of (Np.lastCols W.val n.toNat)) }

/-- subspaces.py 97-102: the arguments after the checks; `M`, `m` are the shape of `X` or else of `df`. -/
structure Args where
  X : Option NpMat
  df : Option Arr
  M : ℕ
  m : ℕ

/-- subspaces.py 97-102 -/
def checkInputs (X df : Option Arr) : Except Err Args :=
  match X with
  | some X => match process_inputs X with
    | .ok X => .ok ⟨some X, df, X.rows, X.cols⟩
    | .error e => .error e
  | none => match df with
    | some df => match process_inputs df with
      | .ok df => .ok ⟨none, some (.mat df), df.rows, df.cols⟩
      | .error e => .error e
    | none => .error .exception

/-- subspaces.py 148-156: the dimension chosen. -/
noncomputable def chooseDim (ptype : String) (p : EigPair) (m : ℕ) (b : Option BootRes) : Except Err ℕ :=
  if ptype = "EVG" then do
    let r ← eig_partition p.e
    return r.1
  else if ptype = "RS" then
    match b with
    | some b =>
      if h : b.m - 1 = m - 1 then do
        let r ← errbnd_partition p.e ⟨m - 1, fun i => b.boot.sub_br (Fin.cast h.symm i) 1⟩
        return r.1
      else .error .valueError
    | none => .error .typeError
  else if ptype = "LI" then
    match b with
    | some b =>
      if h : b.m = p.m then do
        let r ← ladle_partition p.e fun i => b.boot.li_F (Fin.cast h.symm i)
        return r.1
      else .error .valueError
    | none => .error .nameError
  else .error .exception

/-- subspaces.py 136-143: bootstrap if asked for; the types that need it raise otherwise. -/
noncomputable def bootStep (lib : Lib) (rng : Rng S) (t : SS) (p : EigPair) (X : Option NpMat) (f df : Option Arr)
    (weights : NpMat) (ptype : String) (nboot : ℤ) : PyM (S × E) (Option BootRes) :=
  if nboot > 0 then do
    let b ← bootstrap_ranges lib rng t p X f df weights (nboot.toNat - 1)
    return some b
  else if ptype = "RS" ∨ ptype = "LI" then PyM.raise .exception
  else pure none

/-- subspaces.py 134 -/
def withEig (p : EigPair) (s : Subspaces) : Subspaces :=
  { s with eigenvals := some ⟨p.m, p.e⟩, eigenvecs := some (NpMat.of p.W) }

/-- subspaces.py 145 -/
def withBoot (b : Option BootRes) (s : Subspaces) : Subspaces :=
  { s with e_br := b.map fun b => NpMat.of b.boot.e_br, sub_br := b.map fun b => NpMat.of b.boot.sub_br }

/-- subspaces.py 40-158 `compute` -/
noncomputable def compute (lib : Lib) (rng : Rng S) (X f df : Option Arr) (weights : Option NpMat) (sstype ptype : String)
    (nboot : ℤ) : PyM (S × Subspaces) Unit := do
  let a ← PyM.lift (checkInputs X df)
  let weights : NpMat := weights.getD (NpMat.of (Matrix.of fun (_ : Fin a.M) (_ : Fin 1) => 1 / (a.M : ℝ)))
  match SS.ofString sstype with
  | none => PyM.raise .exception
  | some t => do
    let p ← ssCall lib rng t a.X f a.df weights
    modifyObj (withEig p)
    let b ← bootStep lib rng t p a.X f a.df weights ptype nboot
    modifyObj (withBoot b)
    let n ← PyM.lift (chooseDim ptype p a.m b)
    partition (.int n)

end Model.Subspaces
