import Verif.Model.ActiveSurfaces

/-!
# Model of `active_subspaces/optimizers.py`

Simplified: `avfun` and `avdfun` are functions without effects (those made by `minimize` are).  The arrays stored by
`train` are used with the subspaces they were computed from or with subspaces of the same shape; any other shapes are a
`ValueError`.
-/

open Py Model.Misc Model.QPSolver Model.Subspaces Model.Domains Model.ResponseSurfaces Model.ActiveSurfaces Model.Multistart

namespace NpMat

/-- `W[:,:p]`; a slice beyond the last column is cut off. -/
def takeCols (W : NpMat) (p : ℕ) : NpMat := of (W.val.submatrix id (Fin.castLE (Nat.min_le_right p W.cols)))

/-- The entries as a matrix of known shape. -/
def toMat (A : NpMat) (r c : ℕ) : Matrix (Fin r) (Fin c) ℝ := Matrix.of fun i j => A.get i j

end NpMat

namespace Model.Optimizers

variable {S R E : Type}

/-- An objective (or gradient) in the active variables, for any number of variables. -/
abbrev AvFun := (n : ℕ) → (Fin n → ℝ) → Except Err ℝ

/-- Its gradient. -/
abbrev AvGrad := (n : ℕ) → (Fin n → ℝ) → Except Err (Fin n → ℝ)

/-- The library routines used.  `fminbound` returns the point, the value and whether the third element of the result is
nonzero; `minimize` is called with a method, a function, `jac`, `constraints` and a starting point. -/
structure Lib where
  dom : Domains.Lib
  rs : ResponseSurfaces.Lib
  fminbound : (ℝ → Except Err ℝ) → ℝ → ℝ → Except Err (ℝ × ℝ × Bool)
  minimize : (method : String) → {d : ℕ} → ((Fin d → ℝ) → Except Err ℝ) → Option ((Fin d → ℝ) → Except Err (Fin d → ℝ)) →
    Option (Constraints d) → (Fin d → ℝ) → Except Err (OptRes (Fin d → ℝ))

/-! ## The classes of maps -/

/-- The attributes `_bz`, `_zAy`, `_zAz`. -/
structure MinData where
  bz : NpMat
  zAy : NpMat
  zAz : NpMat

/-- optimizers.py 48-51: the number of variables of the quadratic. -/
def surrogateDim (m n : ℕ) : ℕ := if (m : ℤ) - n > 2 then n + 2 else n + 1

/-- optimizers.py 54-56: train a quadratic and take `g` and `H`; `None` is not an array. -/
noncomputable def quadFit (lib : ResponseSurfaces.Lib) (Yp f : NpMat) : Except Err (NpMat × NpMat) :=
  match (PolyApprox.train lib (.mat Yp) (.mat f) none).run { N := 2 } with
  | (.error e, _) => .error e
  | (.ok _, pr) => match pr.g, pr.H with
    | some g, some H => .ok (NpMat.of (colMat g.val), H)
    | _, _ => .error .typeError

/-- optimizers.py 28-65 `MinVariableMap.train`: the attributes set. -/
noncomputable def train (lib : ResponseSurfaces.Lib) (s : Subspaces) (X f : Arr) : Except Err MinData := do
  let d ← process_inputs_outputs X f
  match s.W1 with
  | none => .error .attributeError
  | some W1 => match s.eigenvecs with
    | none => .error .typeError
    | some W => do
      let m := W1.rows
      let n := W1.cols
      let Wp := W.takeCols (surrogateDim m n)
      let Yp ← d.X.dot Wp
      let gH ← quadFit lib Yp d.f
      let b ← Wp.dot gH.1
      let HW ← gH.2.dot Wp.transpose
      let A ← Wp.dot HW
      match s.W2 with
      | none => .error .attributeError
      | some W2 => do
        let bz ← W2.transpose.dot b
        let AW1 ← A.dot W1
        let zAy ← W2.transpose.dot AW1
        let AW2 ← A.dot W2
        let zz ← W2.transpose.dot AW2
        let zAz ← NpMat.zipB (fun x y => x + y) zz (NpMat.of ((0.01 : ℝ) • (1 : Matrix (Fin (m - n)) (Fin (m - n)) ℝ)))
        return ⟨bz, zAy, zAz⟩

/-- optimizers.py 111, 162: `c` for one row of `Y`. -/
def linTerm (d : MinData) (k : ℕ) {n : ℕ} (y : Fin n → ℝ) : Fin k → ℝ := fun i => d.bz.get i 0 + (d.zAy.toMat k n).mulVec y i

/-- The stored arrays fit `k` inactive and `n` active variables. -/
def MinData.Fits (d : MinData) (n k : ℕ) : Prop :=
  (d.bz.rows = k ∧ d.bz.cols = 1) ∧ (d.zAy.rows = k ∧ d.zAy.cols = n) ∧ d.zAz.rows = k ∧ d.zAz.cols = k

open Classical in
/-- optimizers.py 108-119: the loop over the rows of `Y`, for `k` inactive variables.  Before `train` the attributes do not
exist. -/
noncomputable def boundedMinRows (lib : Domains.Lib) (rng : Rng S) (W1 W2 : NpMat) (d : Option MinData) (Y : NpMat) (k : ℕ) :
    PyM (S × Files × E) (Option Arr3) := do
  let Zlist ← PyM.mapFin Y.rows fun i => match d with
    | none => PyM.raise .attributeError
    | some d =>
      if d.Fits Y.cols k ∧ W1.cols = Y.cols ∧ W2.rows = W1.rows ∧ W2.cols = k then
        let y : Fin Y.cols → ℝ := Y.val i
        let A_ineq := polyA (W2.toMat W1.rows k)
        let b_ineq := polyB ((W1.toMat W1.rows Y.cols).mulVec y)
        (QPSolver.init lib.qp).quadratic_program_ineq lib.qp rng (linTerm d k y) (d.zAz.toMat k k) A_ineq b_ineq
      else PyM.raise .valueError
  return some ⟨Y.rows, k, 1, fun i j _ => Zlist i j⟩

/-- optimizers.py 76-119 `BoundedMinVariableMap.regularize_z` -/
noncomputable def boundedMinZ (lib : Domains.Lib) (rng : Rng S) (s : Subspaces) (d : Option MinData) (Y : NpMat) (N : ℕ) :
    PyM (S × Files × E) (Option Arr3) :=
  if N ≠ 1 then PyM.raise .exception
  else match s.W1 with
    | none => PyM.raise .attributeError
    | some W1 => match s.W2 with
      | none => PyM.raise .typeError
      | some W2 => boundedMinRows lib rng W1 W2 d Y (W1.rows - W1.cols)

open Classical in
/-- optimizers.py 160-165: the loop over the rows of `Y`, for `k` inactive variables. -/
noncomputable def unboundedMinRows (d : Option MinData) (Y : NpMat) (k : ℕ) : PyM (S × Files × E) (Option Arr3) := do
  let Zlist ← PyM.mapFin Y.rows fun i => match d with
    | none => PyM.raise .attributeError
    | some d =>
      if d.Fits Y.cols k then PyM.lift (Np.solve (d.zAz.toMat k k) (colMat (linTerm d k (Y.val i))))
      else PyM.raise .valueError
  return some ⟨Y.rows, k, 1, fun i j _ => Zlist i j 0⟩

/-- optimizers.py 130-165 `UnboundedMinVariableMap.regularize_z` -/
noncomputable def unboundedMinZ (s : Subspaces) (d : Option MinData) (Y : NpMat) (N : ℕ) : PyM (S × Files × E) (Option Arr3) :=
  if N ≠ 1 then PyM.raise .exception
  else match s.W1 with
    | none => PyM.raise .attributeError
    | some W1 => unboundedMinRows d Y (W1.rows - W1.cols)

/-! ## Minimisation over the active variables -/

/-- optimizers.py 260-293 `interval_minimize` -/
noncomputable def interval_minimize (lib : Lib) (avfun : AvFun) (b : Boundary) : Except Err (NpMat × ℝ) := do
  let yl ← (NpMat.of b.verts.Y).item 0 0
  let yu ← (NpMat.of b.verts.Y).item 1 0
  let result ← lib.fminbound (fun t => avfun 1 fun _ => t) yl yu
  if result.2.2 then .error .exception
  else return (NpMat.of (Matrix.of fun (_ : Fin 1) (_ : Fin 1) => result.1), result.2.1)

/-- optimizers.py 334-337: one start.  `constraints=None` raises `TypeError`, constraints on another number of variables
raise `ValueError`. -/
noncomputable def zonotopeRun (lib : Lib) (avfun : AvFun) (avdfun : Option AvGrad) (b : Boundary) {n : ℕ}
    (y0 : Matrix (Fin 1) (Fin n) ℝ) : Except Err (OptRes (Fin b.n → ℝ)) :=
  match b.constraints with
  | none => .error .typeError
  | some cons =>
    if h : b.n = n then
      lib.minimize "SLSQP" (avfun b.n) (avdfun.map fun g => g b.n) (some cons) fun j => y0 0 (Fin.cast h j)
    else .error .valueError

/-- optimizers.py 295-346 `zonotope_minimize` -/
noncomputable def zonotope_minimize (lib : Lib) (rng : Rng S) (avfun : AvFun) (avdfun : Option AvGrad) (b : Boundary) (n : ℕ) :
    PyM (S × E) ((Fin b.n → ℝ) × ℝ) := do
  let r ← multistart rng (rng.normal 1 n) (fun y0 => PyM.lift (zonotopeRun lib avfun avdfun b y0)) 1e100 10
  return (r.x, r.f)

/-- optimizers.py 390-391: one start. -/
noncomputable def unboundedRun (lib : Lib) (avfun : AvFun) (avdfun : Option AvGrad) {n : ℕ} (y0 : Matrix (Fin 1) (Fin n) ℝ) :
    Except Err (OptRes (Fin n → ℝ)) :=
  let method := if avdfun.isNone then "SLSQP" else "BFGS"
  lib.minimize method (avfun n) (avdfun.map fun g => g n) none fun j => y0 0 j

/-- optimizers.py 348-399 `unbounded_minimize` -/
noncomputable def unbounded_minimize (lib : Lib) (rng : Rng S) (avfun : AvFun) (avdfun : Option AvGrad) (n : ℕ) :
    PyM (S × E) ((Fin n → ℝ) × ℝ) := do
  let r ← multistart rng (rng.normal 1 n) (fun y0 => PyM.lift (unboundedRun lib avfun avdfun y0)) 1e100 10
  return (r.x, r.f)

/-- `y.reshape((1,y.size))` -/
def rowOf {n : ℕ} (y : Fin n → ℝ) : NpMat := NpMat.of (Matrix.of fun (_ : Fin 1) j => y j)

/-- optimizers.py 221-258 `av_minimize` -/
noncomputable def av_minimize (lib : Lib) (rng : Rng S) (avfun : AvFun) (dom : DomKind) (s : Subspaces) (avdfun : Option AvGrad) :
    PyM (S × E) (NpMat × ℝ) :=
  match dom with
  | .unbounded => match s.W1 with
    | none => PyM.raise .attributeError
    | some W1 => do
      let r ← unbounded_minimize lib rng avfun avdfun W1.cols
      return (rowOf r.1, r.2)
  | .bounded b => match s.W1 with
    | none => PyM.raise .attributeError
    | some W1 =>
      if W1.cols = 1 then PyM.lift (interval_minimize lib avfun b)
      else do
        let r ← zonotope_minimize lib rng avfun avdfun b W1.cols
        return (rowOf r.1, r.2)
  | .other => PyM.raise .exception

/-! ## Minimisation of a response surface -/

/-- optimizers.py 202-204 `avfun` -/
def avfun (surf : Surface R) (r : R) : AvFun := fun _ y => do
  let p ← predict_av surf r (.mat (rowOf y)) false
  (NpMat.of (colMat p.1.val)).item 0 0

/-- optimizers.py 205-207 `avdfun`.  Simplified: the gradient has one row. -/
def avdfun (surf : Surface R) (r : R) : AvGrad := fun n y => do
  let df ← gradient_av surf r (.mat (rowOf y))
  match df with
  | none => .error .attributeError
  | some df => if df.rows = 1 ∧ df.cols = n then .ok fun j => df.get 0 j else .error .valueError

/-- optimizers.py 216-219: `regularize_z` is that of the map, given what `train` stored. -/
noncomputable def minimizeWith (lib : Lib) (rng : Rng S) (surf : Surface R) (r : R) (a : AVMap S E)
    (regularize_z : MinData → NpMat → ℕ → PyM (S × Files × E) (Option Arr3)) (X f : NpMat) : PyM (S × Files × E) (Option (NpMat × ℝ)) := do
  let ys ← av_minimize lib rng (avfun surf r) a.dom a.subspaces (some (avdfun surf r))
  let d ← PyM.lift (train lib.rs a.subspaces (.mat X) (.mat f))
  match ← inverse (regularize_z d) a.subspaces (.mat ys.1) (.int 1) with
  | none => pure none
  | some (xstar, _) => pure (some (xstar, ys.2))

/-- optimizers.py 167-219 `minimize` -/
noncomputable def minimize (lib : Lib) (rng : Rng S) (surf : Surface R) (r : R) (a : AVMap S E) (X f : Arr) :
    PyM (S × Files × E) (Option (NpMat × ℝ)) := do
  let d ← PyM.lift (process_inputs_outputs X f)
  match a.dom with
  | .unbounded => minimizeWith lib rng surf r a (fun d => unboundedMinZ a.subspaces (some d)) d.X d.f
  | .bounded _ => minimizeWith lib rng surf r a (fun d => boundedMinZ lib.dom rng a.subspaces (some d)) d.X d.f
  | .other => PyM.raise .exception

end Model.Optimizers
