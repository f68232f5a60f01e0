import Mathlib.Algebra.Order.Floor.Ring
import Verif.Model.Designs
import Verif.Model.Domains
import Verif.Model.Quadrature
import Verif.Model.ResponseSurfaces
import Verif.Model.SimRunners

/-!
# Model of `active_subspaces/response_surfaces.py`

Simplified: an inverse map that produces undefined numbers (`none`, see `Model.Domains`) ends the computation with `none`.
-/

open Py Model.Misc Model.QPSolver Model.Subspaces Model.Domains Model.ResponseSurfaces

namespace NpMat

/-- `np.vstack((A, B))`; `ValueError` when the numbers of columns differ. -/
def vstack (A B : NpMat) : Except Err NpMat :=
  if h : B.cols = A.cols then .ok (of (Np.vstack A.val (B.val.submatrix id (Fin.cast h.symm)))) else .error .valueError

/-- `A[i, j]` for non-negative indices -/
def item (A : NpMat) (i j : ℕ) : Except Err ℝ := if i < A.rows ∧ j < A.cols then .ok (A.get i j) else .error .indexError

/-- `np.amax(A)` of an array with one column -/
noncomputable def amaxCol (A : NpMat) : Except Err ℝ := Np.amax fun i : Fin A.rows => A.get i 0

end NpMat

namespace Model.ActiveSurfaces

variable {S R E : Type}

/-- The library routines used. -/
structure Lib where
  dom : Domains.Lib
  des : Designs.Lib
  quad : Quadrature.Lib
  /-- `np.power(N, 1.0/n)` where it is not nan: rounded, unlike the other arithmetic of the model -/
  root : ℤ → ℕ → ℝ

/-- The class of `avmap.domain` and, for a bounded domain, what `compute_boundary` stored. -/
inductive DomKind where
  | unbounded
  | bounded (b : Boundary)
  | other

/-- An `ActiveVariableMap`: its domain, the subspaces of the domain, and the `regularize_z` of its class. -/
structure AVMap (S E : Type) where
  dom : DomKind
  subspaces : Subspaces
  regularize_z : NpMat → ℕ → PyM (S × Files × E) (Option Arr3)

/-- domains.py 183-219 for this map -/
def AVMap.inverse (a : AVMap S E) (Y : Arr) (N : IntArg) : PyM (S × Files × E) (Option (NpMat × NpMat)) :=
  Domains.inverse a.regularize_z a.subspaces Y N

/-- domains.py 156-181 for this map -/
def AVMap.forward (a : AVMap S E) (X : Arr) : Except Err (NpMat × NpMat) := Domains.forward a.subspaces X

/-- response_surfaces.py 282, integrals.py 204: `int(np.floor(np.power(N, 1.0/n)))`.  A root of a negative number is nan and
`int(nan)` raises `ValueError`. -/
noncomputable def rootInt (root : ℤ → ℕ → ℝ) (N : ℤ) (n : ℕ) : Except Err ℤ :=
  if N < 0 ∧ 2 ≤ n then .error .valueError else .ok ⌊root N n⌋

/-- response_surfaces.py 282, integrals.py 204: the list `NN`. -/
noncomputable def rootList (root : ℤ → ℕ → ℝ) (N : ℤ) (n : ℕ) : Except Err (List Quadrature.Num) := do
  let r ← rootInt root N n
  return List.replicate n (.int r)

/-- response_surfaces.py 281-294: the design in the active variables.  For a negative `N` `maximin_design` raises `ValueError`
(from `np.eye`). -/
noncomputable def designPoints (lib : Lib) (rng : Rng S) (W1 : NpMat) (dom : DomKind) (N : ℤ) : PyM (S × E) NpMat :=
  match dom with
  | .unbounded => do
    let NN ← PyM.lift (rootList lib.root N W1.cols)
    PyM.lift (Quadrature.gauss_hermite_design lib.quad (.list NN))
  | .bounded b =>
    if W1.cols = 1 then do
      let a0 ← PyM.lift ((NpMat.of b.verts.Y).item 0 0)
      let b0 ← PyM.lift ((NpMat.of b.verts.Y).item 1 0)
      let Y ← PyM.lift (Designs.interval_design a0 b0 N)
      PyM.lift (process_inputs Y)
    else if N < 0 then PyM.raise .valueError
    else do
      let Y ← Designs.maximin_design lib.des rng b.verts.Y N.toNat
      return NpMat.of Y
  | .other => PyM.raise .exception

/-- The three arrays returned by `av_design`. -/
structure Design where
  Y : NpMat
  X : NpMat
  ind : NpMat

/-- response_surfaces.py 231-297 `av_design`; `none` is an object that is not an `ActiveVariableMap`. -/
noncomputable def av_design (lib : Lib) (rng : Rng S) (avmap : Option (AVMap S E)) (N NMC : IntArg) :
    PyM (S × Files × E) (Option Design) :=
  match avmap with
  | none => PyM.raise .typeError
  | some a => match N with
    | .other => PyM.raise .exception
    | .int N => match NMC with
      | .other => PyM.raise .exception
      | .int NMC => match a.subspaces.W1 with
        | none => PyM.raise .attributeError
        | some W1 => do
          let Y ← designPoints lib rng W1 a.dom N
          match ← a.inverse (.mat Y) (.int NMC) with
          | none => pure none
          | some (X, ind) => pure (some ⟨Y, X, ind⟩)

/-! ## The class `ActiveSubspaceResponseSurface` -/

/-- A class of response surfaces with objects in `R`; `isRBF` tells whether it is (a subclass of)
`RadialBasisApproximation`.  `train` takes `X`, `f`, `v`, `e`. -/
structure Surface (R : Type) where
  isRBF : Bool
  train : Arr → Arr → Option NpVec → Option NpVec → PyM R Unit
  predict : R → Arr → Bool → Except Err (NpVec × Option NpMat)

/-- `RadialBasisApproximation` -/
noncomputable def rbfSurface (lib : ResponseSurfaces.Lib) : Surface RBF := ⟨true, fun X f v e => RBF.train lib X f v e, RBF.predict⟩

/-- `PolynomialApproximation`; `_train` passes only `X` and `f`. -/
noncomputable def polySurface (lib : ResponseSurfaces.Lib) : Surface PolyApprox :=
  ⟨false, fun X f _ _ => PolyApprox.train lib X f none, PolyApprox.predict⟩

/-- response_surfaces.py 29-49 `__init__`: a missing surface is replaced by the default. -/
def init {α : Type} (avmap : Option (AVMap S E)) (respsurf : Option α) (default : α) : Except Err (AVMap S E × α) :=
  match avmap with
  | none => .error .typeError
  | some a => match respsurf with
    | none => .ok (a, default)
    | some r => .ok (a, r)

/-- A computation on the response surface, which is part of the world. -/
def onSurface {α : Type} (x : PyM R α) : PyM (S × Files × R × E) α := fun w =>
  ((x.run w.2.2.1).1, (w.1, w.2.1, (x.run w.2.2.1).2, w.2.2.2))

/-- response_surfaces.py 51-61 `_train` -/
def train (surf : Surface R) (s : Subspaces) (Y f : Arr) (v : Option NpVec) : PyM (S × Files × R × E) Unit :=
  if surf.isRBF then onSurface (surf.train Y f v s.eigenvals) else onSurface (surf.train Y f none none)

/-- response_surfaces.py 63-85 `train_with_data` -/
def train_with_data (surf : Surface R) (a : AVMap S (R × E)) (X f : Arr) (v : Option NpVec) : PyM (S × Files × R × E) Unit := do
  let YZ ← PyM.lift (a.forward X)
  train surf a.subspaces (.mat YZ.1) f v

/-- response_surfaces.py 116-122: the vertices of a bounded domain are appended, each with an index of its own. -/
noncomputable def addVertices (dom : DomKind) (d : Design) : Except Err Design :=
  match dom with
  | .bounded b => do
    let X ← d.X.vstack (NpMat.of b.verts.X)
    let Y ← d.Y.vstack (NpMat.of b.verts.Y)
    let mx ← d.ind.amaxCol
    let il := mx + 1
    let iind : Matrix (Fin b.verts.num) (Fin 1) ℝ := Matrix.of fun i _ => il + (i : ℕ)
    let ind ← d.ind.vstack (NpMat.of iind)
    return ⟨Y, X, ind⟩
  | _ => .ok d

/-- misc.py 272-304 on arrays: `ind` holds integers stored as floats; an index array of another length is an `IndexError`. -/
noncomputable def condExp (f ind : NpMat) : Except Err CondExp :=
  if ind.rows = f.rows then conditional_expectations (fun i : Fin f.rows => f.get i 0) fun i => ⌊ind.get i 0⌋
  else .error .indexError

/-- The column of the entries.  (Here no entry is nan, see C56, C57.) -/
def column {n : ℕ} (c : Fin n → Option ℝ) : Fin n → ℝ := fun i => (c i).getD 0

/-- response_surfaces.py 87-131 `train_with_interface` -/
noncomputable def train_with_interface (lib : Lib) (rng : Rng S) (surf : Surface R) (a : AVMap S (R × E))
    (fn : (m : ℕ) → SimRunners.Sim (S × Files × R × E) m) (N NMC : IntArg) : PyM (S × Files × R × E) (Option Unit) := do
  match ← av_design lib rng (some a) N NMC with
  | none => pure none
  | some d => do
    let d ← PyM.lift (addVertices a.dom d)
    let f ← SimRunners.run fn (.mat d.X)
    let c ← PyM.lift (condExp f d.ind)
    train surf a.subspaces (.mat d.Y) (.mat (NpMat.of (colMat (column c.Ef)))) (some (NpVec.of (column c.Vf)))
    return some ()

/-- response_surfaces.py 133-157 `predict_av` -/
def predict_av (surf : Surface R) (r : R) (Y : Arr) (compgrad : Bool) : Except Err (NpVec × Option NpMat) := surf.predict r Y compgrad

/-- response_surfaces.py 159-177 `gradient_av` -/
def gradient_av (surf : Surface R) (r : R) (Y : Arr) : Except Err (Option NpMat) := do
  let p ← surf.predict r Y true
  return p.2

/-- response_surfaces.py 179-208 `predict`.  `np.dot(None, W1.T)` raises `TypeError`. -/
def predict (surf : Surface R) (r : R) (s : Subspaces) (X : Arr) (compgrad : Bool) : Except Err (NpVec × Option NpMat) := do
  let YZ ← Domains.forward s X
  let p ← predict_av surf r (.mat YZ.1) compgrad
  if compgrad then
    match p.2, s.W1 with
    | some dfdy, some W1 => do
      let dfdx ← dfdy.dot W1.transpose
      return (p.1, some dfdx)
    | _, _ => .error .typeError
  else return (p.1, none)

/-- response_surfaces.py 210-226 `gradient` -/
def gradient (surf : Surface R) (r : R) (s : Subspaces) (X : Arr) : Except Err (Option NpMat) := do
  let p ← predict surf r s X true
  return p.2

/-- response_surfaces.py 228-229 `__call__` -/
def call (surf : Surface R) (r : R) (s : Subspaces) (X : Arr) : Except Err NpVec := do
  let p ← predict surf r s X false
  return p.1

end Model.ActiveSurfaces
