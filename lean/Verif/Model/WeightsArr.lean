import Verif.Model.GradientsArr
import Verif.Model.Subspaces

/-!
# Model of the weights as run-time arrays: response_surfaces.py 74-127, subspaces.py 40-158 and 182-326

`Model.ResponseSurfaces` and `Model.Subspaces` have these functions for two-dimensional weights, and some of them for one column only.
Here the weights are missing or an array of one or two dimensions, with at least one column in the second case.
-/

open Py Model.Misc Model.ResponseSurfaces Model.Subspaces
open Model.GradientsArr (Weights)

namespace Model.WeightsArr

variable {S : Type} {M m : ℕ}

/-- A vector next to a two-dimensional array: NumPy puts an axis of length one in front. -/
def row {n : ℕ} (w : Fin n → ℝ) : NpMat := NpMat.of (Matrix.of fun (_ : Fin 1) j => w j)

/-- response_surfaces.py 102-103: `weights*A` -/
def weighted (weights : Weights) (A : NpMat) : Except Err NpMat :=
  match weights with
  | .none => .ok A
  | .vec _ w => NpMat.zipB (· * ·) (row w) A
  | .mat w => NpMat.zipB (· * ·) w A

/-- response_surfaces.py 105-127.  Coefficients for several columns of `f`, or for another number of monomials, do not fit into the shape
`(p,1)`; the `ValueError` comes after `X` and `f` have been stored. -/
noncomputable def fitArr (lib : ResponseSurfaces.Lib) (N : ℕ) (X : Matrix (Fin M) (Fin m) ℝ) (I : List (Fin m → ℕ)) (B f : NpMat) : PyM PolyApprox Unit :=
  if h : B.cols = I.length ∧ f.cols = 1 then do
    let A : Matrix (Fin B.rows) (Fin I.length) ℝ := B.val.submatrix id (Fin.cast h.1.symm)
    let b : Fin B.rows → ℝ := fun i => f.get i 0
    let c := lib.lstsq B.rows I.length A b
    let Rsqr := 1 - normSq (A.mulVec c - b) / (M * npVar b)
    PyM.modify fun s => { s with X := some (NpMat.of X), f := some f, poly_weights := some (NpVec.of c), Rsqr := some Rsqr }
    organize N I c
  else do
    PyM.modify fun s => { s with X := some (NpMat.of X), f := some f }
    PyM.raise .valueError

/-- response_surfaces.py 96-127: `train` after the input check. -/
noncomputable def trainMat (lib : ResponseSurfaces.Lib) (N : ℕ) (X : Matrix (Fin M) (Fin m) ℝ) (f : NpMat) (weights : Weights) : PyM PolyApprox Unit :=
  if M < (N + m).choose m then PyM.raise .exception
  else match polynomial_bases X N with
  | .error e => PyM.raise e
  | .ok ⟨I, B⟩ =>
    match weighted weights (NpMat.of B) with
    | .error e => PyM.raise e
    | .ok B => match weighted weights f with
      | .error e => PyM.raise e
      | .ok f => fitArr lib N X I B f

/-- response_surfaces.py 74-127 `PolynomialApproximation.train` -/
noncomputable def train (lib : ResponseSurfaces.Lib) (X f : Arr) (weights : Weights) : PyM PolyApprox Unit := do
  let s ← PyM.get
  match process_inputs_outputs X f with
  | .error e => PyM.raise e
  | .ok ⟨X, f⟩ => trainMat lib s.N X.val f weights

/-- subspaces.py 182-205 `active_subspace`; `df * None` is a `TypeError`. -/
noncomputable def active_subspace (lib : Subspaces.Lib) (df : Arr) (weights : Weights) : Except Err EigPair :=
  match weights with
  | .none => .error .typeError
  | .vec _ w => Subspaces.active_subspace lib df (row w)
  | .mat w => Subspaces.active_subspace lib df w

/-- subspaces.py 207-245 `ols_subspace`; `np.sqrt(None)` is an `AttributeError`. -/
noncomputable def ols_subspace (lib : Subspaces.Lib) (X f : Arr) (weights : Weights) : Except Err EigPair :=
  match weights with
  | .none => .error .attributeError
  | .vec _ w => Subspaces.ols_subspace lib X f (row w)
  | .mat w => Subspaces.ols_subspace lib X f w

/-- subspaces.py 247-291 `qphd_subspace` -/
noncomputable def qphd_subspace (lib : Subspaces.Lib) (X f : Arr) (weights : Weights) : Except Err EigPair := do
  let ⟨X, f⟩ ← process_inputs_outputs X f
  let gamma ← gamma X
  match (train lib.surf (.mat X) (.mat f) weights).run { N := 2 } with
  | (.error e, _) => .error e
  | (.ok _, pr) =>
    match pr.g, pr.H with
    | some b, some A =>
      let AA ← NpMat.dot A A.transpose
      let C ← NpMat.zipB (· + ·) ⟨b.n, b.n, Matrix.of fun i j => b.val i * b.val j⟩ (AA.map (gamma * ·))
      sorted_eigh lib C
    | _, _ => .error .attributeError

variable {E : Type}

/-- subspaces.py 293-326 `opg_subspace` -/
noncomputable def opg_subspace (lib : Subspaces.Lib) (rng : Rng S) (X f : Arr) (weights : Weights) : PyM (S × E) EigPair :=
  match process_inputs_outputs X f with
  | .error e => PyM.raise e
  | .ok ⟨X, f⟩ => do
    let df ← GradientsArr.local_linear_gradients lib.grad (fun _ => randint rng _) (.mat X) (.mat f) .none weights
    PyM.lift (Subspaces.active_subspace lib (.mat df) (NpMat.of (Matrix.of fun (_ : Fin df.rows) (_ : Fin 1) => 1 / (df.rows : ℝ))))

/-- subspaces.py 109-128 -/
noncomputable def ssCall (lib : Subspaces.Lib) (rng : Rng S) (t : SS) (X : Option NpMat) (f df : Option Arr) (weights : Weights) : PyM (S × E) EigPair :=
  match t with
  | .AS => match df with
    | some df => PyM.lift (active_subspace lib df weights)
    | none => PyM.raise .exception
  | .OLS => match X, f with
    | some X, some f => PyM.lift (ols_subspace lib (.mat X) f weights)
    | _, _ => PyM.raise .exception
  | .QPHD => match X, f with
    | some X, some f => PyM.lift (qphd_subspace lib (.mat X) f weights)
    | _, _ => PyM.raise .exception
  | .OPG => match X, f with
    | some X, some f => opg_subspace lib rng (.mat X) f weights
    | _, _ => PyM.raise .exception

/-- subspaces.py 104-106 -/
noncomputable def orDefault (M : ℕ) : Weights → Weights
  | .none => .mat (NpMat.of (Matrix.of fun (_ : Fin M) (_ : Fin 1) => 1 / (M : ℝ)))
  | w => w

/-- subspaces.py 411-484 `_bootstrap_ranges` with weights given as a vector of length `n`: `weights[ind,:]` raises `IndexError` in the first
replicate (before it, `X[ind,:]` and `f[ind,:]` may raise the same exception). -/
noncomputable def boot_vec (rng : Rng S) (X : Option NpMat) (df : Option Arr) (n : ℕ) : PyM (S × E) (Option BootRes) :=
  match df.mapM process_inputs with
  | .error e => PyM.raise e
  | .ok df =>
    let m := match df, X with
      | some df, _ => df.cols
      | none, some X => X.cols
      | none, none => 0
    if m = 0 then PyM.raise .valueError
    else match n with
      | 0 => PyM.raise .valueError
      | k + 1 => do
        let _ ← Rng.draw (randints rng k (k + 1))
        PyM.raise .indexError

/-- subspaces.py 136-147: the bootstrap. -/
noncomputable def bootStep (lib : Subspaces.Lib) (rng : Rng S) (t : SS) (p : EigPair) (X : Option NpMat) (f df : Option Arr) (weights : Weights)
    (ptype : String) (nboot : ℤ) : PyM (S × E) (Option BootRes) :=
  match weights with
  | .mat w => Subspaces.bootStep lib rng t p X f df w ptype nboot
  | .vec n _ =>
    if nboot > 0 then boot_vec rng X df n
    else if ptype = "RS" ∨ ptype = "LI" then PyM.raise .exception
    else pure none
  | .none => PyM.raise .attributeError

/-- subspaces.py 40-158 `compute`.  In the bootstrap the weights of the replicates are rows of `weights`, so that they have two dimensions. -/
noncomputable def compute (lib : Subspaces.Lib) (rng : Rng S) (X f df : Option Arr) (weights : Weights) (sstype ptype : String) (nboot : ℤ) : PyM (S × Subspaces) Unit := do
  let a ← PyM.lift (checkInputs X df)
  match SS.ofString sstype with
  | none => PyM.raise .exception
  | some t => do
    let p ← ssCall lib rng t a.X f a.df (orDefault a.M weights)
    modifyObj (withEig p)
    let b ← bootStep lib rng t p a.X f a.df (orDefault a.M weights) ptype nboot
    modifyObj (withBoot b)
    let n ← PyM.lift (chooseDim ptype p a.m b)
    partition (.int n)

end Model.WeightsArr
