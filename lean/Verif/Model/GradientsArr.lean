import Verif.Model.Gradients

/-!
# Model of `local_linear_gradients` on run-time arrays, gradients.py 6-63

`Model.Gradients` has it for outputs and weights that match the inputs.  Here the outputs are any array and the weights are missing or
an array of one or two dimensions.
-/

open Py Model.Misc Model.Gradients

namespace Model.GradientsArr

variable {W : Type} {M m : ℕ}

/-- The argument `weights`. -/
inductive Weights where
  | none
  | vec (n : ℕ) (w : Fin n → ℝ)
  | mat (w : NpMat)

/-- gradients.py 49-50 and `np.sqrt(weights[ii])`, which has one entry for the default and for a number. -/
noncomputable def Weights.root (M : ℕ) (weights : Weights) (ii : ℕ) : Except Err (Σ c : ℕ, Fin c → ℝ) :=
  match weights with
  | .none => .ok ⟨1, fun _ => Real.sqrt (1 / M)⟩
  | .vec n w => if h : ii < n then .ok ⟨1, fun _ => Real.sqrt (w ⟨ii, h⟩)⟩ else .error .indexError
  | .mat w => if h : ii < w.rows then .ok ⟨w.cols, fun j => Real.sqrt (w.val ⟨ii, h⟩ j)⟩ else .error .indexError

/-- A matrix times a vector along its rows: `A * w`. -/
def scale {p n : ℕ} (A : Matrix (Fin p) (Fin n) ℝ) (w : Σ c : ℕ, Fin c → ℝ) : Except Err (Matrix (Fin p) (Fin n) ℝ) :=
  if h : w.1 = 1 then .ok (w.2 (Fin.cast h.symm 0) • A)
  else if h : w.1 = n then .ok (Matrix.of fun k j => A k j * w.2 (Fin.cast h.symm j))
  else .error .valueError

/-- gradients.py 60: `f[ind[:p]] * np.sqrt(weights[ii])` when it is one-dimensional or has one column.  Of a two-dimensional array with
another number of columns the least squares solution does not fit into a row of `df`, which is a `ValueError` like a failed
broadcast; `lstsq` of three-dimensional arrays is a `LinAlgError`.  Simplified: `p ≠ 1`, which holds for `m ≥ 1`. -/
def target (f : Arr) {p : ℕ} (s : Fin p → Fin M) (w : Σ c : ℕ, Fin c → ℝ) : Except Err (Fin p → ℝ) :=
  match f with
  | .scalar _ => .error .indexError
  | .vec n x =>
    if h : ∀ k, (s k : ℕ) < n then
      if h1 : w.1 = 1 then .ok fun k => x ⟨s k, h k⟩ * w.2 (Fin.cast h1.symm 0)
      else if h1 : w.1 = p then .ok fun k => x ⟨s k, h k⟩ * w.2 (Fin.cast h1.symm k)
      else .error .valueError
    else .error .indexError
  | .mat A =>
    if h : ∀ k, (s k : ℕ) < A.rows then
      if h1 : w.1 = 1 ∧ A.cols = 1 then .ok fun k => A.val ⟨s k, h k⟩ (Fin.cast h1.2.symm 0) * w.2 (Fin.cast h1.1.symm 0)
      else .error .valueError
    else .error .indexError
  | .nd a _ _ _ _ => if ∀ k, (s k : ℕ) < a then .error .linAlgError else .error .indexError

/-- gradients.py 55-62 -/
noncomputable def localModel (lib : Lib) (X : Matrix (Fin M) (Fin m) ℝ) (f : Arr) (weights : Weights) (p : ℕ) (ii : Fin M) :
    Except Err (Fin m → ℝ) :=
  let ind := neighbours lib X ii p
  if h : ind.length = p then do
    let s : Fin p → Fin M := fun k => ind.get (k.cast h.symm)
    let w ← weights.root M ii
    let A ← scale (Np.hstack (Np.ones p 1) (X.submatrix s id)) w
    let b ← target f s w
    return fun j => lib.lstsq A b (Fin.natAdd 1 j)
  else .error .valueError

/-- gradients.py 52-63 -/
noncomputable def localLoop (lib : Lib) (randint : PyM W (Fin M)) (X : Matrix (Fin M) (Fin m) ℝ) (f : Arr) (weights : Weights)
    (p MM : ℕ) : PyM W (Matrix (Fin MM) (Fin m) ℝ) :=
  (List.finRange MM).foldlM (fun df i => do
    let ii ← randint
    let g ← PyM.lift (localModel lib X f weights p ii)
    return Matrix.updateRow df i g) (Np.zeros MM m)

/-- gradients.py 6-63 `local_linear_gradients` -/
noncomputable def local_linear_gradients (lib : Lib) (randint : (M : ℕ) → PyM W (Fin M)) (X f : Arr) (p : PArg) (weights : Weights) :
    PyM W NpMat :=
  match process_inputs X with
  | .error e => PyM.raise e
  | .ok X =>
    match checkP X.rows X.cols p with
    | .error e => PyM.raise e
    | .ok p => do
      let df ← localLoop lib (randint X.rows) X.val f weights p (numModels X.rows X.cols)
      return NpMat.of df

end Model.GradientsArr
