import Verif.Model.Misc

/-!
# Model of `active_subspaces/utils/simrunners.py`

A simulation is an arbitrary computation over an arbitrary world: it may keep state between calls and it may
raise.  Gradient functions return the flattened entries of the array they produce.
-/

open Py

namespace Model.SimRunners

variable {W : Type} {M m : ℕ}

/-- A user simulation with `m` inputs. -/
abbrev Sim (W : Type) (m : ℕ) : Type := (Fin m → ℝ) → PyM W ℝ

/-- A user gradient function with `m` inputs; the list is the flattened result. -/
abbrev GradSim (W : Type) (m : ℕ) : Type := (Fin m → ℝ) → PyM W (List ℝ)

/-- simrunners.py 28-42 (and 112-125): `__init__`; `none` is an object without `__call__`. -/
def init {S : Type} : Option S → Except Err S
  | none => .error .typeError
  | some f => .ok f

/-- simrunners.py 72-83: the sequential loop of `SimulationRunner.run`, filling `F` entry by entry. -/
def runMat (sim : Sim W m) (X : Matrix (Fin M) (Fin m) ℝ) : PyM W (Matrix (Fin M) (Fin 1) ℝ) :=
  (List.finRange M).foldlM (fun F i => do
    let v ← sim (X i)
    return Matrix.updateRow F i (fun _ => v)) (Np.zeros M 1)

/-- simrunners.py 44-83 `SimulationRunner.run` on a run-time array.  The simulation is given for every
input dimension. -/
def run (sim : (m : ℕ) → Sim W m) (X : Arr) : PyM W NpMat :=
  match Misc.process_inputs X with
  | .error e => PyM.raise e
  | .ok X => do
    let F ← runMat (sim X.cols) X.val
    return NpMat.of F

/-- simrunners.py 158-170: the sequential loop of `SimulationGradientRunner.run`.  `df.reshape((1,m))`
raises `ValueError` when the gradient function returns an array of another size. -/
def runGradMat (dfun : GradSim W m) (X : Matrix (Fin M) (Fin m) ℝ) : PyM W (Matrix (Fin M) (Fin m) ℝ) :=
  (List.finRange M).foldlM (fun dF i => do
    let df ← dfun (X i)
    if df.length = m then
      return Matrix.updateRow dF i (fun j => df.getD j 0)
    else PyM.raise .valueError) (Np.zeros M m)

/-- simrunners.py 127-170 `SimulationGradientRunner.run` on a run-time array. -/
def runGrad (dfun : (m : ℕ) → GradSim W m) (X : Arr) : PyM W NpMat :=
  match Misc.process_inputs X with
  | .error e => PyM.raise e
  | .ok X => do
    let F ← runGradMat (dfun X.cols) X.val
    return NpMat.of F

end Model.SimRunners
