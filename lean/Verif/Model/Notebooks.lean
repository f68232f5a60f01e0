import Verif.Model.TestFunctions

/-!
# Model of the data that the notebooks pass to the library

Lines are those of the `.ipynb` files.  Simplified: the notebooks sample the inputs `x` in the units of the functions; here `x` is given.
-/

open Py Model.Misc Model.TestFunctions

namespace Model.Notebooks

variable {m M : ℕ}

/-- `XX`, `f` and `df`. -/
structure Data where
  XX : NpMat
  f : NpMat
  df : NpMat

/-- `XX = BoundedNormalizer(xl, xu).normalize(x)`, `f = fn(XX)`, `df = grad(XX)` -/
noncomputable def boxData (xl xu : Fin m → ℝ) (fn grad : Arr → Except Err NpMat) (x : NpMat) : Except Err Data := do
  let s ← BoundedNormalizer.init (List.ofFn xl) (List.ofFn xu)
  let XX ← s.normalize (.mat x)
  let f ← fn (.mat XX)
  let df ← grad (.mat XX)
  return ⟨XX, f, df⟩

/-- otlcircuit_example.ipynb 97-101, 120-121 -/
noncomputable def circuitData : NpMat → Except Err Data :=
  boxData ![50, 25, 0.5, 1.2, 0.25, 50] ![150, 70, 3, 2.5, 1.2, 300] circuit circuit_grad

/-- piston_example.ipynb 102-106, 125-126 -/
noncomputable def pistonData : NpMat → Except Err Data :=
  boxData ![30, 0.005, 0.002, 1000, 90000, 290, 340] ![60, 0.02, 0.01, 5000, 110000, 296, 360] piston piston_grad

/-- robot_example.ipynb 98-102, 121-122 -/
noncomputable def robotData : NpMat → Except Err Data :=
  boxData ![0, 0, 0, 0, 0, 0, 0, 0] ![2 * Real.pi, 2 * Real.pi, 2 * Real.pi, 2 * Real.pi, 1, 1, 1, 1] robot robot_grad

/-- wing_example.ipynb 105-109, 128-129 -/
noncomputable def wingData : NpMat → Except Err Data :=
  boxData ![150, 220, 6, -10, 16, 0.5, 0.08, 2.5, 1700, 0.025] ![200, 300, 10, 10, 45, 1, 0.18, 6, 2500, 0.08] wing wing_grad

/-- borehole_example.ipynb 103-113, 133-134; `x` has eight columns. -/
noncomputable def boreholeData (x : Matrix (Fin M) (Fin 8) ℝ) : Except Err Data := do
  let s ← BoundedNormalizer.init (List.ofFn ![63070, 990, 63.1, 700, 1120, 9855]) (List.ofFn ![115600, 1110, 116, 820, 1680, 12045])
  let t ← s.normalize (.mat (.of (Matrix.of fun i (j : Fin 6) => x i (Fin.natAdd 2 j))))
  let rw_norm : Matrix (Fin M) (Fin 1) ℝ := Matrix.of fun i _ => (x i 0 - 0.1) / 0.0161812
  let r_norm : Matrix (Fin M) (Fin 1) ℝ := Matrix.of fun i _ => (Real.log (x i 1) - 7.71) / 1.0056
  let XX := NpMat.of (Matrix.of fun (i : Fin M) (j : Fin 8) => if j = 0 then rw_norm i 0 else if j = 1 then r_norm i 0 else t.get i (j - 2))
  let f ← borehole id (.mat XX)
  let df ← borehole_grad id (.mat XX)
  return ⟨XX, f, df⟩

/-- basic.ipynb 90: the row called `ub`. -/
noncomputable def basicU : Fin 10 → ℝ := ![150, 220, 6, -10, 16, 0.5, 0.08, 2.5, 1700, 0.025]

/-- basic.ipynb 91: the row called `lb`. -/
noncomputable def basicL : Fin 10 → ℝ := ![200, 300, 10, 10, 45, 1, 0.18, 6, 2500, 0.08]

/-- basic.ipynb 86-94, 329-334; `x` has ten columns. -/
noncomputable def basicData (x : Matrix (Fin M) (Fin 10) ℝ) : Except Err Data := do
  let f ← tutorialWing (.mat (.of x))
  let XX := NpMat.of (Matrix.of fun i j => 2 * (x i j - basicL j) / (basicU j - basicL j) - 1)
  let df ← tutorialWing_grad (.mat (.of x))
  let df := NpMat.of (Matrix.of fun (i : Fin M) (j : Fin 10) => df.get i j * ((basicU j - basicL j) / 2))
  let df := NpMat.of (Matrix.of fun (i : Fin M) (j : Fin 10) => if j = 3 then df.get i j * (Real.pi / 180) else df.get i j)
  return ⟨XX, f, df⟩

end Model.Notebooks
