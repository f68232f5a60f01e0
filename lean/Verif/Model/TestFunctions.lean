import Mathlib.Analysis.SpecialFunctions.Pow.Real
import Mathlib.Analysis.SpecialFunctions.Trigonometric.Basic
import Verif.Model.Misc

/-!
# Model of the functions of the tutorials

`tutorials/wing_functions.py` and `tutorials/test_functions/*/*_functions.py`.

The `*At` functions are the formulas for one row.  Where NumPy would produce `inf` or `nan` (a division by zero, a root or a
logarithm of a negative number) the formulas have the values of Lean's total operations; no theorem is about such rows.
Simplified: `tutorials/wing_functions.py` on an array of more than two dimensions is an error here.
-/

open Py Model.Misc

namespace Model.TestFunctions

/-- `np.atleast_2d` -/
def atleast2 : Arr → Arr
  | .scalar x => .mat ⟨1, 1, Matrix.of fun _ _ => x⟩
  | .vec n x => .mat ⟨1, n, Matrix.of fun _ j => x j⟩
  | A => A

/-- `x[:,0]`, ..., `x[:,c-1]` -/
def columns (c : ℕ) (X : NpMat) : Except Err (Matrix (Fin X.rows) (Fin c) ℝ) :=
  if h : c ≤ X.cols then .ok (Matrix.of fun i j => X.val i (Fin.castLE h j)) else .error .indexError

/-- The rows after `x = np.atleast_2d(xx.copy())` and `BoundedNormalizer(xl, xu).unnormalize(x)`, mapped by the formula `f`. -/
noncomputable def onBox {m d : ℕ} (xl xu : Fin m → ℝ) (f : (Fin m → ℝ) → Fin d → ℝ) (xx : Arr) : Except Err NpMat := do
  let s ← BoundedNormalizer.init (List.ofFn xl) (List.ofFn xu)
  let x ← s.unnormalize (atleast2 xx)
  let x ← columns m x
  return NpMat.of (Matrix.of fun i => f (x i))

/-! ## otlcircuit_functions.py -/

/-- otlcircuit_functions.py 12, 33 -/
noncomputable def circuitL : Fin 6 → ℝ := ![50, 25, 0.5, 1.2, 0.25, 50]

/-- otlcircuit_functions.py 13, 34 -/
noncomputable def circuitU : Fin 6 → ℝ := ![150, 70, 3, 2.5, 1.2, 300]

/-- otlcircuit_functions.py 16-22 -/
noncomputable def circuitAt (x : Fin 6 → ℝ) : ℝ :=
  let Rb1 := x 0; let Rb2 := x 1; let Rf := x 2; let Rc1 := x 3; let Rc2 := x 4; let beta := x 5
  let Vb1 := 12 * Rb2 / (Rb1 + Rb2)
  let denom := beta * (Rc2 + 9) + Rf
  (Vb1 + 0.74) * beta * (Rc2 + 9) / denom + 11.35 * Rf / denom + 0.74 * Rf * beta * (Rc2 + 9) / (Rc1 * denom)

/-- otlcircuit_functions.py 36-54 -/
noncomputable def circuitGradAt (x : Fin 6 → ℝ) : Fin 6 → ℝ :=
  let Rb1 := x 0; let Rb2 := x 1; let Rf := x 2; let Rc1 := x 3; let Rc2 := x 4; let beta := x 5
  let Vb1 := 12 * Rb2 / (Rb1 + Rb2)
  let denom := beta * (Rc2 + 9) + Rf
  let dvdRb1 := -12 * Rb2 * beta * (Rc2 + 9) / (denom * (Rb1 + Rb2) ^ 2)
  let dvdRb2 := beta * (Rc2 + 9) / denom * (12 / (Rb1 + Rb2) - 12 * Rb2 / (Rb1 + Rb2) ^ 2)
  let dvdRf := -(Vb1 + 0.74) * beta * (Rc2 + 9) / denom ^ 2 + 11.35 / denom - 11.35 * Rf / denom ^ 2
    + 0.74 * beta * (Rc2 + 9) / (Rc1 * denom) - 0.74 * Rf * beta * (Rc2 + 9) / (Rc1 * denom ^ 2)
  let dvdRc1 := -0.74 * Rf * beta * (Rc2 + 9) / (Rc1 ^ 2 * denom)
  let dvdRc2 := beta * (Vb1 + 0.74) / denom - (Rc2 + 9) * beta ^ 2 * (Vb1 + 0.74) / denom ^ 2 - 11.35 * Rf * beta / denom ^ 2
    + 0.74 * Rf * beta / (Rc1 * denom) - 0.74 * Rf * beta ^ 2 * (Rc2 + 9) / (Rc1 * denom ^ 2)
  let dvdbeta := (Vb1 + 0.74) * (Rc2 + 9) / denom - (Vb1 + 0.74) * beta * (Rc2 + 9) ^ 2 / denom ^ 2 - 11.35 * Rf * (Rc2 + 9) / denom ^ 2
    + 0.74 * Rf * (Rc2 + 9) / (Rc1 * denom) - 0.74 * Rf * beta * (Rc2 + 9) ^ 2 / (Rc1 * denom ^ 2)
  ![dvdRb1 * (150 - 50) / 2, dvdRb2 * (70 - 25) / 2, dvdRf * (3 - 0.5) / 2, dvdRc1 * (2.5 - 1.2) / 2, dvdRc2 * (1.2 - 0.25) / 2,
    dvdbeta * (300 - 50) / 2]

/-- otlcircuit_functions.py 3-22 `circuit` -/
noncomputable def circuit (xx : Arr) : Except Err NpMat := onBox circuitL circuitU (fun x (_ : Fin 1) => circuitAt x) xx

/-- otlcircuit_functions.py 24-54 `circuit_grad` -/
noncomputable def circuit_grad (xx : Arr) : Except Err NpMat := onBox circuitL circuitU circuitGradAt xx

/-! ## piston_functions.py -/

/-- piston_functions.py 12, 33 -/
noncomputable def pistonL : Fin 7 → ℝ := ![30, 0.005, 0.002, 1000, 90000, 290, 340]

/-- piston_functions.py 13, 34 -/
noncomputable def pistonU : Fin 7 → ℝ := ![60, 0.02, 0.01, 5000, 110000, 296, 360]

/-- piston_functions.py 16-23 -/
noncomputable def pistonAt (x : Fin 7 → ℝ) : ℝ :=
  let M := x 0; let S := x 1; let V0 := x 2; let k := x 3; let P0 := x 4; let Ta := x 5; let T0 := x 6
  let A := P0 * S + 19.62 * M - k * V0 / S
  let V := S / (2 * k) * (-A + Real.sqrt (A ^ 2 + 4 * k * P0 * V0 * Ta / T0))
  2 * Real.pi * Real.sqrt (M / (k + S ^ 2 * P0 * V0 * Ta / (T0 * V ^ 2)))

/-- piston_functions.py 37-56 -/
noncomputable def pistonGradAt (x : Fin 7 → ℝ) : Fin 7 → ℝ :=
  let M := x 0; let S := x 1; let V0 := x 2; let k := x 3; let P0 := x 4; let Ta := x 5; let T0 := x 6
  let A := P0 * S + 19.62 * M - k * V0 / S
  let V := S / (2 * k) * (-A + Real.sqrt (A ^ 2 + 4 * k * P0 * V0 * Ta / T0))
  let pi := Real.pi
  let Q := k + S ^ 2 * P0 * V0 * Ta / (T0 * V ^ 2)
  let R := A ^ 2 + 4 * k * P0 * V0 * Ta / T0
  let dCdM := pi * (M * Q) ^ (-0.5 : ℝ)
    + 2 * pi * M ^ (0.5 : ℝ) * Q ^ (-1.5 : ℝ) * S ^ 3 * P0 * V0 * Ta / (2 * k * T0 * V ^ 3) * (R ^ (-0.5 : ℝ) * A * 19.62 - 19.62)
  let dCdS := -pi * M ^ (0.5 : ℝ) * Q ^ (-1.5 : ℝ) * (2 * S * P0 * V0 * Ta / (T0 * V ^ 2)
    - 2 * S ^ 2 * P0 * V0 * Ta / (T0 * V ^ 3) * (V / S + S / (2 * k) * (R ^ (-0.5 : ℝ) * A * (P0 + k * V0 / S ^ 2) - P0 - k * V0 / S ^ 2)))
  let dCdV0 := -pi * M ^ (0.5 : ℝ) * Q ^ (-1.5 : ℝ) * (S ^ 2 * P0 * Ta / (T0 * V ^ 2)
    - 2 * S ^ 3 * P0 * V0 * Ta / (2 * k * T0 * V ^ 3) * (R ^ (-0.5 : ℝ) / 2 * (4 * k * P0 * Ta / T0 - 2 * A * k / S) + k / S))
  let dCdk := -pi * M ^ (0.5 : ℝ) * Q ^ (-1.5 : ℝ) * (1 - 2 * S ^ 2 * P0 * V0 * Ta / (T0 * V ^ 3)
    * (-V / k + S / (2 * k) * (R ^ (-0.5 : ℝ) / 2 * (4 * P0 * V0 * Ta / T0 - 2 * A * V0 / S) + V0 / S)))
  let dCdP0 := -pi * M ^ (0.5 : ℝ) * Q ^ (-1.5 : ℝ) * (S ^ 2 * V0 * Ta / (T0 * V ^ 2)
    - 2 * S ^ 3 * P0 * V0 * Ta / (2 * k * T0 * V ^ 3) * (R ^ (-0.5 : ℝ) / 2 * (4 * k * V0 * Ta / T0 + 2 * A * S) - S))
  let dCdTa := -pi * M ^ (0.5 : ℝ) * Q ^ (-1.5 : ℝ) * (S ^ 2 * P0 * V0 / (T0 * V ^ 2)
    - 2 * S ^ 3 * P0 * V0 * Ta / (2 * k * T0 * V ^ 3) * (R ^ (-0.5 : ℝ) / 2 * 4 * k * P0 * V0 / T0))
  let dCdT0 := pi * M ^ (0.5 : ℝ) * Q ^ (-1.5 : ℝ) * (S ^ 2 * P0 * V0 * Ta / (T0 ^ 2 * V ^ 2)
    + 2 * S ^ 3 * P0 * V0 * Ta / (2 * k * T0 * V ^ 3) * (-R ^ (-0.5 : ℝ) / 2 * 4 * k * P0 * V0 * Ta / T0 ^ 2))
  ![dCdM * (60 - 30) / 2, dCdS * (0.02 - 0.005) / 2, dCdV0 * (0.01 - 0.002) / 2, dCdk * (5000 - 1000) / 2, dCdP0 * (110000 - 90000) / 2,
    dCdTa * (296 - 290) / 2, dCdT0 * (360 - 340) / 2]

/-- piston_functions.py 3-23 `piston` -/
noncomputable def piston (xx : Arr) : Except Err NpMat := onBox pistonL pistonU (fun x (_ : Fin 1) => pistonAt x) xx

/-- piston_functions.py 25-56 `piston_grad` -/
noncomputable def piston_grad (xx : Arr) : Except Err NpMat := onBox pistonL pistonU pistonGradAt xx

/-! ## robot_functions.py -/

/-- robot_functions.py 12, 36 -/
def robotL : Fin 8 → ℝ := ![0, 0, 0, 0, 0, 0, 0, 0]

/-- robot_functions.py 13, 37 -/
noncomputable def robotU : Fin 8 → ℝ := ![2 * Real.pi, 2 * Real.pi, 2 * Real.pi, 2 * Real.pi, 1, 1, 1, 1]

/-- robot_functions.py 22, 46 -/
noncomputable def robotX (x : Fin 8 → ℝ) : ℝ :=
  let t1 := x 0; let t2 := x 1; let t3 := x 2; let t4 := x 3
  let L1 := x 4; let L2 := x 5; let L3 := x 6; let L4 := x 7
  L1 * Real.cos t1 + L2 * Real.cos (t1 + t2) + L3 * Real.cos (t1 + t2 + t3) + L4 * Real.cos (t1 + t2 + t3 + t4)

/-- robot_functions.py 23, 47 -/
noncomputable def robotY (x : Fin 8 → ℝ) : ℝ :=
  let t1 := x 0; let t2 := x 1; let t3 := x 2; let t4 := x 3
  let L1 := x 4; let L2 := x 5; let L3 := x 6; let L4 := x 7
  L1 * Real.sin t1 + L2 * Real.sin (t1 + t2) + L3 * Real.sin (t1 + t2 + t3) + L4 * Real.sin (t1 + t2 + t3 + t4)

/-- robot_functions.py 25 -/
noncomputable def robotAt (x : Fin 8 → ℝ) : ℝ := (robotX x ^ 2 + robotY x ^ 2) ^ (0.5 : ℝ)

/-- robot_functions.py 40-61 -/
noncomputable def robotGradAt (x : Fin 8 → ℝ) : Fin 8 → ℝ :=
  let t1 := x 0; let t2 := x 1; let t3 := x 2; let t4 := x 3
  let L1 := x 4; let L2 := x 5; let L3 := x 6
  let u := robotX x
  let v := robotY x
  let cos := Real.cos
  let sin := Real.sin
  let dfdt1 : ℝ := 0
  let dfdt2 := -((u ^ 2 + v ^ 2) ^ (-0.5 : ℝ) * (L1 * (v * cos t1 - u * sin t1)))
  let dfdt3 := -((u ^ 2 + v ^ 2) ^ (-0.5 : ℝ) * (L1 * (v * cos t1 - u * sin t1) + L2 * (v * cos (t1 + t2) - u * sin (t1 + t2))))
  let dfdt4 := -((u ^ 2 + v ^ 2) ^ (-0.5 : ℝ) * (L1 * (v * cos t1 - u * sin t1) + L2 * (v * cos (t1 + t2) - u * sin (t1 + t2))
    + L3 * (v * cos (t1 + t2 + t3) - u * sin (t1 + t2 + t3))))
  let dfdL1 := 0.5 * (u ^ 2 + v ^ 2) ^ (-0.5 : ℝ) * (2 * u * cos t1 + 2 * v * sin t1)
  let dfdL2 := 0.5 * (u ^ 2 + v ^ 2) ^ (-0.5 : ℝ) * (2 * u * cos (t1 + t2) + 2 * v * sin (t1 + t2))
  let dfdL3 := 0.5 * (u ^ 2 + v ^ 2) ^ (-0.5 : ℝ) * (2 * u * cos (t1 + t2 + t3) + 2 * v * sin (t1 + t2 + t3))
  let dfdL4 := 0.5 * (u ^ 2 + v ^ 2) ^ (-0.5 : ℝ) * (2 * u * cos (t1 + t2 + t3 + t4) + 2 * v * sin (t1 + t2 + t3 + t4))
  ![dfdt1 * (2 * Real.pi) / 2, dfdt2 * (2 * Real.pi) / 2, dfdt3 * (2 * Real.pi) / 2, dfdt4 * (2 * Real.pi) / 2, dfdL1 * 1 / 2, dfdL2 * 1 / 2,
    dfdL3 * 1 / 2, dfdL4 * 1 / 2]

/-- robot_functions.py 3-25 `robot` -/
noncomputable def robot (xx : Arr) : Except Err NpMat := onBox robotL robotU (fun x (_ : Fin 1) => robotAt x) xx

/-- robot_functions.py 27-61 `robot_grad` -/
noncomputable def robot_grad (xx : Arr) : Except Err NpMat := onBox robotL robotU robotGradAt xx

/-! ## wing_functions.py, both versions -/

/-- test_functions/wing_weight/wing_functions.py 12, 29 -/
noncomputable def wingL : Fin 10 → ℝ := ![150, 220, 6, -10, 16, 0.5, 0.08, 2.5, 1700, 0.025]

/-- test_functions/wing_weight/wing_functions.py 13, 30 -/
noncomputable def wingU : Fin 10 → ℝ := ![200, 300, 10, 10, 45, 1, 0.18, 6, 2500, 0.08]

/-- wing_functions.py 23-26 (the other version: 33-36): the variable `Q`. -/
noncomputable def wingQ (x : Fin 10 → ℝ) : ℝ :=
  let Sw := x 0; let Wfw := x 1; let A := x 2; let L := x 3 * Real.pi / 180; let q := x 4
  let l := x 5; let tc := x 6; let Nz := x 7; let Wdg := x 8
  0.036 * Sw ^ (0.758 : ℝ) * Wfw ^ (0.0035 : ℝ) * A ^ (0.6 : ℝ) * Real.cos L ^ (-0.9 : ℝ) * q ^ (0.006 : ℝ) * l ^ (0.04 : ℝ)
    * (100 : ℝ) ^ (-0.3 : ℝ) * tc ^ (-0.3 : ℝ) * Nz ^ (0.49 : ℝ) * Wdg ^ (0.49 : ℝ)

/-- wing_functions.py 11-14 (the other version: 16-19) -/
noncomputable def wingAt (x : Fin 10 → ℝ) : ℝ :=
  let Sw := x 0; let Wfw := x 1; let A := x 2; let L := x 3 * Real.pi / 180; let q := x 4
  let l := x 5; let tc := x 6; let Nz := x 7; let Wdg := x 8; let Wp := x 9
  0.036 * Sw ^ (0.758 : ℝ) * Wfw ^ (0.0035 : ℝ) * A ^ (0.6 : ℝ) * Real.cos L ^ (-0.9 : ℝ) * q ^ (0.006 : ℝ) * l ^ (0.04 : ℝ)
    * (100 : ℝ) ^ (-0.3 : ℝ) * tc ^ (-0.3 : ℝ) * Nz ^ (0.49 : ℝ) * Wdg ^ (0.49 : ℝ) + Sw * Wp

/-- wing_functions.py 28-37: the row `[dfdSw, ..., dfdWp]` (the other version: 38-47). -/
noncomputable def wingPartials (x : Fin 10 → ℝ) : Fin 10 → ℝ :=
  let Sw := x 0; let Wfw := x 1; let A := x 2; let L := x 3 * Real.pi / 180; let q := x 4
  let l := x 5; let tc := x 6; let Nz := x 7; let Wdg := x 8; let Wp := x 9
  let Q := wingQ x
  ![0.758 * Q / Sw + Wp, 0.0035 * Q / Wfw, 0.6 * Q / A, 0.9 * Q * Real.sin L / Real.cos L, 0.006 * Q / q, 0.04 * Q / l, -0.3 * Q / tc,
    0.49 * Q / Nz, 0.49 * Q / Wdg, Sw]

/-- test_functions/wing_weight/wing_functions.py 50-51 -/
noncomputable def wingGradAt (x : Fin 10 → ℝ) : Fin 10 → ℝ :=
  let d := wingPartials x
  ![d 0 * (200 - 150) / 2, d 1 * (300 - 220) / 2, d 2 * (10 - 6) / 2, d 3 * (10 + 10) * Real.pi / (2 * 180), d 4 * (45 - 16) / 2,
    d 5 * (1 - 0.5) / 2, d 6 * (0.18 - 0.08) / 2, d 7 * (6 - 2.5) / 2, d 8 * (2500 - 1700) / 2, d 9 * (0.08 - 0.025) / 2]

/-- test_functions/wing_weight/wing_functions.py 3-19 `wing` -/
noncomputable def wing (xx : Arr) : Except Err NpMat := onBox wingL wingU (fun x (_ : Fin 1) => wingAt x) xx

/-- test_functions/wing_weight/wing_functions.py 21-51 `wing_grad` -/
noncomputable def wing_grad (xx : Arr) : Except Err NpMat := onBox wingL wingU wingGradAt xx

/-- The two functions of tutorials/wing_functions.py map the rows as they are. -/
def onRows {m d : ℕ} (f : (Fin m → ℝ) → Fin d → ℝ) (xx : Arr) : Except Err NpMat := do
  let x ← process_inputs (atleast2 xx)
  let x ← columns m x
  return NpMat.of (Matrix.of fun i => f (x i))

/-- tutorials/wing_functions.py 3-14 `wing` -/
noncomputable def tutorialWing (xx : Arr) : Except Err NpMat := onRows (fun x (_ : Fin 1) => wingAt x) xx

/-- tutorials/wing_functions.py 16-39 `wing_grad` -/
noncomputable def tutorialWing_grad (xx : Arr) : Except Err NpMat := onRows wingPartials xx

/-! ## borehole_functions.py -/

/-- borehole_functions.py 13, 35 -/
noncomputable def boreholeL : Fin 6 → ℝ := ![63070, 990, 63.1, 700, 1120, 9855]

/-- borehole_functions.py 14, 36 -/
noncomputable def boreholeU : Fin 6 → ℝ := ![115600, 1110, 116, 820, 1680, 12045]

/-- borehole_functions.py 8-17, 30-39: the rows after the assignments into the copy `x` of the argument.  `store` is the conversion to
the element type of the argument: the identity for an array of floats, truncation for an array of integers. -/
noncomputable def boreholeRows {d : ℕ} (store : ℝ → ℝ) (f : (Fin 8 → ℝ) → Fin d → ℝ) (xx : Arr) : Except Err NpMat := do
  let x ← process_inputs (atleast2 xx)
  let s ← BoundedNormalizer.init (List.ofFn boreholeL) (List.ofFn boreholeU)
  let t ← s.unnormalize (.mat ⟨x.rows, x.cols - 2, Matrix.of fun i j => x.get i (j + 2)⟩)
  if x.cols - 2 = t.cols ∧ x.rows = t.rows then
    return NpMat.of (Matrix.of fun (i : Fin x.rows) => f fun j =>
      if j = 0 then store (0.0161812 * x.get i 0 + 0.1)
      else if j = 1 then store (Real.exp (1.0056 * x.get i 1 + 7.71))
      else store (t.get i (j - 2)))
  else .error .valueError

/-- borehole_functions.py 19-24 -/
noncomputable def boreholeAt (x : Fin 8 → ℝ) : ℝ :=
  let rw := x 0; let r := x 1; let Tu := x 2; let Hu := x 3
  let Tl := x 4; let Hl := x 5; let L := x 6; let Kw := x 7
  2 * Real.pi * Tu * (Hu - Hl) / (Real.log (r / rw) * (1 + 2 * L * Tu / (Real.log (r / rw) * rw ^ 2 * Kw) + Tu / Tl))

/-- borehole_functions.py 41-60 -/
noncomputable def boreholeGradAt (x : Fin 8 → ℝ) : Fin 8 → ℝ :=
  let rw := x 0; let r := x 1; let Tu := x 2; let Hu := x 3
  let Tl := x 4; let Hl := x 5; let L := x 6; let Kw := x 7
  let pi := Real.pi
  let Q := 1 + 2 * L * Tu / (Real.log (r / rw) * rw ^ 2 * Kw) + Tu / Tl
  let l := Real.log (r / rw)
  let dfdrw := -2 * pi * Tu * (Hu - Hl) * (Q * l) ^ (-2 : ℤ) * (-Q / rw - l * 2 * L * Tu / Kw * (l * rw ^ 2) ^ (-2 : ℤ) * (-rw + 2 * rw * l))
  let dfdr := -2 * pi * Tu * (Hu - Hl) * (l * Q) ^ (-2 : ℤ) * (Q / r - 2 * L * Tu / (r * rw ^ 2 * Kw * l))
  let dfdTu := 2 * pi * (Hu - Hl) / (l * Q) - 2 * pi * Tu * (Hu - Hl) * (l * Q) ^ (-2 : ℤ) * (l * (2 * L / (l * rw ^ 2 * Kw) + 1 / Tl))
  let dfdHu := 2 * pi * Tu / (l * Q)
  let dfdTl := 2 * pi * Tu * (Hu - Hl) * (l * Q) ^ (-2 : ℤ) * l * Tu / Tl ^ 2
  let dfdHl := -2 * pi * Tu / (l * Q)
  let dfdL := -2 * pi * Tu * (Hu - Hl) * (l * Q) ^ (-2 : ℤ) * 2 * Tu / (rw ^ 2 * Kw)
  let dfdKw := 2 * pi * Tu * (Hu - Hl) * (l * Q) ^ (-2 : ℤ) * 2 * L * Tu / (rw ^ 2 * Kw ^ 2)
  let r' := (Real.log r - 7.71) / 1.0056
  ![dfdrw * 0.0161812, dfdr * 1.0056 * Real.exp (1.0056 * r' + 7.71), dfdTu * (115600 - 63070) / 2, dfdHu * (1110 - 990) / 2,
    dfdTl * (116 - 63.1) / 2, dfdHl * (820 - 700) / 2, dfdL * (1680 - 1120) / 2, dfdKw * (12045 - 9855) / 2]

/-- borehole_functions.py 4-24 `borehole` -/
noncomputable def borehole (store : ℝ → ℝ) (xx : Arr) : Except Err NpMat := boreholeRows store (fun x (_ : Fin 1) => boreholeAt x) xx

/-- borehole_functions.py 26-60 `borehole_grad` -/
noncomputable def borehole_grad (store : ℝ → ℝ) (xx : Arr) : Except Err NpMat := boreholeRows store boreholeGradAt xx

end Model.TestFunctions
