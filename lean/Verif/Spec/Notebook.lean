import Mathlib.Analysis.SpecialFunctions.Pow.Real
import Mathlib.Analysis.SpecialFunctions.Trigonometric.Basic
import Verif.Spec.RowGradient
import Verif.Spec.Zonotope
import Verif.Model.Notebooks

/-!
# The tables and formulas of the notebooks, and what their data should be
-/

open Py

namespace Spec

/-- The table of otlcircuit_example.ipynb. -/
noncomputable def circuitTable : Fin 6 → ℝ × ℝ := ![(50, 150), (25, 70), (1 / 2, 3), (6 / 5, 5 / 2), (1 / 4, 6 / 5), (50, 300)]

/-- The formula of otlcircuit_example.ipynb. -/
noncomputable def circuitFormula (x : Fin 6 → ℝ) : ℝ :=
  let Rb1 := x 0; let Rb2 := x 1; let Rf := x 2; let Rc1 := x 3; let Rc2 := x 4; let β := x 5
  (12 * Rb2 / (Rb1 + Rb2) + 0.74) * β * (Rc2 + 9) / (β * (Rc2 + 9) + Rf) + 11.35 * Rf / (β * (Rc2 + 9) + Rf)
    + 0.74 * Rf * β * (Rc2 + 9) / (Rc1 * (β * (Rc2 + 9) + Rf))

/-- The table of piston_example.ipynb. -/
noncomputable def pistonTable : Fin 7 → ℝ × ℝ :=
  ![(30, 60), (5 / 1000, 20 / 1000), (2 / 1000, 10 / 1000), (1000, 5000), (90000, 110000), (290, 296), (340, 360)]

/-- The formula of piston_example.ipynb. -/
noncomputable def pistonFormula (x : Fin 7 → ℝ) : ℝ :=
  let M := x 0; let S := x 1; let V0 := x 2; let k := x 3; let P0 := x 4; let Ta := x 5; let T0 := x 6
  let A := P0 * S + 19.62 * M - k * V0 / S
  let V := S / (2 * k) * (√(A ^ 2 + 4 * k * (P0 * V0 / T0) * Ta) - A)
  2 * Real.pi * √(M / (k + S ^ 2 * (P0 * V0 / T0) * (Ta / V ^ 2)))

/-- The table of robot_example.ipynb. -/
noncomputable def robotTable : Fin 8 → ℝ × ℝ := fun j => if (j : ℕ) < 4 then (0, 2 * Real.pi) else (0, 1)

/-- The formula of robot_example.ipynb. -/
noncomputable def robotFormula (x : Fin 8 → ℝ) : ℝ :=
  let θ : Fin 4 → ℝ := fun i => x (Fin.castAdd 4 i)
  let L : Fin 4 → ℝ := fun i => x (Fin.natAdd 4 i)
  √((∑ i, L i * Real.cos (∑ j with j ≤ i, θ j)) ^ 2 + (∑ i, L i * Real.sin (∑ j with j ≤ i, θ j)) ^ 2)

/-- The table of wing_example.ipynb and basic.ipynb; the sweep is in degrees. -/
noncomputable def wingTable : Fin 10 → ℝ × ℝ :=
  ![(150, 200), (220, 300), (6, 10), (-10, 10), (16, 45), (1 / 2, 1), (8 / 100, 18 / 100), (5 / 2, 6), (1700, 2500), (25 / 1000, 80 / 1000)]

/-- The formula of wing_example.ipynb and basic.ipynb. -/
noncomputable def wingFormula (x : Fin 10 → ℝ) : ℝ :=
  let Sw := x 0; let Wfw := x 1; let A := x 2; let Λ := x 3 * (Real.pi / 180); let q := x 4; let l := x 5; let tc := x 6; let Nz := x 7
  let Wdg := x 8; let Wp := x 9
  0.036 * Sw ^ (0.758 : ℝ) * Wfw ^ (0.0035 : ℝ) * (A / Real.cos Λ ^ 2) ^ (0.6 : ℝ) * q ^ (0.006 : ℝ) * l ^ (0.04 : ℝ)
    * (100 * tc / Real.cos Λ) ^ (-0.3 : ℝ) * (Nz * Wdg) ^ (0.49 : ℝ) + Sw * Wp

/-- The formula of borehole_example.ipynb. -/
noncomputable def boreholeFormula (x : Fin 8 → ℝ) : ℝ :=
  let rw := x 0; let r := x 1; let Tu := x 2; let Hu := x 3; let Tl := x 4; let Hl := x 5; let L := x 6; let Kw := x 7
  2 * Real.pi * Tu * (Hu - Hl) / (Real.log (r / rw) * (1 + 2 * L * Tu / (Real.log (r / rw) * rw ^ 2 * Kw) + Tu / Tl))

/-- For inputs `x` (rows satisfying `D`) the run returns normalised inputs, the values of the formula at `x`, and the gradients of the formula as a
function of the normalised inputs, which `un` maps to the inputs; the gradients where the value satisfies `P`. -/
def DataOK (m : ℕ) (D C : (Fin m → ℝ) → Prop) (un : (Fin m → ℝ) → Fin m → ℝ) (law : (Fin m → ℝ) → ℝ) (P : ℝ → Prop)
    (run : (M : ℕ) → Matrix (Fin M) (Fin m) ℝ → Except Err Model.Notebooks.Data) : Prop :=
  ∀ (M : ℕ) (x : Matrix (Fin M) (Fin m) ℝ), (∀ i, D (x i)) →
    ∃ (XX : Matrix (Fin M) (Fin m) ℝ) (F : Matrix (Fin M) (Fin 1) ℝ) (G : Matrix (Fin M) (Fin m) ℝ),
      run M x = .ok ⟨.of XX, .of F, .of G⟩ ∧
      ∀ i, C (XX i) ∧ un (XX i) = x i ∧ F i 0 = law (x i) ∧
        (P (F i 0) → HasFDerivAt (fun z => law (un z)) (∑ j, G i j • (ContinuousLinearMap.proj j : (Fin m → ℝ) →L[ℝ] ℝ)) (XX i))

/-- Rows of the box of a table. -/
def inTable {m : ℕ} (T : Fin m → ℝ × ℝ) (x : Fin m → ℝ) : Prop := ∀ j, (T j).1 ≤ x j ∧ x j ≤ (T j).2

/-- The inputs of normalised inputs. -/
noncomputable def ofTable {m : ℕ} (T : Fin m → ℝ × ℝ) (z : Fin m → ℝ) : Fin m → ℝ := fun j => (T j).1 + ((T j).2 - (T j).1) * ((z j + 1) / 2)

/-- The table of borehole_example.ipynb; the radii are a normal and a lognormal variable. -/
noncomputable def boreholeTable : Fin 6 → ℝ × ℝ :=
  ![(63070, 115600), (990, 1110), (631 / 10, 116), (700, 820), (1120, 1680), (9855, 12045)]

/-- Possible inputs of the borehole function. -/
def boreholeInputs (x : Fin 8 → ℝ) : Prop := 0 < x 0 ∧ x 0 < x 1 ∧ inTable boreholeTable fun j => x (Fin.natAdd 2 j)

/-- The radii from standard normal variables, the other inputs from normalised inputs. -/
noncomputable def ofBorehole (z : Fin 8 → ℝ) : Fin 8 → ℝ :=
  Fin.append (![1 / 10 + 161812 / 10000000 * z 0, Real.exp (771 / 100 + 10056 / 10000 * z 1)] : Fin 2 → ℝ)
    (ofTable boreholeTable fun j => z (Fin.natAdd 2 j))

end Spec
