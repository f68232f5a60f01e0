import Mathlib.Data.Real.Basic
import Mathlib.Data.Matrix.Mul
import Mathlib.Data.Set.Card
import Mathlib.LinearAlgebra.LinearIndependent.Defs

/-!
# Sign vectors, cubes and zonotopes
-/

namespace Spec

variable {m n : ℕ}

/-- The sign vectors of `W1 z` over the `z` for which no entry of `W1 z` vanishes. -/
def signVectors (W1 : Matrix (Fin m) (Fin n) ℝ) : Set (Fin m → ℝ) :=
  {x | ∃ z : Fin n → ℝ, ∀ i, (0 < ∑ j, W1 i j * z j ∧ x i = 1) ∨ (∑ j, W1 i j * z j < 0 ∧ x i = -1)}

/-- The directions in which the corner `x` of the cube is the only one that is farthest: `x` is the sign of `W1 z`. -/
def directions (W1 : Matrix (Fin m) (Fin n) ℝ) (x : Fin m → ℝ) : Set (Fin n → ℝ) := {z | ∀ i, 0 < x i * ∑ j, W1 i j * z j}

/-- The cube `[-1, 1]^m`. -/
def cube (m : ℕ) : Set (Fin m → ℝ) := {x | ∀ i, -1 ≤ x i ∧ x i ≤ 1}

/-- The active variables of the points of the cube. -/
def zonotope (W1 : Matrix (Fin m) (Fin n) ℝ) : Set (Fin n → ℝ) := {y | ∃ x ∈ cube m, ∀ j, y j = ∑ i, W1 i j * x i}

/-- General position: up to `n` rows are always linearly independent. -/
def GeneralPosition (W1 : Matrix (Fin m) (Fin n) ℝ) : Prop :=
  ∀ s : Finset (Fin m), s.card ≤ n → LinearIndependent ℝ fun i : s => W1 i

/-- domains.py 505: the inactive variables `z` with `-1 <= W1 y + W2 z <= 1`. -/
def inactive {k : ℕ} (W1 : Matrix (Fin m) (Fin n) ℝ) (W2 : Matrix (Fin m) (Fin k) ℝ) (y : Fin n → ℝ) : Set (Fin k → ℝ) :=
  {z | ∀ i, -1 ≤ ∑ j, W1 i j * y j + ∑ j, W2 i j * z j ∧ ∑ j, W1 i j * y j + ∑ j, W2 i j * z j ≤ 1}

end Spec
