import Mathlib.Analysis.SpecialFunctions.Pow.Real

/-!
# Double precision

The numbers that a double holds, and rounding to the nearest of them.  Simplified: no bounds on the exponent (no overflow, no
subnormal numbers), and nothing is said about which of two equally near numbers is taken.
-/

namespace Spec

/-- `x` is a number with at most 53 significant bits. -/
def IsDouble (x : ℝ) : Prop := ∃ a e : ℤ, |a| < 2 ^ 53 ∧ x = a * (2 : ℝ) ^ e

/-- `d` is a double and none is nearer to `x`. -/
def Nearest (x d : ℝ) : Prop := IsDouble d ∧ ∀ d', IsDouble d' → |x - d| ≤ |x - d'|

/-- `p` is `np.power(N, 1.0/n)` in double precision: `1.0/n` is rounded, and the power of the rounded exponent is rounded again.  (The
division is correctly rounded by IEEE 754; that the power is too is more than the C library promises.) -/
def DoubleRoot (N : ℤ) (n : ℕ) (p : ℝ) : Prop := ∃ r, Nearest (1 / (n : ℝ)) r ∧ Nearest ((N : ℝ) ^ r) p

/-- `rd` rounds every number to a nearest double, as IEEE 754 requires of the result of each operation. -/
def Rounding (rd : ℝ → ℝ) : Prop := ∀ x, Nearest x (rd x)

end Spec
