import Mathlib.Analysis.CStarAlgebra.Matrix
import Verif.Spec.Doubles
import Verif.Spec.Eigh

/-!
# Matrix products and eigenvalues in floating point
-/

open scoped Matrix.Norms.L2Operator

namespace Spec

/-- `FloatSum rd l s`: `s` is a value of the sum of the products of the pairs in `l`, computed with rounded multiplications
and additions in some order, with or without fused multiply-add. -/
inductive FloatSum (rd : ℝ → ℝ) : List (ℝ × ℝ) → ℝ → Prop
  | nil : FloatSum rd [] 0
  | mul (a b : ℝ) : FloatSum rd [(a, b)] (rd (a * b))
  | fma (a b : ℝ) {l : List (ℝ × ℝ)} {s : ℝ} : FloatSum rd l s → FloatSum rd ((a, b) :: l) (rd (a * b + s))
  | add {l l' : List (ℝ × ℝ)} {s t : ℝ} : FloatSum rd l s → FloatSum rd l' t → FloatSum rd (l ++ l') (rd (s + t))
  | perm {l l' : List (ℝ × ℝ)} {s : ℝ} : l.Perm l' → FloatSum rd l s → FloatSum rd l' s

/-- What a matrix product computes in floating point: every entry is a sum in an order of its own. -/
def FloatDot (rd : ℝ → ℝ) {p n q : ℕ} (A : Matrix (Fin p) (Fin n) ℝ) (B : Matrix (Fin n) (Fin q) ℝ) (C : Matrix (Fin p) (Fin q) ℝ) : Prop :=
  ∀ i j, FloatSum rd (List.ofFn fun k => (A i k, B k j)) (C i j)

/-- The symmetric matrix `eigh` takes its argument for: it reads the lower triangle only. -/
def lower {n : ℕ} (A : Matrix (Fin n) (Fin n) ℝ) : Matrix (Fin n) (Fin n) ℝ := Matrix.of fun i j => A (max i j) (min i j)

/-- What `np.linalg.eigh` returns in floating point: the exact eigenvalues of a symmetric matrix that differs from the given one
by at most `ε` relative to its norm, and vectors that differ by at most `ε` from orthonormal eigenvectors of that matrix. -/
def StableEigh {n : ℕ} (ε : ℝ) (A : Matrix (Fin n) (Fin n) ℝ) (e : Fin n → ℝ) (V : Matrix (Fin n) (Fin n) ℝ) : Prop :=
  ∃ E Q : Matrix (Fin n) (Fin n) ℝ, E.transpose = E ∧ ‖E‖ ≤ ε * ‖lower A‖ ∧ IsEigh (lower A + E) e Q ∧ ‖V - Q‖ ≤ ε

end Spec
