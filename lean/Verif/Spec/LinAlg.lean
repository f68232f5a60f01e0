import Mathlib.Data.Matrix.Mul
import Mathlib.Data.Real.Basic
import Mathlib.Order.Monotone.Basic
import Mathlib.Data.Fin.Tuple.Sort

/-!
# Contracts of the numerical library, independent of the model
-/

namespace Spec

/-- Squared Euclidean length. -/
def sqNorm {n : ℕ} (v : Fin n → ℝ) : ℝ := ∑ i, v i ^ 2

/-- `u` minimises `|A u - b|^2`. -/
def IsLeastSquares {r c : ℕ} (A : Matrix (Fin r) (Fin c) ℝ) (b : Fin r → ℝ) (u : Fin c → ℝ) : Prop :=
  ∀ v, sqNorm (A.mulVec u - b) ≤ sqNorm (A.mulVec v - b)

/-- Contract of `np.linalg.lstsq(A, b)[0]`: a least-squares solution of smallest norm. -/
def LstsqContract (lstsq : ∀ {r c : ℕ}, Matrix (Fin r) (Fin c) ℝ → (Fin r → ℝ) → (Fin c → ℝ)) : Prop :=
  ∀ {r c : ℕ} (A : Matrix (Fin r) (Fin c) ℝ) (b : Fin r → ℝ),
    IsLeastSquares A b (lstsq A b) ∧
      ∀ v, IsLeastSquares A b v → sqNorm (lstsq A b) ≤ sqNorm v

/-- `σ` sorts `v` in ascending order. -/
structure IsArgsort {n : ℕ} (v : Fin n → ℝ) (σ : Fin n → Fin n) : Prop where
  bij : Function.Bijective σ
  mono : Monotone (v ∘ σ)

/-- Contract of `np.argsort`: any sorting permutation (ties in any order). -/
def ArgsortContract (argsort : ∀ {n : ℕ}, (Fin n → ℝ) → (Fin n → Fin n)) : Prop :=
  ∀ {n : ℕ} (v : Fin n → ℝ), IsArgsort v (argsort v)

/-- The columns of `A` are linearly independent. -/
def FullColumnRank {r c : ℕ} (A : Matrix (Fin r) (Fin c) ℝ) : Prop :=
  Function.Injective A.mulVec

/-- The argsort contract can be met. -/
theorem argsortContract_sort : ArgsortContract (fun v => (Tuple.sort v : Equiv.Perm _)) := by
  intro n v
  exact ⟨(Tuple.sort v).bijective, Tuple.monotone_sort v⟩

end Spec
