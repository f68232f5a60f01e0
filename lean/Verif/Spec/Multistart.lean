import Mathlib.Data.Real.Basic

/-!
# Best of a list of runs
-/

namespace Spec

/-- `r` is the first run of smallest cost. -/
def IsFirstBest {γ : Type} (cost : γ → ℝ) (rs : List γ) (r : γ) : Prop :=
  ∃ (i : ℕ) (hi : i < rs.length), rs[i] = r ∧ (∀ r' ∈ rs, cost r ≤ cost r') ∧
    ∀ (j : ℕ) (hj : j < i), cost r < cost (rs[j]'(hj.trans hi))

end Spec

namespace Spec

/-- The first `k` draws from a generator in state `s`. -/
def draws {S α : Type} (f : S → α × S) : S → ℕ → List α
  | _, 0 => []
  | s, k + 1 => (f s).1 :: draws f (f s).2 k

/-- The generator state after `k` draws. -/
def stateAfter {S α : Type} (f : S → α × S) : S → ℕ → S
  | s, 0 => s
  | s, k + 1 => stateAfter f (f s).2 k

end Spec
