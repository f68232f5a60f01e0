import Mathlib.LinearAlgebra.Matrix.NonsingularInverse
import Mathlib.LinearAlgebra.Matrix.Trace
import Mathlib.Data.Real.Basic
import Mathlib.Algebra.Order.BigOperators.Group.Finset
import Mathlib.Data.Fintype.BigOperators
import Mathlib.Tactic.Linarith
import Mathlib.Tactic.LinearCombination
import Mathlib.LinearAlgebra.Matrix.Notation

/-!
# The maximum principle for sums of eigenvalues
-/

open Matrix

namespace Proofs.KyFan

variable {m n : ℕ}

theorem card_lt (h : n ≤ m) : (∑ j : Fin m, if (j : ℕ) < n then (1 : ℝ) else 0) = n := by
  rw [Finset.sum_boole]
  have : (Finset.univ.filter fun j : Fin m => (j : ℕ) < n).card = n := by
    rw [← Fintype.card_subtype]
    have e : {j : Fin m // (j : ℕ) < n} ≃ Fin n :=
      { toFun := fun j => ⟨j.1, j.2⟩
        invFun := fun j => ⟨Fin.castLE h j, j.2⟩
        left_inv := fun j => rfl
        right_inv := fun j => rfl }
    rw [Fintype.card_congr e, Fintype.card_fin]
  rw [this]

/-- Weights in `[0, 1]` with sum `n` capture at most the `n` largest values. -/
theorem weighted_le {e : Fin m → ℝ} (he : Antitone e) {a : Fin m → ℝ} (h0 : ∀ j, 0 ≤ a j) (h1 : ∀ j, a j ≤ 1) (h : n ≤ m)
    (hs : ∑ j, a j = n) : ∑ j, e j * a j ≤ ∑ j : Fin m, if (j : ℕ) < n then e j else 0 := by
  rcases Nat.eq_zero_or_pos n with rfl | hn
  · have hz : ∀ j, a j = 0 := by
      intro j
      rw [Nat.cast_zero] at hs
      exact (Finset.sum_eq_zero_iff_of_nonneg fun i _ => h0 i).mp hs j (Finset.mem_univ j)
    simp [hz]
  · set t := e ⟨n - 1, by omega⟩ with ht
    have key : ∀ j : Fin m, e j * a j ≤ (if (j : ℕ) < n then e j else 0) + t * (a j - if (j : ℕ) < n then 1 else 0) := by
      intro j
      split_ifs with hj
      · have : t ≤ e j := he (by rw [Fin.le_def]; dsimp; omega)
        nlinarith [h1 j]
      · have : e j ≤ t := he (by rw [Fin.le_def]; dsimp; omega)
        nlinarith [h0 j]
    calc ∑ j, e j * a j ≤ ∑ j : Fin m, ((if (j : ℕ) < n then e j else 0) + t * (a j - if (j : ℕ) < n then 1 else 0)) :=
          Finset.sum_le_sum fun j _ => key j
      _ = _ := by
          rw [Finset.sum_add_distrib, ← Finset.mul_sum, Finset.sum_sub_distrib, hs, card_lt h, sub_self, mul_zero, add_zero]

/-- Bessel's inequality for orthonormal columns. -/
theorem bessel {V : Matrix (Fin m) (Fin n) ℝ} (hV : V.transpose * V = 1) (w : Fin m → ℝ) :
    V.transpose.mulVec w ⬝ᵥ V.transpose.mulVec w ≤ w ⬝ᵥ w := by
  set u := V.transpose.mulVec w with hu
  have h1 : 0 ≤ (w - V.mulVec u) ⬝ᵥ (w - V.mulVec u) := Finset.sum_nonneg fun i _ => mul_self_nonneg _
  have h2 : w ⬝ᵥ V.mulVec u = u ⬝ᵥ u := by
    rw [Matrix.dotProduct_mulVec, ← Matrix.mulVec_transpose, ← hu]
  have h3 : V.mulVec u ⬝ᵥ V.mulVec u = u ⬝ᵥ u := by
    rw [Matrix.dotProduct_mulVec, ← Matrix.mulVec_transpose, Matrix.mulVec_mulVec, hV, Matrix.one_mulVec]
  rw [sub_dotProduct, dotProduct_sub, dotProduct_sub, dotProduct_comm (V.mulVec u) w, h2, h3] at h1
  linarith

/-- Parseval's identity for an orthogonal matrix. -/
theorem parseval {W : Matrix (Fin m) (Fin m) ℝ} (hW : W.transpose * W = 1) (w : Fin m → ℝ) :
    W.transpose.mulVec w ⬝ᵥ W.transpose.mulVec w = w ⬝ᵥ w := by
  have hW' : W * W.transpose = 1 := mul_eq_one_comm.mp hW
  rw [Matrix.dotProduct_mulVec, Matrix.vecMul_transpose, Matrix.mulVec_mulVec, hW', Matrix.one_mulVec]

/-- Ky Fan: with an orthogonal eigenbasis sorted in descending order, no `n` orthonormal vectors capture more than the
first `n` eigenvectors. -/
theorem capture_le {A W : Matrix (Fin m) (Fin m) ℝ} {e : Fin m → ℝ} (hA : A * W = W * Matrix.diagonal e)
    (hW : W.transpose * W = 1) (he : Antitone e) (h : n ≤ m) {V : Matrix (Fin m) (Fin n) ℝ} (hV : V.transpose * V = 1) :
    (V.transpose * A * V).trace ≤ ∑ j : Fin m, if (j : ℕ) < n then e j else 0 := by
  have hW' : W * W.transpose = 1 := mul_eq_one_comm.mp hW
  have hAe : A = W * Matrix.diagonal e * W.transpose := by rw [← hA, Matrix.mul_assoc, hW', Matrix.mul_one]
  set U := W.transpose * V with hU
  have htr : (V.transpose * A * V).trace = ∑ j, e j * ∑ k, U j k ^ 2 := by
    have : V.transpose * A * V = U.transpose * (Matrix.diagonal e * U) := by
      rw [hAe, hU, Matrix.transpose_mul, Matrix.transpose_transpose]
      simp only [Matrix.mul_assoc]
    rw [this, Matrix.trace]
    simp only [Matrix.diag_apply, Matrix.mul_apply (M := U.transpose), Matrix.diagonal_mul, Matrix.transpose_apply]
    rw [Finset.sum_comm]
    refine Finset.sum_congr rfl fun j _ => ?_
    rw [Finset.mul_sum]
    exact Finset.sum_congr rfl fun k _ => by ring
  rw [htr]
  have hcol : ∀ k, ∑ j, U j k ^ 2 = 1 := by
    intro k
    have h1 : U.transpose * U = 1 := by
      rw [hU, Matrix.transpose_mul, Matrix.transpose_transpose, Matrix.mul_assoc, ← Matrix.mul_assoc W, hW', Matrix.one_mul, hV]
    have := congrFun (congrFun h1 k) k
    rw [Matrix.mul_apply, Matrix.one_apply_eq] at this
    rw [← this]
    exact Finset.sum_congr rfl fun j _ => by rw [Matrix.transpose_apply, sq]
  have hrow : ∀ j, ∑ k, U j k ^ 2 ≤ 1 := by
    intro j
    have h1 := bessel hV (fun i => W i j)
    have h2 : (fun i => W i j) ⬝ᵥ (fun i => W i j) = 1 := by
      have := congrFun (congrFun hW j) j
      rw [Matrix.mul_apply, Matrix.one_apply_eq] at this
      exact this
    rw [h2] at h1
    refine le_trans (le_of_eq ?_) h1
    rw [dotProduct]
    refine Finset.sum_congr rfl fun k _ => ?_
    have : U j k = V.transpose.mulVec (fun i => W i j) k := by
      rw [hU, Matrix.mul_apply, Matrix.mulVec, dotProduct]
      exact Finset.sum_congr rfl fun i _ => by rw [Matrix.transpose_apply, Matrix.transpose_apply, mul_comm]
    rw [this, sq]
  refine weighted_le he (fun j => Finset.sum_nonneg fun k _ => sq_nonneg _) hrow h ?_
  rw [Finset.sum_comm, Finset.sum_congr rfl fun k _ => hcol k]
  simp

end Proofs.KyFan
