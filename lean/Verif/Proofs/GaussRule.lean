import Mathlib.Algebra.Polynomial.Eval.Degree
import Mathlib.Algebra.BigOperators.Fin
import Mathlib.Tactic.LinearCombination
import Mathlib.Analysis.Matrix.Spectrum
import Verif.Spec.OrthoPoly

/-!
# Gauss rules from the eigenvectors of the tridiagonal matrix (Golub and Welsch)
-/

open Polynomial Spec

namespace Proofs.GaussRule

variable {a b : ℕ → ℝ} {n : ℕ}

/-- `X π_k` for `k >= 1`. -/
theorem X_mul_succ (k : ℕ) : X * monicPoly a b (k + 1)
    = monicPoly a b (k + 2) + C (a (k + 1)) * monicPoly a b (k + 1) + C (b (k + 1)) * monicPoly a b k := by
  rw [monicPoly]
  ring

theorem X_mul_zero : X * monicPoly a b 0 = monicPoly a b 1 + C (a 0) * monicPoly a b 0 := by
  simp [monicPoly]

/-- The product of the off-diagonal entries. -/
noncomputable def cprod (b : ℕ → ℝ) (k : ℕ) : ℝ := ∏ i ∈ Finset.range k, Real.sqrt (b (i + 1))

theorem tridiag_col (a b : ℕ → ℝ) (i j : Fin n) : tridiag a b n i j =
    if (i : ℕ) = j then a j else if (i : ℕ) = j + 1 then Real.sqrt (b (j + 1))
      else if (i : ℕ) + 1 = j then Real.sqrt (b j) else 0 := by
  simp only [tridiag, Matrix.of_apply]
  split_ifs with h1 h2 h3 <;> first | rfl | omega | (rw [h1]) | (rw [h3]) | (congr 2)

theorem tridiag_symm (a b : ℕ → ℝ) (n : ℕ) : (tridiag a b n).transpose = tridiag a b n := by
  ext i j
  simp only [Matrix.transpose_apply, tridiag, Matrix.of_apply]
  split_ifs with h1 <;> first | rfl | omega | (rw [h1])

/-- `π_k(J) e_0` is a multiple of `e_k`, and vanishes for `k = n`. -/
theorem aeval_monic (hb : ∀ k, 0 ≤ b k) (hn : 0 < n) : ∀ k ≤ n, ∀ i : Fin n,
    (aeval (tridiag a b n) (monicPoly a b k)) i ⟨0, hn⟩ = if (i : ℕ) = k then cprod b k else 0 := by
  have mulE : ∀ (k : ℕ) (B : Matrix (Fin n) (Fin n) ℝ) (c : ℝ) (hk : k < n),
      (∀ i : Fin n, B i ⟨0, hn⟩ = if (i : ℕ) = k then c else 0) →
      ∀ i : Fin n, (tridiag a b n * B) i ⟨0, hn⟩ = tridiag a b n i ⟨k, hk⟩ * c := by
    intro k B c hk hB i
    rw [Matrix.mul_apply, Finset.sum_eq_single (⟨k, hk⟩ : Fin n)]
    · rw [hB, if_pos rfl]
    · intro j _ hj
      rw [hB, if_neg (fun h => hj (Fin.ext h)), mul_zero]
    · simp
  have step : ∀ k, k + 1 ≤ n → (∀ i : Fin n, (aeval (tridiag a b n) (monicPoly a b k)) i ⟨0, hn⟩
      = if (i : ℕ) = k then cprod b k else 0) ∧ (∀ i : Fin n, (aeval (tridiag a b n) (monicPoly a b (k + 1))) i ⟨0, hn⟩
      = if (i : ℕ) = k + 1 then cprod b (k + 1) else 0) := by
    intro k
    induction k with
    | zero =>
      intro _
      have h0 : ∀ i : Fin n, (aeval (tridiag a b n) (monicPoly a b 0)) i ⟨0, hn⟩
          = if (i : ℕ) = 0 then cprod b 0 else 0 := by
        intro i
        simp only [monicPoly, map_one, Matrix.one_apply, cprod, Finset.range_zero, Finset.prod_empty, Fin.ext_iff]
      refine ⟨h0, fun i => ?_⟩
      have h1 := mulE 0 _ _ hn h0 i
      have : (aeval (tridiag a b n) (monicPoly a b 1)) i ⟨0, hn⟩
          = (tridiag a b n * aeval (tridiag a b n) (monicPoly a b 0)) i ⟨0, hn⟩
            - a 0 * (aeval (tridiag a b n) (monicPoly a b 0)) i ⟨0, hn⟩ := by
        simp only [monicPoly, map_sub, aeval_X, aeval_C, map_one, mul_one, Matrix.sub_apply,
          Matrix.algebraMap_matrix_apply, Matrix.one_apply]
        simp
      rw [zero_add, this, h1, h0, tridiag_col]
      simp only [cprod, Finset.range_zero, Finset.prod_empty, Finset.range_one, Finset.prod_singleton]
      split_ifs <;> simp_all
    | succ k ih =>
      intro hk
      obtain ⟨hk0, hk1⟩ := ih (by omega)
      refine ⟨hk1, fun i => ?_⟩
      have h1 := mulE (k + 1) _ _ (by omega) hk1 i
      have : (aeval (tridiag a b n) (monicPoly a b (k + 2))) i ⟨0, hn⟩
          = (tridiag a b n * aeval (tridiag a b n) (monicPoly a b (k + 1))) i ⟨0, hn⟩
            - a (k + 1) * (aeval (tridiag a b n) (monicPoly a b (k + 1))) i ⟨0, hn⟩
            - b (k + 1) * (aeval (tridiag a b n) (monicPoly a b k)) i ⟨0, hn⟩ := by
        rw [monicPoly]
        simp only [map_sub, map_mul, aeval_X, aeval_C, sub_mul, Matrix.sub_apply]
        simp [Matrix.algebraMap_eq_diagonal]
      rw [this, h1, hk1, hk0, tridiag_col]
      dsimp only
      have hs : Real.sqrt (b (k + 1)) * Real.sqrt (b (k + 1)) = b (k + 1) := Real.mul_self_sqrt (hb _)
      have hc : cprod b (k + 1) = cprod b k * Real.sqrt (b (k + 1)) := Finset.prod_range_succ _ _
      have hc2 : cprod b (k + 1 + 1) = cprod b (k + 1) * Real.sqrt (b (k + 1 + 1)) := Finset.prod_range_succ _ _
      split_ifs <;> first | omega | skip
      · ring
      · rw [hc2]; ring
      · rw [hc]; linear_combination cprod b k * hs
      · ring
  intro k hk
  rcases k with _ | k
  · rcases Nat.lt_or_ge 0 n with h | h
    · exact (step 0 h).1
    · omega
  · exact (step k hk).2

variable (L : ℝ[X] →ₗ[ℝ] ℝ)

/-- A functional that annihilates all `π_k`, `k >= 1`, annihilates `X^j π_k` for `j < k`. -/
theorem orth (hL : ∀ k, L (monicPoly a b (k + 1)) = 0) : ∀ j k, j < k → L (X ^ j * monicPoly a b k) = 0 := by
  intro j
  induction j with
  | zero =>
    intro k hk
    obtain ⟨k, rfl⟩ : ∃ k', k = k' + 1 := ⟨k - 1, by omega⟩
    simpa using hL k
  | succ j ih =>
    intro k hk
    obtain ⟨k, rfl⟩ : ∃ k', k = k' + 1 := ⟨k - 1, by omega⟩
    have : X ^ (j + 1) * monicPoly a b (k + 1) = X ^ j * monicPoly a b (k + 2)
        + a (k + 1) • (X ^ j * monicPoly a b (k + 1)) + b (k + 1) • (X ^ j * monicPoly a b k) := by
      rw [pow_succ, mul_assoc, X_mul_succ, smul_eq_C_mul, smul_eq_C_mul]
      ring
    rw [this, map_add, map_add, map_smul, map_smul, ih _ (by omega), ih _ (by omega), ih _ (by omega)]
    simp

/-- Powers of the tridiagonal matrix reproduce the moments up to degree `2n - 1`. -/
theorem moments (hb : ∀ k, 0 ≤ b k) (hn : 0 < n) (hL1 : L 1 = 1) (hL : ∀ k, L (monicPoly a b (k + 1)) = 0) :
    ∀ j k, k ≤ n → j + k < 2 * n → (aeval (tridiag a b n) (X ^ j * monicPoly a b k)) ⟨0, hn⟩ ⟨0, hn⟩
      = L (X ^ j * monicPoly a b k) := by
  intro j
  induction j with
  | zero =>
    intro k hk _
    rw [pow_zero, one_mul, aeval_monic hb hn k hk]
    rcases k with _ | k
    · simp [cprod, monicPoly, hL1]
    · rw [hL k, if_neg (by simp)]
  | succ j ih =>
    intro k hk hjk
    rcases Nat.lt_or_ge k n with hkn | hkn
    · rcases k with _ | k
      · have : X ^ (j + 1) * monicPoly a b 0 = X ^ j * monicPoly a b 1 + a 0 • (X ^ j * monicPoly a b 0) := by
          rw [pow_succ, mul_assoc, X_mul_zero, smul_eq_C_mul]
          ring
        rw [this, map_add, map_add, map_smul, map_smul, Matrix.add_apply, Matrix.smul_apply,
          ih 1 (by omega) (by omega), ih 0 (by omega) (by omega)]
      · have : X ^ (j + 1) * monicPoly a b (k + 1) = X ^ j * monicPoly a b (k + 2)
            + a (k + 1) • (X ^ j * monicPoly a b (k + 1)) + b (k + 1) • (X ^ j * monicPoly a b k) := by
          rw [pow_succ, mul_assoc, X_mul_succ, smul_eq_C_mul, smul_eq_C_mul]
          ring
        rw [this]
        simp only [map_add, map_smul, Matrix.add_apply, Matrix.smul_apply]
        rw [ih (k + 2) (by omega) (by omega), ih (k + 1) (by omega) (by omega), ih k (by omega) (by omega)]
    · have hk' : k = n := by omega
      subst hk'
      rw [orth L hL (j + 1) k (by omega), map_mul, Matrix.mul_apply]
      refine Finset.sum_eq_zero fun i _ => ?_
      rw [aeval_monic hb hn k le_rfl i, if_neg (by omega), mul_zero]

theorem pow_entry (hb : ∀ k, 0 ≤ b k) (hn : 0 < n) (hL1 : L 1 = 1) (hL : ∀ k, L (monicPoly a b (k + 1)) = 0)
    (j : ℕ) (hj : j < 2 * n) : (tridiag a b n ^ j) ⟨0, hn⟩ ⟨0, hn⟩ = L (X ^ j) := by
  have := moments L hb hn hL1 hL j 0 (by omega) (by omega)
  simpa [monicPoly] using this

/-! ## Eigenvectors -/

/-- An eigenvector has a non-zero first component. -/
theorem eigvec_zero (hb : ∀ k, 1 ≤ k → 0 < b k) (hn : 0 < n) (v : Fin n → ℝ) (c : ℝ)
    (hv : (tridiag a b n).mulVec v = c • v) (h0 : v ⟨0, hn⟩ = 0) : v = 0 := by
  have key : ∀ k (hk : k < n), v ⟨k, hk⟩ = 0 := by
    intro k
    induction k using Nat.strong_induction_on with
    | _ k ih =>
      intro hk
      rcases k with _ | k
      · exact h0
      · have hrow := congrFun hv ⟨k, by omega⟩
        rw [Pi.smul_apply, ih k (by omega), smul_zero] at hrow
        simp only [Matrix.mulVec, dotProduct] at hrow
        rw [Finset.sum_eq_single (⟨k + 1, hk⟩ : Fin n)] at hrow
        · have hne : tridiag a b n ⟨k, by omega⟩ ⟨k + 1, hk⟩ ≠ 0 := by
            simp only [tridiag, Matrix.of_apply]
            rw [if_neg (by omega), if_true]
            exact (Real.sqrt_pos.mpr (hb _ (by omega))).ne'
          exact (mul_eq_zero.mp hrow).resolve_left hne
        · intro j _ hj
          rcases Nat.lt_or_ge j (k + 1) with h | h
          · rw [show j = ⟨j, j.2⟩ from rfl, ih j h, mul_zero]
          · have : (k + 1 : ℕ) ≠ j := fun h => hj (Fin.ext h.symm)
            simp only [tridiag, Matrix.of_apply]
            rw [if_neg (by omega), if_neg (by omega), if_neg (by omega), zero_mul]
        · simp
  funext i
  exact key i i.2

/-- Eigenvectors of the same eigenvalue are proportional. -/
theorem eigvec_prop (hb : ∀ k, 1 ≤ k → 0 < b k) (hn : 0 < n) (u v : Fin n → ℝ) (c : ℝ)
    (hu : (tridiag a b n).mulVec u = c • u) (hv : (tridiag a b n).mulVec v = c • v) :
    v ⟨0, hn⟩ • u = u ⟨0, hn⟩ • v := by
  have h := eigvec_zero (a := a) hb hn (v ⟨0, hn⟩ • u - u ⟨0, hn⟩ • v) c
    (by rw [Matrix.mulVec_sub, Matrix.mulVec_smul, Matrix.mulVec_smul, hu, hv, smul_sub,
          smul_comm c, smul_comm c]) (by simp [mul_comm])
  exact sub_eq_zero.mp h

end Proofs.GaussRule
