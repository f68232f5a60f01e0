import Mathlib.Analysis.Matrix.Spectrum
import Mathlib.LinearAlgebra.Matrix.Charpoly.Eigs
import Mathlib.Tactic.LinearCombination
import Verif.Spec.Eig
import Verif.Proofs.GaussRule

/-!
# Eigenvalues of symmetric matrices under the contract of `eig`
-/

open Polynomial Spec

namespace Proofs.EigSymm

variable {n : ℕ}

theorem isHermitian_of_symm {A : Matrix (Fin n) (Fin n) ℝ} (h : A.transpose = A) : A.IsHermitian := by
  rw [Matrix.IsHermitian, Matrix.conjTranspose_eq_transpose_of_trivial, h]

/-- Every symmetric matrix has a result allowed by the contract. -/
theorem exists_isEig {A : Matrix (Fin n) (Fin n) ℝ} (hA : A.transpose = A) :
    ∃ e V, IsEig A e V ∧ V.transpose * V = 1 := by
  have h := isHermitian_of_symm hA
  have hU : (h.eigenvectorUnitary : Matrix (Fin n) (Fin n) ℝ).transpose * (h.eigenvectorUnitary : Matrix (Fin n) (Fin n) ℝ) = 1 := by
    have := (Matrix.mem_unitaryGroup_iff').mp h.eigenvectorUnitary.2
    rwa [Matrix.star_eq_conjTranspose, Matrix.conjTranspose_eq_transpose_of_trivial] at this
  refine ⟨h.eigenvalues, h.eigenvectorUnitary, ⟨?_, ?_, ?_⟩, hU⟩
  · ext i j
    rw [Matrix.mul_diagonal]
    have := congrFun (h.mulVec_eigenvectorBasis j) i
    rw [mul_comm]
    exact this
  · intro j
    have := congrFun (congrFun hU j) j
    rw [Matrix.mul_apply, Matrix.one_apply_eq] at this
    rw [← this]
    exact Finset.sum_congr rfl fun i _ => by rw [Matrix.transpose_apply, sq]
  · exact h.charpoly_eq

theorem vec_of {A : Matrix (Fin n) (Fin n) ℝ} {e : Fin n → ℝ} {V : Matrix (Fin n) (Fin n) ℝ}
    (h : A * V = V * Matrix.diagonal e) (j : Fin n) : A.mulVec (fun i => V i j) = e j • fun i => V i j := by
  funext i
  have := congrFun (congrFun h i) j
  rw [Matrix.mul_diagonal, Matrix.mul_apply] at this
  rw [Pi.smul_apply, smul_eq_mul, mul_comm, ← this]
  rfl

/-- Distinct eigenvalues: the eigenvectors returned for a symmetric matrix are orthonormal. -/
theorem orthonormal {A : Matrix (Fin n) (Fin n) ℝ} {e : Fin n → ℝ} {V : Matrix (Fin n) (Fin n) ℝ}
    (hA : A.transpose = A) (h : IsEig A e V) (he : Function.Injective e) : V.transpose * V = 1 := by
  have hsym : V.transpose * (A * V) = (V.transpose * (A * V)).transpose := by
    rw [Matrix.transpose_mul, Matrix.transpose_mul, Matrix.transpose_transpose, hA, Matrix.mul_assoc]
  rw [h.vecs, ← Matrix.mul_assoc] at hsym
  ext j k
  rcases eq_or_ne j k with rfl | hjk
  · rw [Matrix.one_apply_eq, Matrix.mul_apply, ← h.unit j]
    exact Finset.sum_congr rfl fun i _ => by rw [Matrix.transpose_apply, sq]
  · rw [Matrix.one_apply_ne hjk]
    have h1 := congrFun (congrFun hsym j) k
    rw [Matrix.transpose_apply, Matrix.mul_diagonal, Matrix.mul_diagonal] at h1
    have h2 : (V.transpose * V) k j = (V.transpose * V) j k := by
      have : (V.transpose * V).transpose = V.transpose * V := by
        rw [Matrix.transpose_mul, Matrix.transpose_transpose]
      exact congrFun (congrFun this j) k
    rw [h2] at h1
    have h3 : (V.transpose * V) j k * (e k - e j) = 0 := by linear_combination h1
    exact (mul_eq_zero.mp h3).resolve_right (sub_ne_zero.mpr fun h => hjk (he h).symm)

/-- The eigenvalues of a tridiagonal matrix with non-zero off-diagonal are simple. -/
theorem tridiag_simple {a b : ℕ → ℝ} (hb : ∀ k, 1 ≤ k → 0 < b k) {e : Fin n → ℝ} {V : Matrix (Fin n) (Fin n) ℝ}
    (h : IsEig (tridiag a b n) e V) : Function.Injective e := by
  obtain ⟨l, U, hU, hUU⟩ := exists_isEig (GaussRule.tridiag_symm a b n)
  have hl : Function.Injective l := by
    intro i j hij
    by_contra hne
    have hn : 0 < n := i.pos
    have hi := vec_of hU.vecs i
    have hj := vec_of hU.vecs j
    rw [← hij] at hj
    have hp := GaussRule.eigvec_prop hb hn _ _ _ hi hj
    have h0 : ∑ k, U k i * U k j = 0 := by
      have := congrFun (congrFun hUU i) j
      rwa [Matrix.one_apply_ne hne, Matrix.mul_apply] at this
    have h1 : U ⟨0, hn⟩ i = 0 := by
      have h2 : ∑ k, U ⟨0, hn⟩ j * U k i * U k j = ∑ k, U ⟨0, hn⟩ i * U k j * U k j :=
        Finset.sum_congr rfl fun k _ => by
          have := congrFun hp k
          simp only [Pi.smul_apply, smul_eq_mul] at this
          rw [this]
      have h3 : ∑ k, U ⟨0, hn⟩ j * U k i * U k j = 0 := by
        rw [← mul_zero (U ⟨0, hn⟩ j), ← h0, Finset.mul_sum]
        exact Finset.sum_congr rfl fun k _ => by ring
      have h4 : ∑ k, U ⟨0, hn⟩ i * U k j * U k j = U ⟨0, hn⟩ i := by
        have : ∑ k, U ⟨0, hn⟩ i * U k j * U k j = U ⟨0, hn⟩ i * ∑ k, U k j ^ 2 := by
          rw [Finset.mul_sum]
          exact Finset.sum_congr rfl fun k _ => by ring
        rw [this, hU.unit j, mul_one]
      rw [← h4, ← h2, h3]
    have h5 := GaussRule.eigvec_zero hb hn _ _ hi h1
    have h6 := hU.unit i
    have h7 : ∀ k, U k i = 0 := fun k => congrFun h5 k
    simp [h7] at h6
  have hsep : (∏ i, (X - C (e i))).Separable := by
    rw [← h.vals, hU.vals]
    exact separable_prod_X_sub_C_iff.mpr hl
  exact separable_prod_X_sub_C_iff.mp hsep

/-- The Gauss rule: nodes are the eigenvalues, weights the squared first components. -/
theorem gauss {a b : ℕ → ℝ} (hb0 : ∀ k, 0 ≤ b k) (hb : ∀ k, 1 ≤ k → 0 < b k) (hn : 0 < n) {e : Fin n → ℝ}
    {V : Matrix (Fin n) (Fin n) ℝ} (h : IsEig (tridiag a b n) e V) (L : ℝ[X] →ₗ[ℝ] ℝ) (hL1 : L 1 = 1)
    (hL : ∀ k, L (monicPoly a b (k + 1)) = 0) (p : ℝ[X]) (hp : p.natDegree < 2 * n) :
    ∑ i, V ⟨0, hn⟩ i ^ 2 * p.eval (e i) = L p := by
  have horth := orthonormal (GaussRule.tridiag_symm a b n) h (tridiag_simple hb h)
  have horth' : V * V.transpose = 1 := mul_eq_one_comm.mp horth
  have hJ : tridiag a b n = V * Matrix.diagonal e * V.transpose := by
    rw [← h.vecs, Matrix.mul_assoc, horth', Matrix.mul_one]
  have hpow : ∀ j, tridiag a b n ^ j = V * Matrix.diagonal (fun i => e i ^ j) * V.transpose := by
    intro j
    induction j with
    | zero => simp [horth']
    | succ j ih =>
      rw [pow_succ, ih]
      conv_lhs => rw [hJ]
      have : V * Matrix.diagonal (fun i => e i ^ j) * V.transpose * (V * Matrix.diagonal e * V.transpose)
          = V * (Matrix.diagonal (fun i => e i ^ j) * (V.transpose * V) * Matrix.diagonal e) * V.transpose := by
        simp only [Matrix.mul_assoc]
      rw [this, horth, Matrix.mul_one, Matrix.diagonal_mul_diagonal]
      simp only [pow_succ]
  have hmon : ∀ j < 2 * n, ∑ i, V ⟨0, hn⟩ i ^ 2 * e i ^ j = L (X ^ j) := by
    intro j hj
    rw [← GaussRule.pow_entry L hb0 hn hL1 hL j hj, hpow, Matrix.mul_apply]
    refine Finset.sum_congr rfl fun i _ => ?_
    rw [Matrix.mul_diagonal, Matrix.transpose_apply]
    ring
  rw [p.as_sum_range_C_mul_X_pow, map_sum]
  simp only [eval_finset_sum, eval_mul, eval_C, eval_pow, eval_X, Finset.mul_sum]
  rw [Finset.sum_comm]
  refine Finset.sum_congr rfl fun j hj => ?_
  rw [← smul_eq_C_mul, map_smul, ← hmon j (by have := Finset.mem_range.mp hj; omega), smul_eq_mul, Finset.mul_sum]
  exact Finset.sum_congr rfl fun i _ => by ring

theorem weight_pos {a b : ℕ → ℝ} (hb : ∀ k, 1 ≤ k → 0 < b k) (hn : 0 < n) {e : Fin n → ℝ}
    {V : Matrix (Fin n) (Fin n) ℝ} (h : IsEig (tridiag a b n) e V) (i : Fin n) : 0 < V ⟨0, hn⟩ i ^ 2 := by
  refine lt_of_le_of_ne (sq_nonneg _) fun h0 => ?_
  have h1 : V ⟨0, hn⟩ i = 0 := by simpa using h0.symm
  have h5 := GaussRule.eigvec_zero hb hn _ _ (vec_of h.vecs i) h1
  have h6 := h.unit i
  have h7 : ∀ k, V k i = 0 := fun k => congrFun h5 k
  simp [h7] at h6

end Proofs.EigSymm
