import Verif.Proofs.EigSymm
import Mathlib.Algebra.Order.Chebyshev
import Mathlib.Algebra.Ring.NegOnePow

/-!
# Non-zero eigenvalues of a tridiagonal matrix with zero diagonal are not tiny
-/

open Polynomial Spec

namespace Proofs.NodeGap

variable {b : ℕ → ℝ} {n : ℕ}

/-- A vector extended by zero. -/
def ext (v : Fin n → ℝ) (k : ℕ) : ℝ := if h : k < n then v ⟨k, h⟩ else 0

theorem ext_of_lt (v : Fin n → ℝ) {k : ℕ} (h : k < n) : ext v k = v ⟨k, h⟩ := dif_pos h

theorem ext_of_ge (v : Fin n → ℝ) {k : ℕ} (h : n ≤ k) : ext v k = 0 := dif_neg (by omega)

theorem mulVec_row (v : Fin n → ℝ) (i : Fin n) : (tridiag (fun _ => 0) b n).mulVec v i
    = (if (i : ℕ) = 0 then 0 else Real.sqrt (b i) * ext v (i - 1)) + Real.sqrt (b (i + 1)) * ext v (i + 1) := by
  have h : ∀ j : Fin n, tridiag (fun _ => 0) b n i j * v j
      = (if (j : ℕ) + 1 = i then Real.sqrt (b i) * ext v j else 0)
        + (if (j : ℕ) = i + 1 then Real.sqrt (b (i + 1)) * ext v j else 0) := by
    intro j
    rw [ext_of_lt v j.2]
    simp only [tridiag, Matrix.of_apply]
    split_ifs <;> first | omega | ring1 | (have hb : b (j : ℕ) = b ((i : ℕ) + 1) := congrArg b (by omega); rw [hb]; ring1)
  simp only [Matrix.mulVec, dotProduct]
  rw [Finset.sum_congr rfl fun j _ => h j, Finset.sum_add_distrib]
  congr 1
  · rw [Fin.sum_univ_eq_sum_range (fun j => if j + 1 = (i : ℕ) then Real.sqrt (b i) * ext v j else 0)]
    split_ifs with h0
    · exact Finset.sum_eq_zero fun j _ => if_neg (by omega)
    · rw [Finset.sum_eq_single ((i : ℕ) - 1)]
      · rw [if_pos (by omega)]
      · intro j _ hj
        exact if_neg (by omega)
      · intro hj
        exact absurd (Finset.mem_range.mpr (by omega)) hj
  · rw [Fin.sum_univ_eq_sum_range (fun j => if j = (i : ℕ) + 1 then Real.sqrt (b (i + 1)) * ext v j else 0)]
    rw [Finset.sum_ite_eq']
    split_ifs with h0
    · rfl
    · rw [ext_of_ge v (by simpa using h0), mul_zero]

/-- The reflected eigenvector. -/
theorem reflect {c : ℝ} {v : Fin n → ℝ} (hv : (tridiag (fun _ => 0) b n).mulVec v = c • v) :
    (tridiag (fun _ => 0) b n).mulVec (fun i : Fin n => (-1) ^ (i : ℕ) * v i) = (-c) • fun i : Fin n => (-1) ^ (i : ℕ) * v i := by
  have hext : ∀ k, ext (fun i : Fin n => (-1) ^ (i : ℕ) * v i) k = (-1) ^ k * ext v k := by
    intro k
    unfold ext
    split_ifs <;> simp
  funext i
  have h := congrFun hv i
  rw [mulVec_row, Pi.smul_apply, smul_eq_mul] at h
  rw [mulVec_row, Pi.smul_apply, smul_eq_mul, hext, hext]
  have h1 : -c * ((-1) ^ (i : ℕ) * v i) = -(-1) ^ (i : ℕ) * (c * v i) := by ring
  rw [h1, ← h]
  split_ifs with h0
  · rw [pow_succ]; ring
  · have h2 : ((-1 : ℝ)) ^ (i : ℕ) = (-1) ^ ((i : ℕ) - 1) * (-1) := by
      rw [← pow_succ]
      congr 1
      omega
    rw [pow_succ, h2]
    ring

theorem alternating {c : ℝ} (hc : c ≠ 0) {v : Fin n → ℝ} (hv : (tridiag (fun _ => 0) b n).mulVec v = c • v) :
    ∑ i : Fin n, (-1) ^ (i : ℕ) * v i ^ 2 = 0 := by
  set J := tridiag (fun _ => 0) b n
  set s : Fin n → ℝ := fun i => (-1) ^ (i : ℕ) * v i
  have h1 : s ⬝ᵥ J.mulVec v = c * (s ⬝ᵥ v) := by rw [hv, dotProduct_smul, smul_eq_mul]
  have h2 : s ⬝ᵥ J.mulVec v = -c * (s ⬝ᵥ v) := by
    rw [Matrix.dotProduct_mulVec, ← Matrix.mulVec_transpose, GaussRule.tridiag_symm, reflect hv, smul_dotProduct, smul_eq_mul]
  have h3 : s ⬝ᵥ v = 0 := by
    have : (2 * c) * (s ⬝ᵥ v) = 0 := by linear_combination h2 - h1
    exact (mul_eq_zero.mp this).resolve_left (by simpa using hc)
  rw [← h3]
  exact Finset.sum_congr rfl fun i _ => by simp only [s]; ring

/-- Lower bound for the non-zero eigenvalues. -/
theorem gap {c : ℝ} (hc : c ≠ 0) {v : Fin n → ℝ} (hv : (tridiag (fun _ => 0) b n).mulVec v = c • v)
    (hu : ∑ i, v i ^ 2 = 1) (α : ℕ → ℝ) (hα0 : ∀ k, 1 ≤ k → 0 ≤ α k) (hα1 : ∀ k, 1 ≤ k → α k ≤ 1)
    (hα2 : ∀ k, 1 ≤ k → α (k + 2) * Real.sqrt (b (k + 1)) ≤ α k * Real.sqrt (b k))
    (hα3 : ∀ k, 1 ≤ k → 1 / 2 ≤ α k * Real.sqrt (b k)) : 1 ≤ 8 * c ^ 2 * n ^ 2 := by
  have hrow : ∀ k, k < n → c * ext v k = (if k = 0 then 0 else Real.sqrt (b k) * ext v (k - 1))
      + Real.sqrt (b (k + 1)) * ext v (k + 1) := by
    intro k hk
    have h := congrFun hv ⟨k, hk⟩
    rw [mulVec_row, Pi.smul_apply, smul_eq_mul] at h
    rw [ext_of_lt v hk, ← h]
  have hodd : ∀ j, 2 * j + 1 < n → α (2 * j + 1) * Real.sqrt (b (2 * j + 1)) * |ext v (2 * j + 1)|
      ≤ |c| * ∑ i ∈ Finset.range (2 * j + 1), |ext v i| := by
    intro j
    induction j with
    | zero =>
      intro hj
      have h := hrow 0 (by omega)
      simp only [if_true, zero_add] at h
      have h1 : Real.sqrt (b 1) * |ext v 1| = |c| * |ext v 0| := by
        rw [← abs_mul, h, abs_mul, abs_of_nonneg (Real.sqrt_nonneg _)]
      simp only [mul_zero, zero_add, Finset.range_one, Finset.sum_singleton]
      rw [mul_assoc, h1]
      have := hα1 1 le_rfl
      have h2 : 0 ≤ |c| * |ext v 0| := by positivity
      nlinarith
    | succ j ih =>
      intro hj
      have ih' := ih (by omega)
      have h := hrow (2 * j + 2) (by omega)
      rw [if_neg (by omega), show 2 * j + 2 - 1 = 2 * j + 1 by omega] at h
      have h1 : Real.sqrt (b (2 * j + 3)) * |ext v (2 * j + 3)|
          ≤ |c| * |ext v (2 * j + 2)| + Real.sqrt (b (2 * j + 2)) * |ext v (2 * j + 1)| := by
        have : Real.sqrt (b (2 * j + 3)) * ext v (2 * j + 3)
            = c * ext v (2 * j + 2) - Real.sqrt (b (2 * j + 2)) * ext v (2 * j + 1) := by
          rw [h]; ring
        rw [← abs_of_nonneg (Real.sqrt_nonneg (b (2 * j + 3))), ← abs_mul, this]
        refine (abs_sub _ _).trans ?_
        rw [abs_mul, abs_mul, abs_of_nonneg (Real.sqrt_nonneg (b (2 * j + 2)))]
      have h0 := hα0 (2 * j + 3) (by omega)
      have h2 := hα1 (2 * j + 3) (by omega)
      have h3 := hα2 (2 * j + 1) (by omega)
      rw [show 2 * (j + 1) + 1 = 2 * j + 3 by ring]
      rw [show 2 * j + 3 = (2 * j + 1) + 1 + 1 by ring, Finset.sum_range_succ, Finset.sum_range_succ,
        show 2 * j + 1 + 1 + 1 = 2 * j + 3 by ring, show 2 * j + 1 + 1 = 2 * j + 2 by ring]
      have h4 : α (2 * j + 3) * Real.sqrt (b (2 * j + 3)) * |ext v (2 * j + 3)|
          ≤ α (2 * j + 3) * (|c| * |ext v (2 * j + 2)| + Real.sqrt (b (2 * j + 2)) * |ext v (2 * j + 1)|) := by
        rw [mul_assoc]
        exact mul_le_mul_of_nonneg_left h1 h0
      have h5 : α (2 * j + 3) * Real.sqrt (b (2 * j + 2)) * |ext v (2 * j + 1)|
          ≤ α (2 * j + 1) * Real.sqrt (b (2 * j + 1)) * |ext v (2 * j + 1)| :=
        mul_le_mul_of_nonneg_right h3 (abs_nonneg _)
      have h6 : α (2 * j + 3) * (|c| * |ext v (2 * j + 2)|) ≤ |c| * |ext v (2 * j + 2)| :=
        mul_le_of_le_one_left (by positivity) h2
      have h7 : 0 ≤ |c| * |ext v (2 * j + 1)| := by positivity
      nlinarith
  have hS : ∀ k, ∑ i ∈ Finset.range k, |ext v i| ≤ ∑ i : Fin n, |v i| := by
    intro k
    have h1 : ∑ i : Fin n, |v i| = ∑ i ∈ Finset.range n, |ext v i| := by
      rw [← Fin.sum_univ_eq_sum_range (fun i => |ext v i|)]
      exact Finset.sum_congr rfl fun i _ => by rw [ext_of_lt v i.2]
    rw [h1]
    rcases le_total k n with h | h
    · exact Finset.sum_le_sum_of_subset_of_nonneg (Finset.range_subset_range.mpr h) fun _ _ _ => abs_nonneg _
    · rw [← Finset.sum_subset (Finset.range_subset_range.mpr h)]
      intro i _ hi
      rw [ext_of_ge v (by simpa using hi), abs_zero]
  set S := ∑ i : Fin n, |v i| with hSdef
  have hSn : S ^ 2 ≤ n := by
    have := sq_sum_le_card_mul_sum_sq (s := (Finset.univ : Finset (Fin n))) (f := fun i => |v i|)
    simp only [sq_abs, hu, Finset.card_univ, Fintype.card_fin, mul_one] at this
    exact this
  have hodd2 : ∀ i : Fin n, (i : ℕ) % 2 = 1 → v i ^ 2 ≤ 4 * c ^ 2 * n := by
    intro i hi
    obtain ⟨j, hj⟩ : ∃ j, (i : ℕ) = 2 * j + 1 := ⟨i / 2, by omega⟩
    have h1 := hodd j (by omega)
    rw [← hj, ext_of_lt v i.2] at h1
    have h2 := hα3 i (by omega)
    have h3 := hS i
    have h4 : 1 / 2 * |v i| ≤ |c| * S := by
      calc 1 / 2 * |v i| ≤ α i * Real.sqrt (b i) * |v i| := mul_le_mul_of_nonneg_right h2 (abs_nonneg _)
        _ ≤ |c| * ∑ k ∈ Finset.range i, |ext v k| := h1
        _ ≤ |c| * S := mul_le_mul_of_nonneg_left h3 (abs_nonneg _)
    have h5 : |v i| ≤ 2 * (|c| * S) := by linarith
    have h6 : |v i| ^ 2 ≤ (2 * (|c| * S)) ^ 2 := pow_le_pow_left₀ (abs_nonneg _) h5 2
    rw [sq_abs] at h6
    have h7 : (2 * (|c| * S)) ^ 2 = 4 * c ^ 2 * S ^ 2 := by
      rw [mul_pow, mul_pow, sq_abs]; ring
    rw [h7] at h6
    refine h6.trans (mul_le_mul_of_nonneg_left hSn (by positivity))
  have halt := alternating hc hv
  have hhalf : 1 = ∑ i : Fin n, (v i ^ 2 - (-1) ^ (i : ℕ) * v i ^ 2) := by
    rw [Finset.sum_sub_distrib, hu, halt, sub_zero]
  have hle : ∀ i : Fin n, v i ^ 2 - (-1) ^ (i : ℕ) * v i ^ 2 ≤ 8 * c ^ 2 * n := by
    intro i
    rcases Nat.mod_two_eq_zero_or_one i with h | h
    · rw [(Nat.even_iff.mpr h).neg_one_pow]
      have : 0 ≤ 8 * c ^ 2 * n := by positivity
      linarith
    · rw [(Nat.odd_iff.mpr h).neg_one_pow]
      have := hodd2 i h
      linarith
  calc (1 : ℝ) = ∑ i : Fin n, (v i ^ 2 - (-1) ^ (i : ℕ) * v i ^ 2) := hhalf
    _ ≤ ∑ _i : Fin n, 8 * c ^ 2 * n := Finset.sum_le_sum fun i _ => hle i
    _ = 8 * c ^ 2 * n ^ 2 := by
      rw [Finset.sum_const, Finset.card_univ, Fintype.card_fin, nsmul_eq_mul]; ring

end Proofs.NodeGap
