import Mathlib.Analysis.CStarAlgebra.Matrix
import Mathlib.LinearAlgebra.FiniteDimensional.Lemmas
import Mathlib.LinearAlgebra.Matrix.DotProduct
import Verif.Proofs.KyFan
import Verif.Spec.Eigh

/-!
# Perturbation of eigenvalues and eigenspaces of symmetric matrices
-/

open Matrix Spec
open scoped Matrix.Norms.L2Operator

namespace Proofs.Perturb

variable {m n : ℕ}

theorem form_eq {A : Matrix (Fin m) (Fin m) ℝ} {e : Fin m → ℝ} {V : Matrix (Fin m) (Fin m) ℝ} (h : IsEigh A e V) (x : Fin m → ℝ) :
    x ⬝ᵥ A.mulVec x = ∑ k, e k * (V.transpose.mulVec x k) ^ 2 := by
  have hV : V * V.transpose = 1 := mul_eq_one_comm.mp h.orth
  have hA : A = V * Matrix.diagonal e * V.transpose := by rw [← h.vecs, Matrix.mul_assoc, hV, Matrix.mul_one]
  rw [hA, ← Matrix.mulVec_mulVec, ← Matrix.mulVec_mulVec, Matrix.dotProduct_mulVec, ← Matrix.mulVec_transpose, dotProduct]
  refine Finset.sum_congr rfl fun k _ => ?_
  rw [Matrix.mulVec_diagonal]
  ring

theorem norm_eq {V : Matrix (Fin m) (Fin m) ℝ} (h : V.transpose * V = 1) (x : Fin m → ℝ) :
    x ⬝ᵥ x = ∑ k, (V.transpose.mulVec x k) ^ 2 := by
  rw [← Proofs.KyFan.parseval h x, dotProduct]
  exact Finset.sum_congr rfl fun k _ => (sq _).symm

/-- Weyl's inequality. -/
theorem weyl {A B : Matrix (Fin m) (Fin m) ℝ} {e e' : Fin m → ℝ} {V V' : Matrix (Fin m) (Fin m) ℝ} (hA : IsEigh A e V)
    (hB : IsEigh B e' V') (he : Antitone e) (he' : Antitone e') {δ : ℝ}
    (hd : ∀ x : Fin m → ℝ, x ⬝ᵥ A.mulVec x - x ⬝ᵥ B.mulVec x ≤ δ * (x ⬝ᵥ x)) (j : Fin m) : e j ≤ e' j + δ := by
  -- a combination of the first `j + 1` columns of `V` that is orthogonal to the first `j` columns of `V'`
  set K : Matrix (Fin m) (Fin (j + 1)) ℝ := V.submatrix id (Fin.castLE j.2) with hK
  set R : Matrix (Fin j) (Fin (j + 1)) ℝ := (V'.submatrix id (Fin.castLE j.2.le)).transpose * K with hR
  have hker : LinearMap.ker R.mulVecLin ≠ ⊥ := LinearMap.ker_ne_bot_of_finrank_lt (by simp)
  obtain ⟨c, hc, hc0⟩ := (Submodule.ne_bot_iff _).mp hker
  set x : Fin m → ℝ := K.mulVec c with hx
  have hKK : K.transpose * K = 1 := by
    ext a b
    have h1 := congrFun (congrFun hA.orth (Fin.castLE j.2 a)) (Fin.castLE j.2 b)
    rw [Matrix.mul_apply] at h1 ⊢
    refine h1.trans ?_
    rw [Matrix.one_apply, Matrix.one_apply]
    simp only [Fin.castLE_inj]
  have hp : ∀ k : Fin m, V.transpose.mulVec x k = if h : (k : ℕ) < j + 1 then c ⟨k, h⟩ else 0 := by
    intro k
    have h1 : V.transpose.mulVec x k = ∑ a, (V.transpose * V) k (Fin.castLE j.2 a) * c a := by
      rw [hx, Matrix.mulVec_mulVec, Matrix.mulVec, dotProduct]
      exact Finset.sum_congr rfl fun a _ => rfl
    rw [h1, hA.orth]
    split_ifs with hk
    · rw [Finset.sum_eq_single (⟨k, hk⟩ : Fin (j + 1))]
      · rw [Matrix.one_apply, if_pos (show k = Fin.castLE j.2 ⟨k, hk⟩ from rfl), one_mul]
      · intro b _ hb
        rw [Matrix.one_apply, if_neg (fun h : k = Fin.castLE j.2 b => hb (Fin.ext (congrArg Fin.val h).symm)), zero_mul]
      · intro h; exact absurd (Finset.mem_univ _) h
    · refine Finset.sum_eq_zero fun b _ => ?_
      rw [Matrix.one_apply, if_neg (fun h => hk (by rw [h]; exact b.2)), zero_mul]
  have hq : ∀ k : Fin m, (k : ℕ) < j → V'.transpose.mulVec x k = 0 := by
    intro k hk
    have h1 := congrFun (LinearMap.mem_ker.mp hc) ⟨k, hk⟩
    rw [Matrix.mulVecLin_apply, hR, ← Matrix.mulVec_mulVec] at h1
    exact h1
  have hx0 : 0 < x ⬝ᵥ x := by
    have h1 : x ⬝ᵥ x = c ⬝ᵥ c := by
      rw [hx, Matrix.dotProduct_mulVec, ← Matrix.mulVec_transpose, Matrix.mulVec_mulVec, hKK, Matrix.one_mulVec]
    rw [h1]
    refine lt_of_le_of_ne (Finset.sum_nonneg fun i _ => mul_self_nonneg _) fun h => hc0 ?_
    exact dotProduct_self_eq_zero.mp h.symm
  have hlow : e j * (x ⬝ᵥ x) ≤ x ⬝ᵥ A.mulVec x := by
    rw [form_eq hA, norm_eq hA.orth, Finset.mul_sum]
    refine Finset.sum_le_sum fun k _ => ?_
    by_cases hk : (k : ℕ) < j + 1
    · exact mul_le_mul_of_nonneg_right (he (Fin.le_def.mpr (by omega))) (sq_nonneg _)
    · rw [hp k, dif_neg hk]
      norm_num
  have hup : x ⬝ᵥ B.mulVec x ≤ e' j * (x ⬝ᵥ x) := by
    rw [form_eq hB, norm_eq hB.orth, Finset.mul_sum]
    refine Finset.sum_le_sum fun k _ => ?_
    by_cases hk : (k : ℕ) < j
    · rw [hq k hk]
      norm_num
    · exact mul_le_mul_of_nonneg_right (he' (Fin.le_def.mpr (by omega))) (sq_nonneg _)
  have := hd x
  nlinarith

theorem sqrt_dot (x : Fin n → ℝ) : Real.sqrt (x ⬝ᵥ x) = ‖WithLp.toLp 2 x‖ := by
  rw [EuclideanSpace.norm_eq]
  congr 1
  exact Finset.sum_congr rfl fun i _ => by simp [sq]

theorem opNorm_le {E : Matrix (Fin m) (Fin n) ℝ} {δ : ℝ} (h0 : 0 ≤ δ)
    (h : ∀ (u : Fin m → ℝ) (v : Fin n → ℝ), u ⬝ᵥ E.mulVec v ≤ δ * Real.sqrt (u ⬝ᵥ u) * Real.sqrt (v ⬝ᵥ v)) : ‖E‖ ≤ δ := by
  rw [l2_opNorm_def]
  refine ContinuousLinearMap.opNorm_le_bound _ h0 fun x => ?_
  change ‖WithLp.toLp 2 (E.mulVec x.ofLp)‖ ≤ _
  have h1 := h (E.mulVec x.ofLp) x.ofLp
  have h2 := Real.mul_self_sqrt (Finset.sum_nonneg fun i (_ : i ∈ Finset.univ) => mul_self_nonneg (E.mulVec x.ofLp i))
  change Real.sqrt (E.mulVec x.ofLp ⬝ᵥ E.mulVec x.ofLp) * Real.sqrt (E.mulVec x.ofLp ⬝ᵥ E.mulVec x.ofLp) = E.mulVec x.ofLp ⬝ᵥ E.mulVec x.ofLp at h2
  rw [sqrt_dot] at h2
  rw [← h2, Real.sqrt_mul_self (norm_nonneg _), sqrt_dot] at h1
  have h3 : ‖WithLp.toLp 2 x.ofLp‖ = ‖x‖ := rfl
  rw [h3] at h1
  rcases (norm_nonneg (WithLp.toLp 2 (E.mulVec x.ofLp))).eq_or_lt with h4 | h4
  · rw [← h4]
    exact mul_nonneg h0 (norm_nonneg _)
  · nlinarith

theorem opNorm_orth {F : Matrix (Fin m) (Fin n) ℝ} (h : F.transpose * F = 1) : ‖F‖ ≤ 1 := by
  have h1 := l2_opNorm_conjTranspose_mul_self F
  rw [conjTranspose_eq_transpose_of_trivial, h] at h1
  have h2 : ‖(1 : Matrix (Fin n) (Fin n) ℝ)‖ ≤ 1 := by
    rw [← Matrix.diagonal_one, l2_opNorm_diagonal]
    exact (pi_norm_le_iff_of_nonneg zero_le_one).mpr fun i => by simp
  nlinarith [norm_nonneg F]

theorem opNorm_transpose (F : Matrix (Fin m) (Fin n) ℝ) : ‖F.transpose‖ = ‖F‖ := by
  have := l2_opNorm_conjTranspose F
  rwa [conjTranspose_eq_transpose_of_trivial] at this

/-- The theorem of Davis and Kahan: `F` spans eigenvectors of `A` with eigenvalues at least `a`, `L` eigenvectors of `B` with
eigenvalues in `[0, b]`. -/
theorem davis_kahan {p q : ℕ} {A B : Matrix (Fin m) (Fin m) ℝ} {F : Matrix (Fin m) (Fin p) ℝ} {L : Matrix (Fin m) (Fin q) ℝ}
    {f : Fin p → ℝ} {l : Fin q → ℝ} {a b δ : ℝ} (hA : A.transpose = A) (hF : A * F = F * diagonal f) (hL : B * L = L * diagonal l)
    (hFF : F.transpose * F = 1) (hLL : L.transpose * L = 1) (hf : ∀ i, a ≤ f i) (hl : ∀ i, |l i| ≤ b) (hb : 0 ≤ b) (hab : b < a)
    (hE : ‖A - B‖ ≤ δ) : (a - b) * ‖F.transpose * L‖ ≤ δ := by
  have ha : 0 < a := lt_of_le_of_lt hb hab
  have hFA : F.transpose * A = diagonal f * F.transpose := by
    have := congrArg transpose hF
    rwa [transpose_mul, transpose_mul, diagonal_transpose, hA] at this
  have h1 : F.transpose * (A - B) * L = diagonal f * (F.transpose * L) - F.transpose * L * diagonal l := by
    rw [Matrix.mul_sub, Matrix.sub_mul, hFA, Matrix.mul_assoc, Matrix.mul_assoc F.transpose B, hL, ← Matrix.mul_assoc F.transpose L]
  have h2 : F.transpose * L = diagonal (fun i => (f i)⁻¹) * (F.transpose * (A - B) * L + F.transpose * L * diagonal l) := by
    rw [h1, sub_add_cancel, ← Matrix.mul_assoc, diagonal_mul_diagonal]
    have : (fun i => (f i)⁻¹ * f i) = fun _ => 1 := funext fun i => inv_mul_cancel₀ (lt_of_lt_of_le ha (hf i)).ne'
    rw [this, diagonal_one, Matrix.one_mul]
  have h3 : ‖diagonal (fun i => (f i)⁻¹)‖ ≤ a⁻¹ := by
    rw [l2_opNorm_diagonal]
    refine (pi_norm_le_iff_of_nonneg (inv_nonneg.mpr ha.le)).mpr fun i => ?_
    have hfi := lt_of_lt_of_le ha (hf i)
    rw [Real.norm_of_nonneg (inv_nonneg.mpr hfi.le)]
    exact inv_anti₀ ha (hf i)
  have h4 : ‖(diagonal l : Matrix (Fin q) (Fin q) ℝ)‖ ≤ b := by
    rw [l2_opNorm_diagonal]
    exact (pi_norm_le_iff_of_nonneg hb).mpr fun i => hl i
  have h5 : ‖F.transpose * (A - B) * L‖ ≤ δ := by
    refine (l2_opNorm_mul _ _).trans ((mul_le_of_le_one_right (norm_nonneg _) (opNorm_orth hLL)).trans ?_)
    refine (l2_opNorm_mul _ _).trans ((mul_le_of_le_one_left (norm_nonneg _) ?_).trans hE)
    rw [opNorm_transpose]
    exact opNorm_orth hFF
  have h6 : ‖F.transpose * L‖ ≤ a⁻¹ * (δ + ‖F.transpose * L‖ * b) := by
    calc ‖F.transpose * L‖ = ‖diagonal (fun i => (f i)⁻¹) * (F.transpose * (A - B) * L + F.transpose * L * diagonal l)‖ := congrArg _ h2
      _ ≤ ‖diagonal (fun i => (f i)⁻¹)‖ * ‖F.transpose * (A - B) * L + F.transpose * L * diagonal l‖ := l2_opNorm_mul _ _
      _ ≤ a⁻¹ * (δ + ‖F.transpose * L‖ * b) := by
          refine mul_le_mul h3 ?_ (norm_nonneg _) (inv_nonneg.mpr ha.le)
          refine (norm_add_le _ _).trans (add_le_add h5 ?_)
          exact (l2_opNorm_mul _ _).trans (mul_le_mul_of_nonneg_left h4 (norm_nonneg _))
  have h7 := mul_le_mul_of_nonneg_left h6 ha.le
  rw [← mul_assoc, mul_inv_cancel₀ ha.ne', one_mul] at h7
  linarith

end Proofs.Perturb
