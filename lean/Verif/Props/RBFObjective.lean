import Verif.Props.RBF
import Mathlib.Analysis.SpecialFunctions.Log.Basic

/-!
# Property C71: the training objective of radial basis models
-/

open Py Model.ResponseSurfaces Proofs.PolyApprox Proofs.Kernel Proofs.RBF Matrix

namespace Props

variable {M m N p : ℕ}

/-- The generalised squared residual `(f - B b)^T K^{-1} (f - B b)`. -/
noncomputable def gls (K : Matrix (Fin M) (Fin M) ℝ) (B : Matrix (Fin M) (Fin p) ℝ) (f : Fin M → ℝ) (b : Fin p → ℝ) : ℝ :=
  (f - B.mulVec b) ⬝ᵥ K⁻¹.mulVec (f - B.mulVec b)

theorem gls_min {K : Matrix (Fin M) (Fin M) ℝ} (hK : K.PosDef) (B : Matrix (Fin M) (Fin p) ℝ) (f : Fin M → ℝ)
    (b : Fin p → ℝ) (hb : (B.transpose * (K⁻¹ * B)).mulVec b = B.transpose.mulVec (K⁻¹.mulVec f)) (c : Fin p → ℝ) :
    gls K B f b ≤ gls K B f c := by
  have hKs : K⁻¹.transpose = K⁻¹ := by
    have := hK.inv.isHermitian
    rwa [Matrix.IsHermitian, Matrix.conjTranspose_eq_transpose_of_trivial] at this
  have hn : B.transpose.mulVec (K⁻¹.mulVec (f - B.mulVec b)) = 0 := by
    rw [Matrix.mulVec_sub, Matrix.mulVec_sub, ← hb, ← Matrix.mulVec_mulVec, ← Matrix.mulVec_mulVec, sub_self]
  have hd : f - B.mulVec c = (f - B.mulVec b) + B.mulVec (b - c) := by
    rw [Matrix.mulVec_sub]; abel
  have h1 : B.mulVec (b - c) ⬝ᵥ K⁻¹.mulVec (f - B.mulVec b) = 0 := by
    rw [dotProduct_comm, Matrix.dotProduct_mulVec, ← Matrix.mulVec_transpose, hn, zero_dotProduct]
  have h2 : (f - B.mulVec b) ⬝ᵥ K⁻¹.mulVec (B.mulVec (b - c)) = 0 := by
    rw [Matrix.dotProduct_mulVec, ← Matrix.mulVec_transpose, hKs, dotProduct_comm, h1]
  have h3 : 0 ≤ B.mulVec (b - c) ⬝ᵥ K⁻¹.mulVec (B.mulVec (b - c)) := by
    have := hK.inv.posSemidef.dotProduct_mulVec_nonneg (B.mulVec (b - c))
    rwa [star_trivial] at this
  unfold gls
  rw [hd, Matrix.mulVec_add, dotProduct_add, add_dotProduct, add_dotProduct, h1, h2]
  linarith

theorem gls_nonneg {K : Matrix (Fin M) (Fin M) ℝ} (hK : K.PosDef) (B : Matrix (Fin M) (Fin p) ℝ) (f : Fin M → ℝ)
    (c : Fin p → ℝ) : 0 ≤ gls K B f c := by
  have := hK.inv.posSemidef.dotProduct_mulVec_nonneg (f - B.mulVec c)
  rwa [star_trivial] at this

theorem log_det_cholesky {K L : Matrix (Fin M) (Fin M) ℝ} (h : Spec.IsCholesky K L) :
    ∑ i, Real.log (L i i) = 1 / 2 * Real.log K.det := by
  have hL : L.BlockTriangular OrderDual.toDual := by
    intro i j hij
    exact h.lower i j (OrderDual.toDual_lt_toDual.mp hij)
  rw [← h.mul, Matrix.det_mul, Matrix.det_transpose, Matrix.det_of_isLowerTriangular L hL, ← sq, Real.log_pow,
    Real.log_prod (fun i _ => (h.diag_pos i).ne')]
  push_cast
  ring

theorem objective_value (lib : Lib) (hch : CholeskyOK lib) {X : Matrix (Fin M) (Fin m) ℝ} (f : Fin M → ℝ)
    {v e : Option NpVec} {t : ℝ} {q : Params M m} (hq : params M m ((10 : ℝ) ^ t) v e = .ok q) (hl : ∀ k, 0 < q.ell k)
    (hK : (covMat X q).PosDef) {I : List (Fin m → ℕ)} (hI : index_set N m = .ok I)
    (hB : Spec.FullColumnRank (monomials X I)) :
    ∃ S : ℝ, IsLeast (Set.range (gls (covMat X q) (monomials X I) f)) S ∧
      rbf_objective lib X f v N e t
        = .ok (1 / 2 * Real.log (covMat X q).det + M * Real.log (max (S / M) (5 * 2 ^ (-52 : ℤ)))) := by
  have hb : polynomial_bases X N = .ok ⟨I, monomials X I⟩ := by rw [polynomial_bases, hI]
  obtain ⟨L, hL, hLc⟩ := (hch M _ (covMat_symm X q hl)).1 hK
  set K := covMat X q with hKdef
  set B := monomials X I with hBdef
  set b : Fin I.length → ℝ := (B.transpose * (K⁻¹ * B))⁻¹.mulVec (B.transpose.mulVec (K⁻¹.mulVec f)) with hbdef
  have hbn : (B.transpose * (K⁻¹ * B)).mulVec b = B.transpose.mulVec (K⁻¹.mulVec f) := by
    rw [hbdef, Matrix.mulVec_mulVec, Matrix.mul_nonsing_inv _ (schur_det hK hB), Matrix.one_mulVec]
  refine ⟨gls K B f b, ⟨⟨b, rfl⟩, ?_⟩, ?_⟩
  · rintro _ ⟨c, rfl⟩
    exact gls_min hK B f b hbn c
  · unfold rbf_objective
    rw [bind_of_ok hq, bind_of_ok hL, bind_of_ok hb]
    simp only
    rw [bind_of_ok (solve_ok (posDef_det hK) _), bind_of_ok (solve_ok (posDef_det hK) _),
      bind_of_ok (solve_ok (schur_det hK hB) _), bind_of_ok (solve_ok (posDef_det hK) _)]
    simp only [mulVec_col]
    have hdot : ∀ u v : Fin M → ℝ, ((colMat u).transpose * colMat v) 0 0 = u ⬝ᵥ v := by
      intro u v
      rw [Matrix.mul_apply]
      rfl
    have hsub : ∀ u v : Fin M → ℝ, colMat u - colMat v = colMat (u - v) := fun u v => rfl
    change Except.ok (_ + M * Real.log (max (((colMat f - colMat (B.mulVec b)).transpose
      * ((covMat X q)⁻¹ * (colMat f - colMat (B.mulVec b)))) 0 0 / M) _)) = _
    rw [log_det_cholesky hLc, hsub, mulVec_col, hdot]
    rfl

/-- Negative log-likelihood of the data `f` under a Gaussian with mean `B b` and covariance `s K`. -/
noncomputable def nll (K : Matrix (Fin M) (Fin M) ℝ) (B : Matrix (Fin M) (Fin p) ℝ) (f : Fin M → ℝ) (b : Fin p → ℝ) (s : ℝ) : ℝ :=
  1 / 2 * (M * Real.log (2 * Real.pi) + Real.log (s ^ M * K.det) + gls K B f b / s)

/-- The least negative log-likelihood over the mean coefficients and the scale. -/
theorem nll_profile {K : Matrix (Fin M) (Fin M) ℝ} (hK : K.PosDef) (B : Matrix (Fin M) (Fin p) ℝ) (f : Fin M → ℝ) {S : ℝ}
    (hM : 0 < M) (hS : IsLeast (Set.range (gls K B f)) S) (hS0 : 0 < S) :
    IsLeast {y | ∃ b s, 0 < s ∧ y = nll K B f b s}
      (1 / 2 * (M * Real.log (2 * Real.pi) + M * Real.log (S / M) + Real.log K.det + M)) := by
  have hM' : (0 : ℝ) < M := by exact_mod_cast hM
  have hdet : 0 < K.det := hK.det_pos
  constructor
  · obtain ⟨b, hb⟩ := hS.1
    refine ⟨b, S / M, div_pos hS0 hM', ?_⟩
    unfold nll
    rw [hb, Real.log_mul (pow_pos (div_pos hS0 hM') M).ne' hdet.ne', Real.log_pow]
    have : S / (S / M) = M := by field_simp
    rw [this]
    ring
  · rintro y ⟨b, s, hs, rfl⟩
    unfold nll
    rw [Real.log_mul (pow_pos hs M).ne' hdet.ne', Real.log_pow]
    have h1 : S ≤ gls K B f b := hS.2 ⟨b, rfl⟩
    have h2 : S / s ≤ gls K B f b / s := div_le_div_of_nonneg_right h1 hs.le
    have h3 : Real.log (S / M / s) ≤ S / M / s - 1 := Real.log_le_sub_one_of_pos (div_pos (div_pos hS0 hM') hs)
    rw [Real.log_div (div_pos hS0 hM').ne' hs.ne'] at h3
    have h4 : M * (S / M / s) = S / s := by field_simp
    have h5 := mul_le_mul_of_nonneg_left h3 hM'.le
    have h6 : (M : ℝ) * (S / M / s - 1) = S / s - M := by rw [mul_sub, h4, mul_one]
    rw [h6] at h5
    nlinarith

/-- C71, the part that holds: half the log-determinant of the covariance plus `M` (the likelihood has `M / 2`) times the
logarithm of the profile variance, which is the least generalised squared residual over `M`, floored at `5 eps`. -/
theorem C71_objective_partial (lib : Lib) (hch : CholeskyOK lib) (hm : 1 ≤ m) (X : Matrix (Fin M) (Fin m) ℝ)
    (hu : Unisolvent N X) (f : Fin M → ℝ) (v e : Option NpVec) (hv : GoodNoise M v) (he : GoodEig m e)
    (hX : Function.Injective X) (t : ℝ) :
    ∃ (K : Matrix (Fin M) (Fin M) ℝ) (I : List (Fin m → ℕ)) (S : ℝ), K.PosDef ∧ (∀ α, α ∈ I ↔ ∑ k, α k ≤ N) ∧
      IsLeast (Set.range (gls K (Matrix.of fun i j => ∏ k, X i k ^ I.get j k) f)) S ∧
      rbf_objective lib X f v N e t
        = .ok (1 / 2 * Real.log K.det + M * Real.log (max (S / M) (5 * 2 ^ (-52 : ℤ)))) := by
  obtain ⟨q, hq, hl, hv0, -⟩ := params_ok hv he (Real.rpow_pos_of_pos (by norm_num : (0 : ℝ) < 10) t)
  obtain ⟨I, hI, -, hmem, -⟩ := C25_enumerates N m hm
  have hK := cov_posDef_distinct X q hl hv0 hX
  obtain ⟨S, hS, hobj⟩ := objective_value lib hch f hq hl hK hI (unisolvent_full_rank hm hu hI)
  exact ⟨_, I, S, hK, hmem, hS, hobj⟩

/-- Covariance of the observations at 0 and 1 with length parameter `10 ^ t` and the default noise. -/
noncomputable def K01 (t : ℝ) : Matrix (Fin 2) (Fin 2) ℝ :=
  Matrix.of ![![1 + 1e-6, Real.exp (-(1 / 10 ^ t))], ![Real.exp (-(1 / 10 ^ t)), 1 + 1e-6]]

/-- C71 fails: two samples, constant mean.  The objective and the least negative log-likelihood differ by an amount that
depends on the parameter. -/
theorem C71_fails (lib : Lib) (hch : CholeskyOK lib) :
    ¬ ∃ C : ℝ, ∀ t ∈ Set.Icc (-10 : ℝ) 1, ∀ ν y : ℝ,
      IsLeast {y | ∃ b s, 0 < s ∧ y = nll (K01 t) (Matrix.of fun _ (_ : Fin 1) => 1) ![0, 1] b s} ν →
      rbf_objective lib (Matrix.of ![![0], ![1]] : Matrix (Fin 2) (Fin 1) ℝ) ![0, 1] none 0 none t = .ok y → y = ν + C := by
  set X : Matrix (Fin 2) (Fin 1) ℝ := Matrix.of ![![0], ![1]] with hXdef
  have hXinj : Function.Injective X := by
    intro i j hij
    have := congrFun hij 0
    fin_cases i <;> fin_cases j <;> simp_all
  have hI : index_set 0 1 = .ok [fun _ => 0] := by
    obtain ⟨I, hI, hnd, hmem, -⟩ := C25_enumerates 0 1 le_rfl
    have hz : ∀ α : Fin 1 → ℕ, α ∈ I ↔ α = fun _ => 0 := by
      intro α
      rw [hmem, Fin.sum_univ_one, Nat.le_zero]
      constructor
      · intro h; funext k; obtain rfl := Fin.fin_one_eq_zero k; exact h
      · rintro rfl; rfl
    have : I = [fun _ => 0] := by
      refine List.perm_singleton.mp ((List.perm_ext_iff_of_nodup hnd (List.nodup_singleton _)).mpr fun α => ?_)
      rw [hz, List.mem_singleton]
    rw [hI, this]
  have hmon : (monomials X [fun _ => 0] : Matrix (Fin 2) (Fin 1) ℝ) = Matrix.of fun _ _ => 1 := by
    ext i j
    obtain rfl := Fin.fin_one_eq_zero j
    simp [monomials]
  have hcov : ∀ t : ℝ, covMat X (⟨fun _ => (10 : ℝ) ^ t, fun _ => 1e-6⟩ : Params 2 1) = K01 t := by
    intro t
    ext i j
    fin_cases i <;> fin_cases j <;> simp [covMat, exponential_squared, K01, hXdef, div_eq_mul_inv]
  have key : ∀ t : ℝ, ∃ ν y : ℝ,
      IsLeast {y | ∃ b s, 0 < s ∧ y = nll (K01 t) (Matrix.of fun _ (_ : Fin 1) => 1) ![0, 1] b s} ν ∧
      rbf_objective lib X ![0, 1] none 0 none t = .ok y ∧
      y = ν + Real.log (1 / (4 * (1 + 1e-6 - Real.exp (-(1 / 10 ^ t))))) - Real.log (2 * Real.pi) - 1 := by
    intro t
    have hg : (0 : ℝ) < 10 ^ t := Real.rpow_pos_of_pos (by norm_num) t
    have hq : params 2 1 ((10 : ℝ) ^ t) none none = .ok ⟨fun _ => (10 : ℝ) ^ t, fun _ => 1e-6⟩ := rfl
    have hK : (K01 t).PosDef := by
      rw [← hcov]
      exact cov_posDef_distinct X _ (fun _ => hg) (fun _ => by norm_num) hXinj
    have hk1 : Real.exp (-(1 / (10 : ℝ) ^ t)) < 1 := by
      rw [Real.exp_lt_one_iff]
      have : 0 < 1 / (10 : ℝ) ^ t := by positivity
      linarith
    have hk0 := Real.exp_pos (-(1 / (10 : ℝ) ^ t))
    set k := Real.exp (-(1 / (10 : ℝ) ^ t)) with hk
    set a : ℝ := 1 + 1e-6 - k with ha
    have ha0 : 0 < a := by rw [ha]; norm_num; linarith
    have ha1 : a < 2 := by rw [ha]; norm_num; linarith
    have hB : Spec.FullColumnRank (monomials X [fun _ => 0]) := by
      intro u w hu
      have := congrFun hu 0
      erw [hmon] at this
      funext j
      obtain rfl := Fin.fin_one_eq_zero j
      simpa [Matrix.mulVec, dotProduct] using this
    obtain ⟨S, hS, hobj⟩ := objective_value lib hch (![0, 1] : Fin 2 → ℝ) hq (fun _ => hg) (by rw [hcov]; exact hK) hI hB
    rw [hcov] at hS hobj
    change IsLeast (Set.range (gls (K01 t) (monomials X [fun _ => 0] : Matrix (Fin 2) (Fin 1) ℝ) _)) S at hS
    rw [hmon] at hS
    have hr : (![0, 1] : Fin 2 → ℝ) - (Matrix.of fun _ (_ : Fin 1) => (1 : ℝ)).mulVec (fun _ => 1 / 2) = ![-(1 / 2), 1 / 2] := by
      funext i
      fin_cases i <;> simp [Matrix.mulVec, dotProduct] <;> norm_num
    have hKr : (K01 t)⁻¹.mulVec ![-(1 / 2), 1 / 2] = (1 / a) • ![-(1 / 2), 1 / 2] := by
      have h1 : (K01 t).mulVec ((1 / a) • ![-(1 / 2), 1 / 2]) = ![-(1 / 2), 1 / 2] := by
        have e1 : (K01 t).mulVec ![-(1 / 2), 1 / 2] = a • ![-(1 / 2), 1 / 2] := by
          funext i
          fin_cases i <;> simp [K01, Matrix.mulVec, dotProduct, Fin.sum_univ_two, ha, hk] <;> ring
        rw [Matrix.mulVec_smul, e1, smul_smul, one_div_mul_cancel ha0.ne', one_smul]
      rw [← h1, Matrix.mulVec_mulVec, Matrix.nonsing_inv_mul _ (posDef_det hK), Matrix.one_mulVec, h1]
    have hSval : S = 1 / (2 * a) := by
      have h0 : gls (K01 t) (Matrix.of fun _ (_ : Fin 1) => 1) ![0, 1] (fun _ => 1 / 2) = 1 / (2 * a) := by
        unfold gls
        rw [hr, hKr]
        simp [dotProduct, Fin.sum_univ_two]
        field_simp
        norm_num
      refine le_antisymm (h0 ▸ hS.2 ⟨_, rfl⟩) ?_
      obtain ⟨c, hc⟩ := hS.1
      rw [← hc, ← h0]
      refine gls_min hK _ _ _ ?_ c
      have hn : (Matrix.of fun _ (_ : Fin 1) => (1 : ℝ)).transpose.mulVec ((K01 t)⁻¹.mulVec
          ((![0, 1] : Fin 2 → ℝ) - (Matrix.of fun _ (_ : Fin 1) => (1 : ℝ)).mulVec (fun _ => 1 / 2))) = 0 := by
        rw [hr, hKr]
        funext i
        simp [Matrix.mulVec, dotProduct, Fin.sum_univ_two]
      rw [Matrix.mulVec_sub, Matrix.mulVec_sub, sub_eq_zero] at hn
      rw [hn, ← Matrix.mulVec_mulVec, ← Matrix.mulVec_mulVec]
    have hS0 : 0 < S := by rw [hSval]; positivity
    refine ⟨_, _, nll_profile hK _ _ (by norm_num) hS hS0, hobj, ?_⟩
    have e2 : S / ((2 : ℕ) : ℝ) = 1 / (4 * a) := by
      rw [hSval]; push_cast; field_simp; norm_num
    have e3 : max (S / ((2 : ℕ) : ℝ)) (5 * 2 ^ (-52 : ℤ)) = 1 / (4 * a) := by
      rw [e2]
      refine max_eq_left ?_
      rw [le_div_iff₀ (by positivity)]
      norm_num
      linarith
    rw [e3, e2]
    push_cast
    ring
  rintro ⟨C, hC⟩
  obtain ⟨ν, y, h1, h2, h3⟩ := key 0
  obtain ⟨ν', y', h1', h2', h3'⟩ := key 1
  have e := hC 0 (by norm_num) _ _ h1 h2
  have e' := hC 1 (by norm_num) _ _ h1' h2'
  have hlog : Real.log (1 / (4 * (1 + 1e-6 - Real.exp (-(1 / (10 : ℝ) ^ (0 : ℝ))))))
      = Real.log (1 / (4 * (1 + 1e-6 - Real.exp (-(1 / (10 : ℝ) ^ (1 : ℝ)))))) := by linarith
  have hpos : ∀ t : ℝ, 0 < 1 / (4 * (1 + 1e-6 - Real.exp (-(1 / (10 : ℝ) ^ t)))) := by
    intro t
    have hk1 : Real.exp (-(1 / (10 : ℝ) ^ t)) < 1 := by
      rw [Real.exp_lt_one_iff]
      have : 0 < 1 / (10 : ℝ) ^ t := by positivity
      linarith
    have : (0 : ℝ) < 1 + 1e-6 - Real.exp (-(1 / (10 : ℝ) ^ t)) := by
      have : (0 : ℝ) < 1e-6 := by norm_num
      linarith
    positivity
  have := Real.log_injOn_pos (hpos 0) (hpos 1) hlog
  have h4 := inv_injective ((one_div _).symm.trans (this.trans (one_div _)))
  have h5 : Real.exp (-(1 / (10 : ℝ) ^ (0 : ℝ))) = Real.exp (-(1 / (10 : ℝ) ^ (1 : ℝ))) := by
    linarith [mul_left_cancel₀ (by norm_num : (4 : ℝ) ≠ 0) h4]
  rw [Real.exp_eq_exp] at h5
  norm_num at h5

/-- The hypotheses of the theorems above are met: a library, and two distinct points with a constant mean. -/
example : ∃ lib : Lib, CholeskyOK lib ∧ Unisolvent 0 (Matrix.of ![![0], ![1]] : Matrix (Fin 2) (Fin 1) ℝ) ∧
    Function.Injective (Matrix.of ![![0], ![1]] : Matrix (Fin 2) (Fin 1) ℝ) := by
  obtain ⟨lib, h⟩ := rbfLib_exists
  refine ⟨lib, h.2.1, ?_, ?_⟩
  · intro q hq h
    obtain ⟨a, rfl⟩ : ∃ a, q = MvPolynomial.C a := ⟨_, MvPolynomial.totalDegree_eq_zero_iff_eq_C.mp (by omega)⟩
    have := h 0
    rw [MvPolynomial.eval_C] at this
    rw [this, map_zero]
  · intro i j hij
    have := congrFun hij 0
    fin_cases i <;> fin_cases j <;> simp_all

end Props
