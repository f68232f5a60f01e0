import Mathlib.Analysis.Matrix.Order
import Mathlib.Analysis.SpecialFunctions.Exponential
import Mathlib.Analysis.SpecialFunctions.ExpDeriv
import Mathlib.Analysis.SpecialFunctions.Sqrt
import Verif.Model.ResponseSurfaces
import Verif.Spec.LinAlg
import Verif.Proofs.PolyApprox

/-! Gaussian kernel matrices. -/

open Py Model.ResponseSurfaces Matrix

namespace Proofs.Kernel

variable {m n M p : ℕ}

/-- Entrywise power. -/
theorem hadamard_pow_posSemidef {G : Matrix (Fin n) (Fin n) ℝ} (hG : G.PosSemidef) (k : ℕ) :
    (Matrix.of fun i j => G i j ^ k).PosSemidef := by
  induction k with
  | zero =>
    have : (Matrix.of fun i j : Fin n => G i j ^ 0) = Matrix.vecMulVec (fun _ => (1 : ℝ)) (star fun _ => (1 : ℝ)) := by
      ext i j; simp [Matrix.vecMulVec]
    rw [this]
    exact Matrix.posSemidef_vecMulVec_self_star _
  | succ k ih =>
    have : (Matrix.of fun i j : Fin n => G i j ^ (k + 1)) = (Matrix.of fun i j : Fin n => G i j ^ k) ⊙ G := by
      ext i j; simp [Matrix.hadamard, pow_succ]
    rw [this]
    exact ih.hadamard hG

/-- The entrywise exponential of a positive semidefinite matrix. -/
theorem exp_posSemidef {G : Matrix (Fin n) (Fin n) ℝ} (hG : G.PosSemidef) :
    (Matrix.of fun i j => Real.exp (G i j)).PosSemidef := by
  refine Matrix.PosSemidef.of_dotProduct_mulVec_nonneg ?_ fun x => ?_
  · ext i j
    have := hG.isHermitian.apply i j
    simp only [star_trivial] at this
    simp [Matrix.conjTranspose_apply, this]
  · have hs : HasSum (fun k : ℕ => star x ⬝ᵥ ((k.factorial : ℝ)⁻¹ • (Matrix.of fun i j => G i j ^ k)).mulVec x)
        (star x ⬝ᵥ (Matrix.of fun i j => Real.exp (G i j)).mulVec x) := by
      simp only [dotProduct, Matrix.mulVec, Matrix.smul_apply, Matrix.of_apply, smul_eq_mul]
      refine hasSum_sum fun i _ => HasSum.mul_left _ (hasSum_sum fun j _ => HasSum.mul_right _ ?_)
      have h := NormedSpace.expSeries_div_hasSum_exp (G i j)
      rw [← Real.exp_eq_exp_ℝ] at h
      refine h.congr_fun ?_
      intro k
      rw [div_eq_inv_mul]
    refine hs.nonneg fun k => ?_
    rw [Matrix.smul_mulVec, dotProduct_smul]
    exact mul_nonneg (inv_nonneg.mpr (Nat.cast_nonneg _)) ((hadamard_pow_posSemidef hG k).dotProduct_mulVec_nonneg x)

theorem gaussian_posSemidef (X : Matrix (Fin M) (Fin m) ℝ) (ell : Fin m → ℝ) (hl : ∀ k, 0 < ell k) :
    (exponential_squared X X 1 ell).PosSemidef := by
  let A : Matrix (Fin M) (Fin m) ℝ := Matrix.of fun i k => Real.sqrt (2 / ell k) * X i k
  have hG := exp_posSemidef (Matrix.posSemidef_self_mul_conjTranspose A)
  let D : Matrix (Fin M) (Fin M) ℝ := Matrix.diagonal fun i => Real.exp (∑ k, X i k * X i k * (-1 / ell k))
  have hD : D.conjTranspose = D := by
    simp [D, Matrix.diagonal_conjTranspose]
  have key : exponential_squared X X 1 ell = D * (Matrix.of fun i j => Real.exp ((A * A.conjTranspose) i j)) * D.conjTranspose := by
    rw [hD]
    ext i j
    rw [Matrix.mul_diagonal, Matrix.diagonal_mul, exponential_squared, Matrix.of_apply, Matrix.of_apply, one_mul,
      ← Real.exp_add, ← Real.exp_add]
    congr 1
    rw [Matrix.mul_apply, ← Finset.sum_add_distrib, ← Finset.sum_add_distrib]
    refine Finset.sum_congr rfl fun k _ => ?_
    have h1 : Real.sqrt (2 / ell k) * Real.sqrt (2 / ell k) = 2 / ell k :=
      Real.mul_self_sqrt (div_nonneg (by norm_num) (hl k).le)
    have h2 : A i k * A.conjTranspose k j = 2 / ell k * (X i k * X j k) := by
      simp only [A, Matrix.conjTranspose_apply, Matrix.of_apply, star_trivial]
      linear_combination (X i k * X j k) * h1
    rw [h2]
    have := (hl k).ne'
    field_simp
    ring
  rw [key]
  exact hG.mul_mul_conjTranspose_same D

theorem cov_posDef (X : Matrix (Fin M) (Fin m) ℝ) (q : Params M m) (hl : ∀ k, 0 < q.ell k) (hv : ∀ i, 0 < q.v i) :
    (covMat X q).PosDef :=
  Matrix.PosDef.posSemidef_add (gaussian_posSemidef X q.ell hl) (Matrix.PosDef.diagonal hv)

/-! ## Strict definiteness for distinct points -/

/-- The quadratic form of an entrywise power of a Gram matrix is a sum of squared moments. -/
theorem pow_form (A : Matrix (Fin n) (Fin m) ℝ) (w : Fin n → ℝ) (k : ℕ) :
    ∑ i, ∑ j, w i * (∑ l, A i l * A j l) ^ k * w j = ∑ t : Fin k → Fin m, (∑ i, w i * ∏ a, A i (t a)) ^ 2 := by
  have h : ∀ i j, w i * (∑ l, A i l * A j l) ^ k * w j
      = ∑ t : Fin k → Fin m, (w i * ∏ a, A i (t a)) * (w j * ∏ a, A j (t a)) := by
    intro i j
    rw [Fintype.sum_pow, Finset.mul_sum, Finset.sum_mul]
    refine Finset.sum_congr rfl fun t _ => ?_
    rw [Finset.prod_mul_distrib]
    ring
  simp only [h]
  have h2 : ∀ t : Fin k → Fin m, (∑ i, w i * ∏ a, A i (t a)) ^ 2
      = ∑ i, ∑ j, (w i * ∏ a, A i (t a)) * (w j * ∏ a, A j (t a)) := by
    intro t
    rw [sq, Finset.sum_mul_sum]
  simp only [h2]
  conv_rhs => rw [Finset.sum_comm]
  refine Finset.sum_congr rfl fun i _ => ?_
  rw [Finset.sum_comm]

/-- All moments of a null vector vanish. -/
theorem moments_zero (A : Matrix (Fin n) (Fin m) ℝ) (w : Fin n → ℝ)
    (h : ∑ i, ∑ j, w i * Real.exp (∑ l, A i l * A j l) * w j = 0) (k : ℕ) (t : Fin k → Fin m) :
    ∑ i, w i * ∏ a, A i (t a) = 0 := by
  have hs : HasSum (fun k : ℕ => (k.factorial : ℝ)⁻¹ * ∑ t : Fin k → Fin m, (∑ i, w i * ∏ a, A i (t a)) ^ 2) 0 := by
    rw [← h]
    have h1 : HasSum (fun k : ℕ => ∑ i, ∑ j, w i * ((k.factorial : ℝ)⁻¹ * (∑ l, A i l * A j l) ^ k) * w j)
        (∑ i, ∑ j, w i * Real.exp (∑ l, A i l * A j l) * w j) := by
      refine hasSum_sum fun i _ => hasSum_sum fun j _ => HasSum.mul_right _ (HasSum.mul_left _ ?_)
      have h := NormedSpace.expSeries_div_hasSum_exp (∑ l, A i l * A j l)
      rw [← Real.exp_eq_exp_ℝ] at h
      refine h.congr_fun ?_
      intro k
      rw [div_eq_inv_mul]
    refine h1.congr_fun fun k => ?_
    rw [← pow_form, Finset.mul_sum]
    refine Finset.sum_congr rfl fun i _ => ?_
    rw [Finset.mul_sum]
    exact Finset.sum_congr rfl fun j _ => by ring
  have h0 : ∀ k : ℕ, 0 ≤ (k.factorial : ℝ)⁻¹ * ∑ t : Fin k → Fin m, (∑ i, w i * ∏ a, A i (t a)) ^ 2 := fun k =>
    mul_nonneg (inv_nonneg.mpr (Nat.cast_nonneg _)) (Finset.sum_nonneg fun t _ => sq_nonneg _)
  have h1 := (hasSum_zero_iff_of_nonneg h0).mp hs
  have h2 := congrFun h1 k
  have h3 : (∑ t : Fin k → Fin m, (∑ i, w i * ∏ a, A i (t a)) ^ 2) = 0 :=
    (mul_eq_zero.mp h2).resolve_left (inv_ne_zero (by positivity))
  have h4 := (Finset.sum_eq_zero_iff_of_nonneg fun t _ => sq_nonneg _).mp h3 t (Finset.mem_univ t)
  exact pow_eq_zero_iff two_ne_zero |>.mp h4

theorem poly_moment_zero (A : Matrix (Fin n) (Fin m) ℝ) (w : Fin n → ℝ)
    (h : ∑ i, ∑ j, w i * Real.exp (∑ l, A i l * A j l) * w j = 0) (q : MvPolynomial (Fin m) ℝ) :
    ∑ i, w i * MvPolynomial.eval (A i) q = 0 := by
  have key : ∀ t : List (Fin m), ∑ i, w i * (t.map (A i)).prod * MvPolynomial.eval (A i) q = 0 := by
    induction q using MvPolynomial.induction_on with
    | C a =>
      intro t
      have h1 := moments_zero A w h t.length t.get
      have h2 : ∀ i, ∏ a, A i (t.get a) = (t.map (A i)).prod := by
        intro i
        rw [← List.prod_ofFn]
        congr 1
        conv_rhs => rw [← List.ofFn_get t, List.map_ofFn]
        rfl
      simp only [h2] at h1
      simp only [MvPolynomial.eval_C]
      rw [← Finset.sum_mul, h1, zero_mul]
    | add p q hp hq =>
      intro t
      simp only [map_add, mul_add, Finset.sum_add_distrib, hp t, hq t, add_zero]
    | mul_X p k hp =>
      intro t
      have := hp (k :: t)
      rw [← this]
      refine Finset.sum_congr rfl fun i _ => ?_
      rw [List.map_cons, List.prod_cons, map_mul, MvPolynomial.eval_X]
      ring
  have := key []
  simpa using this

theorem exp_form_eq_zero (A : Matrix (Fin n) (Fin m) ℝ) (hA : Function.Injective A) (w : Fin n → ℝ)
    (h : ∑ i, ∑ j, w i * Real.exp (∑ l, A i l * A j l) * w j = 0) : w = 0 := by
  funext i
  let q : MvPolynomial (Fin m) ℝ := ∏ j ∈ Finset.univ.erase i, ∑ k, (MvPolynomial.X k - MvPolynomial.C (A j k)) ^ 2
  have hq : ∀ a, MvPolynomial.eval (A a) q = ∏ j ∈ Finset.univ.erase i, ∑ k, (A a k - A j k) ^ 2 := by
    intro a
    simp [q, map_prod, map_sum]
  have h1 := poly_moment_zero A w h q
  rw [Finset.sum_eq_single i] at h1
  · refine (mul_eq_zero.mp h1).resolve_right ?_
    rw [hq]
    refine Finset.prod_ne_zero_iff.mpr ?_
    intro j hj h0
    have hne : i ≠ j := (Finset.ne_of_mem_erase hj).symm
    apply hne
    apply hA
    funext k
    have := (Finset.sum_eq_zero_iff_of_nonneg fun k _ => sq_nonneg _).mp h0 k (Finset.mem_univ k)
    exact sub_eq_zero.mp (pow_eq_zero_iff two_ne_zero |>.mp this)
  · intro j _ hj
    have : MvPolynomial.eval (A j) q = 0 := by
      rw [hq, Finset.prod_eq_zero_iff]
      exact ⟨j, Finset.mem_erase.mpr ⟨hj, Finset.mem_univ j⟩, by simp⟩
    rw [this, mul_zero]
  · intro h
    exact absurd (Finset.mem_univ i) h

theorem gaussian_posDef (X : Matrix (Fin M) (Fin m) ℝ) (ell : Fin m → ℝ) (hl : ∀ k, 0 < ell k)
    (hX : Function.Injective X) : (exponential_squared X X 1 ell).PosDef := by
  have hpsd := gaussian_posSemidef X ell hl
  refine Matrix.PosDef.of_dotProduct_mulVec_pos hpsd.isHermitian fun x hx => ?_
  refine lt_of_le_of_ne (hpsd.dotProduct_mulVec_nonneg x) fun h0 => hx ?_
  let A : Matrix (Fin M) (Fin m) ℝ := Matrix.of fun i k => Real.sqrt (2 / ell k) * X i k
  have hs : ∀ k, Real.sqrt (2 / ell k) ≠ 0 := fun k => (Real.sqrt_pos.mpr (div_pos (by norm_num) (hl k))).ne'
  have hA : Function.Injective A := by
    intro i j hij
    apply hX
    funext k
    have := congrFun hij k
    exact mul_left_cancel₀ (hs k) this
  let d : Fin M → ℝ := fun i => Real.exp (∑ k, X i k * X i k * (-1 / ell k))
  have hz := exp_form_eq_zero A hA (fun i => x i * d i) ?_
  · funext i
    have := congrFun hz i
    exact (mul_eq_zero.mp this).resolve_right (Real.exp_pos _).ne'
  · rw [h0]
    simp only [dotProduct, Matrix.mulVec, star_trivial, Finset.mul_sum]
    refine Finset.sum_congr rfl fun i _ => Finset.sum_congr rfl fun j _ => ?_
    have hexp : d i * Real.exp (∑ l, A i l * A j l) * d j = exponential_squared X X 1 ell i j := by
      rw [exponential_squared, Matrix.of_apply, one_mul, ← Real.exp_add, ← Real.exp_add]
      congr 1
      rw [← Finset.sum_add_distrib, ← Finset.sum_add_distrib]
      refine Finset.sum_congr rfl fun k _ => ?_
      have h1 : Real.sqrt (2 / ell k) * Real.sqrt (2 / ell k) = 2 / ell k :=
        Real.mul_self_sqrt (div_nonneg (by norm_num) (hl k).le)
      have h2 : A i k * A j k = 2 / ell k * (X i k * X j k) := by
        simp only [A, Matrix.of_apply]
        linear_combination (X i k * X j k) * h1
      rw [h2]
      have := (hl k).ne'
      field_simp
      ring
    rw [← hexp]
    ring

theorem cov_posDef_distinct (X : Matrix (Fin M) (Fin m) ℝ) (q : Params M m) (hl : ∀ k, 0 < q.ell k) (hv : ∀ i, 0 ≤ q.v i)
    (hX : Function.Injective X) : (covMat X q).PosDef :=
  Matrix.PosDef.add_posSemidef (gaussian_posDef X q.ell hl hX) (Matrix.PosSemidef.diagonal hv)

/-! ## The saddle-point system -/

theorem solve_ok {n k : ℕ} {A : Matrix (Fin n) (Fin n) ℝ} (hA : IsUnit A.det) (B : Matrix (Fin n) (Fin k) ℝ) :
    Np.solve A B = .ok (A⁻¹ * B) := by
  rw [Np.solve, if_pos hA]

theorem posDef_det {n : ℕ} {A : Matrix (Fin n) (Fin n) ℝ} (hA : A.PosDef) : IsUnit A.det :=
  (Matrix.isUnit_iff_isUnit_det A).mp hA.isUnit

theorem saddle_mulVec (K : Matrix (Fin M) (Fin M) ℝ) (B : Matrix (Fin M) (Fin p) ℝ) (z : Fin (M + p) → ℝ) :
    (saddle K B).mulVec z = Fin.append (K.mulVec (fun i => z (Fin.castAdd p i)) + B.mulVec (fun j => z (Fin.natAdd M j)))
      (B.transpose.mulVec fun i => z (Fin.castAdd p i)) := by
  funext a
  refine Fin.addCases (fun i => ?_) (fun j => ?_) a
  · rw [Fin.append_left, Matrix.mulVec, dotProduct, Fin.sum_univ_add]
    simp [saddle, Matrix.mulVec, dotProduct]
  · rw [Fin.append_right, Matrix.mulVec, dotProduct, Fin.sum_univ_add]
    simp [saddle, Matrix.mulVec, dotProduct, Np.zeros]

theorem saddle_det {K : Matrix (Fin M) (Fin M) ℝ} (hK : K.PosDef) {B : Matrix (Fin M) (Fin p) ℝ}
    (hB : Spec.FullColumnRank B) : IsUnit (saddle K B).det := by
  rw [← Matrix.isUnit_iff_isUnit_det, ← Matrix.mulVec_injective_iff_isUnit]
  intro z z' hz
  rw [← sub_eq_zero]
  have h0 : (saddle K B).mulVec (z - z') = 0 := by rw [Matrix.mulVec_sub]; exact sub_eq_zero.mpr hz
  generalize z - z' = d at h0
  rw [saddle_mulVec] at h0
  set x : Fin M → ℝ := fun i => d (Fin.castAdd p i) with hx
  set y : Fin p → ℝ := fun j => d (Fin.natAdd M j) with hy
  have h1 : K.mulVec x + B.mulVec y = 0 := by
    funext i
    have := congrFun h0 (Fin.castAdd p i)
    rwa [Fin.append_left] at this
  have h2 : B.transpose.mulVec x = 0 := by
    funext j
    have := congrFun h0 (Fin.natAdd M j)
    rwa [Fin.append_right] at this
  have h3 : x ⬝ᵥ K.mulVec x = 0 := by
    have h4 : x ⬝ᵥ (K.mulVec x + B.mulVec y) = 0 := by rw [h1, dotProduct_zero]
    rw [dotProduct_add, Matrix.dotProduct_mulVec x B y, ← Matrix.mulVec_transpose, h2, zero_dotProduct, add_zero] at h4
    exact h4
  have hx0 : x = 0 := by
    by_contra hne
    have := hK.dotProduct_mulVec_pos hne
    rw [star_trivial, h3] at this
    exact lt_irrefl _ this
  have hy0 : y = 0 := by
    rw [hx0, Matrix.mulVec_zero, zero_add] at h1
    exact hB (h1.trans (Matrix.mulVec_zero B).symm)
  funext a
  refine Fin.addCases (fun i => ?_) (fun j => ?_) a
  · exact congrFun hx0 i
  · exact congrFun hy0 j

end Proofs.Kernel
