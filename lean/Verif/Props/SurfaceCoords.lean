import Verif.Props.Recovery
import Verif.Props.Equivariance
import Verif.Props.RBFObjective
import Verif.Props.Columns

/-!
# Property C136: the response surfaces follow a change of the coordinates

`x = A x' + c`, and `f' = a f + b`.
-/

open Py Model.ResponseSurfaces MvPolynomial Proofs.PolyApprox Proofs.Kernel Proofs.RBF Spec

namespace Props

variable {M m N p : ℕ}

/-! ## What is to be shown -/

/-- The rows of `X` and `X'` are the same points, `x = A x' + c`. -/
def SamePoints (A : Matrix (Fin m) (Fin m) ℝ) (c : Fin m → ℝ) (X X' : Matrix (Fin M) (Fin m) ℝ) : Prop :=
  ∀ i k, X i k = ∑ l, A k l * X' i l + c k

/-- Values and gradients of two surfaces at the same points: the second surface is `a` times the first plus `b`. -/
def Tracks (A : Matrix (Fin m) (Fin m) ℝ) (c : Fin m → ℝ) (a b : ℝ) (s s' : Arr → Bool → Except Err (NpVec × Option NpMat)) : Prop :=
  ∀ (M : ℕ) (Y Y' : Matrix (Fin M) (Fin m) ℝ), SamePoints A c Y Y' → ∃ (g : Fin M → ℝ) (G : Matrix (Fin M) (Fin m) ℝ),
    s (.mat (NpMat.of Y)) false = .ok (NpVec.of g, none) ∧ s' (.mat (NpMat.of Y')) false = .ok (NpVec.of fun i => a * g i + b, none) ∧
    s (.mat (NpMat.of Y)) true = .ok (NpVec.of g, some (NpMat.of G)) ∧
    s' (.mat (NpMat.of Y')) true = .ok (NpVec.of fun i => a * g i + b, some (NpMat.of (a • (G * A))))

/-! ## Polynomials in the new coordinates -/

/-- The variables `x = A x' + c`. -/
noncomputable def affVars (A : Matrix (Fin m) (Fin m) ℝ) (c : Fin m → ℝ) (l : Fin m) : MvPolynomial (Fin m) ℝ := ∑ k, C (A l k) * X k + C (c l)

theorem affVars_eval (A : Matrix (Fin m) (Fin m) ℝ) (c y : Fin m → ℝ) (P : MvPolynomial (Fin m) ℝ) :
    eval y (bind₁ (affVars A c) P) = eval (A.mulVec y + c) P := by
  rw [Proofs.Rotation.eval_bind]
  congr 2
  funext l
  simp [affVars, Matrix.mulVec, dotProduct]

theorem affVars_degree (A : Matrix (Fin m) (Fin m) ℝ) (c : Fin m → ℝ) (P : MvPolynomial (Fin m) ℝ) :
    (bind₁ (affVars A c) P).totalDegree ≤ P.totalDegree :=
  Proofs.Rotation.totalDegree_bind _ (fun l => Proofs.Rotation.totalDegree_affine (A l) (c l)) P

theorem affVars_grad (A : Matrix (Fin m) (Fin m) ℝ) (c y : Fin m → ℝ) (P : MvPolynomial (Fin m) ℝ) (k : Fin m) :
    eval y (pderiv k (bind₁ (affVars A c) P)) = ∑ l, eval (A.mulVec y + c) (pderiv l P) * A l k := by
  rw [pderiv_bind, map_sum]
  refine Finset.sum_congr rfl fun l _ => ?_
  have h : pderiv k (affVars A c l) = C (A l k) := by
    rw [affVars, map_add, pderiv_C, add_zero]
    exact linVars_pderiv A k l
  rw [map_mul, affVars_eval, h, eval_C]

theorem affVars_inv {A A' : Matrix (Fin m) (Fin m) ℝ} (hA : A * A' = 1) (c : Fin m → ℝ) (P : MvPolynomial (Fin m) ℝ) :
    bind₁ (affVars A c) (bind₁ (affVars A' (-A'.mulVec c)) P) = P := by
  refine MvPolynomial.funext fun y => ?_
  rw [affVars_eval, affVars_eval, Matrix.mulVec_add, Matrix.mulVec_mulVec, mul_eq_one_comm.mp hA, Matrix.one_mulVec, add_neg_cancel_right]

theorem SamePoints.row {A : Matrix (Fin m) (Fin m) ℝ} {c : Fin m → ℝ} {X X' : Matrix (Fin M) (Fin m) ℝ} (h : SamePoints A c X X') (i : Fin M) :
    X i = A.mulVec (X' i) + c :=
  funext fun k => h i k

theorem SamePoints.symm {A A' : Matrix (Fin m) (Fin m) ℝ} (hA : A * A' = 1) {c : Fin m → ℝ} {X X' : Matrix (Fin M) (Fin m) ℝ}
    (h : SamePoints A c X X') : SamePoints A' (-A'.mulVec c) X' X := by
  intro i k
  have h1 : X' i = A'.mulVec (X i) + -A'.mulVec c := by
    rw [h.row, Matrix.mulVec_add, Matrix.mulVec_mulVec, mul_eq_one_comm.mp hA, Matrix.one_mulVec, add_neg_cancel_right]
  exact congrFun h1 k

/-! ## Polynomial surfaces -/

/-- A polynomial of degree `N` that minimises the weighted sum of squares. -/
def PolyFit (N : ℕ) (X : Matrix (Fin M) (Fin m) ℝ) (f w : Fin M → ℝ) (P : MvPolynomial (Fin m) ℝ) : Prop :=
  P.totalDegree ≤ N ∧ ∀ q : MvPolynomial (Fin m) ℝ, q.totalDegree ≤ N →
    ∑ i, (w i * (eval (X i) P - f i)) ^ 2 ≤ ∑ i, (w i * (eval (X i) q - f i)) ^ 2

theorem polyFit_unique {X : Matrix (Fin M) (Fin m) ℝ} (hX : Unisolvent N X) {f w : Fin M → ℝ} (hw : ∀ i, w i ≠ 0) {P R : MvPolynomial (Fin m) ℝ}
    (hP : PolyFit N X f w P) (hR : PolyFit N X f w R) : P = R := by
  have hdeg : (P - R).totalDegree ≤ N := (totalDegree_sub _ _).trans (max_le hP.1 hR.1)
  have hmid : (C (1 / 2) * (P + R) : MvPolynomial (Fin m) ℝ).totalDegree ≤ N := by
    refine (totalDegree_mul _ _).trans ?_
    rw [totalDegree_C, zero_add]
    exact (totalDegree_add _ _).trans (max_le hP.1 hR.1)
  have h1 := hP.2 _ hmid
  have h2 := hR.2 _ hmid
  have h3 : ∑ i, (w i * (eval (X i) (C (1 / 2) * (P + R)) - f i)) ^ 2
      = 1 / 2 * ∑ i, (w i * (eval (X i) P - f i)) ^ 2 + 1 / 2 * ∑ i, (w i * (eval (X i) R - f i)) ^ 2
        - 1 / 4 * ∑ i, (w i * eval (X i) (P - R)) ^ 2 := by
    simp only [Finset.mul_sum, ← Finset.sum_add_distrib, ← Finset.sum_sub_distrib]
    refine Finset.sum_congr rfl fun i _ => ?_
    simp only [map_mul, map_add, map_sub, eval_C]
    ring
  have hnn : ∀ i ∈ Finset.univ, 0 ≤ (w i * eval (X i) (P - R)) ^ 2 := fun i _ => sq_nonneg _
  have h4 : ∑ i, (w i * eval (X i) (P - R)) ^ 2 = 0 := le_antisymm (by linarith) (Finset.sum_nonneg hnn)
  refine sub_eq_zero.mp (hX _ hdeg fun i => ?_)
  have h5 := (Finset.sum_eq_zero_iff_of_nonneg hnn).mp h4 i (Finset.mem_univ i)
  rw [pow_eq_zero_iff (by norm_num)] at h5
  exact (mul_eq_zero.mp h5).resolve_left (hw i)

theorem degree_scaled (t s : ℝ) {R : MvPolynomial (Fin m) ℝ} (hR : R.totalDegree ≤ N) : (C t * R + C s).totalDegree ≤ N := by
  refine (totalDegree_add _ _).trans (max_le ((totalDegree_mul _ _).trans ?_) (by simp))
  rw [totalDegree_C, zero_add]
  exact hR

theorem polyFit_moved {X X' : Matrix (Fin M) (Fin m) ℝ} {A A' : Matrix (Fin m) (Fin m) ℝ} (hA : A * A' = 1) {c : Fin m → ℝ}
    (h : SamePoints A c X X') {f w : Fin M → ℝ} (a b : ℝ) {P : MvPolynomial (Fin m) ℝ} (hP : PolyFit N X f w P) :
    PolyFit N X' (fun i => a * f i + b) w (C a * bind₁ (affVars A c) P + C b) := by
  refine ⟨degree_scaled _ _ ((affVars_degree _ _ _).trans hP.1), fun q hq => ?_⟩
  have e1 : ∀ i, (w i * (eval (X' i) (C a * bind₁ (affVars A c) P + C b) - (a * f i + b))) ^ 2 = a ^ 2 * (w i * (eval (X i) P - f i)) ^ 2 := by
    intro i
    rw [map_add, map_mul, eval_C, eval_C, affVars_eval, ← h.row]
    ring
  simp only [e1, ← Finset.mul_sum]
  rcases eq_or_ne a 0 with rfl | ha
  · rw [zero_pow two_ne_zero, zero_mul]
    exact Finset.sum_nonneg fun i _ => sq_nonneg _
  · have h1 := hP.2 (C a⁻¹ * bind₁ (affVars A' (-A'.mulVec c)) q + C (-b / a)) (degree_scaled _ _ ((affVars_degree _ _ _).trans hq))
    have e2 : ∀ i, (w i * (eval (X' i) q - (a * f i + b))) ^ 2
        = a ^ 2 * (w i * (eval (X i) (C a⁻¹ * bind₁ (affVars A' (-A'.mulVec c)) q + C (-b / a)) - f i)) ^ 2 := by
      intro i
      rw [map_add, map_mul, eval_C, eval_C, affVars_eval, ← (h.symm hA).row]
      field_simp
      ring
    simp only [e2, ← Finset.mul_sum]
    exact mul_le_mul_of_nonneg_left h1 (sq_nonneg _)

theorem unisolvent_moved {X X' : Matrix (Fin M) (Fin m) ℝ} {A A' : Matrix (Fin m) (Fin m) ℝ} (hA : A * A' = 1) {c : Fin m → ℝ}
    (h : SamePoints A c X X') (hu : Unisolvent N X) : Unisolvent N X' := by
  intro q hq h0
  have h1 := hu (bind₁ (affVars A' (-A'.mulVec c)) q) ((affVars_degree _ _ _).trans hq) fun i => by
    rw [affVars_eval, ← (h.symm hA).row, h0]
  rw [← affVars_inv hA c q, h1, map_zero]

theorem npVar_moved (hM : 0 < M) (f : Fin M → ℝ) (a b : ℝ) : npVar (fun i => a * f i + b) = a ^ 2 * npVar f := by
  have hM' : (M : ℝ) ≠ 0 := by exact_mod_cast hM.ne'
  have h1 : (∑ j, (a * f j + b)) / M = a * ((∑ j, f j) / M) + b := by
    rw [Finset.sum_add_distrib, ← Finset.mul_sum, Finset.sum_const, Finset.card_univ, Fintype.card_fin, nsmul_eq_mul]
    field_simp
  have h2 : ∀ i, (a * f i + b - (a * ((∑ j, f j) / M) + b)) ^ 2 = a ^ 2 * (f i - (∑ j, f j) / M) ^ 2 := fun i => by ring
  rw [npVar, npVar, h1]
  simp only [h2, ← Finset.mul_sum]
  rw [mul_div_assoc]

/-- C136: `PolynomialApproximation`, for every invertible `A`. -/
theorem C136_polynomial (lib : Lib) (hl : LstsqOK lib) (w : PolyApprox) (hm : 1 ≤ m) (hN : 1 ≤ w.N) {X X' : Matrix (Fin M) (Fin m) ℝ}
    (f : Fin M → ℝ) (weights : Option (Fin M → ℝ)) (hw : ∀ i, (weights.getD fun _ => 1) i ≠ 0) (hu : Unisolvent w.N X)
    {A A' : Matrix (Fin m) (Fin m) ℝ} (hA : A * A' = 1) {c : Fin m → ℝ} (h : SamePoints A c X X') (a b : ℝ) :
    ∃ w1 w2, (fit lib X f weights).run w = (.ok (), w1) ∧ (fit lib X' (fun i => a * f i + b) weights).run w = (.ok (), w2) ∧
      Tracks A c a b w1.predict w2.predict ∧ (weights = none → a ≠ 0 → w2.Rsqr = w1.Rsqr) := by
  have hM := card_le_of_unisolvent hm X hu
  obtain ⟨w1, P, r1, d1, -, -, -, p1, -, -, m1, R1⟩ := fit_ok lib hl w hm hN X f weights hM
  obtain ⟨w2, P', r2, d2, -, -, -, p2, -, -, m2, R2⟩ := fit_ok lib hl w hm hN X' (fun i => a * f i + b) weights hM
  obtain rfl : P' = C a * bind₁ (affVars A c) P + C b :=
    polyFit_unique (unisolvent_moved hA h hu) hw ⟨d2, m2⟩ (polyFit_moved hA h a b ⟨d1, m1⟩)
  refine ⟨w1, w2, r1, r2, fun M' Y Y' hY => ?_, fun hn ha => ?_⟩
  · have e1 : (fun i => eval (Y' i) (C a * bind₁ (affVars A c) P + C b)) = fun i => a * eval (Y i) P + b := by
      funext i
      rw [map_add, map_mul, eval_C, eval_C, affVars_eval, ← hY.row]
    have e2 : (Matrix.of fun i k => eval (Y' i) (pderiv k (C a * bind₁ (affVars A c) P + C b)))
        = a • ((Matrix.of fun i k => eval (Y i) (pderiv k P)) * A) := by
      ext i k
      rw [Matrix.of_apply, map_add, pderiv_C, add_zero, Derivation.leibniz, pderiv_C, smul_zero, add_zero, smul_eq_mul, map_mul, eval_C,
        affVars_grad, ← hY.row, Matrix.smul_apply, Matrix.mul_apply]
      rfl
    refine ⟨_, _, (p1 M' Y).1, ?_, (p1 M' Y).2, ?_⟩
    · rw [(p2 M' Y').1, e1]
    · rw [(p2 M' Y').2, e1, e2]
  · subst hn
    have hM0 : 0 < M := lt_of_lt_of_le (Nat.choose_pos (by omega)) hM
    simp only [Option.getD_none, one_mul] at R1 R2
    have e1 : ∀ i, (eval (X' i) (C a * bind₁ (affVars A c) P + C b) - (a * f i + b)) ^ 2 = a ^ 2 * (eval (X i) P - f i) ^ 2 := by
      intro i
      rw [map_add, map_mul, eval_C, eval_C, affVars_eval, ← h.row]
      ring
    rw [R1, R2, npVar_moved hM0]
    simp only [e1, ← Finset.mul_sum]
    congr 2
    rw [mul_left_comm, mul_div_mul_left _ _ (pow_ne_zero 2 ha)]

/-! ## The basis in the new coordinates -/

/-- A change of basis for the monomials. -/
theorem basis_change {I : List (Fin m → ℕ)} (hnd : I.Nodup) (hmem : ∀ α, α ∈ I ↔ ∑ k, α k ≤ N) {A A' : Matrix (Fin m) (Fin m) ℝ}
    (hA : A * A' = 1) (c : Fin m → ℝ) : ∃ T T' : Matrix (Fin I.length) (Fin I.length) ℝ, T * T' = 1 ∧
      (∀ u, fitted I (T.mulVec u) = bind₁ (affVars A c) (fitted I u)) ∧
      ∀ (M : ℕ) (X X' : Matrix (Fin M) (Fin m) ℝ), SamePoints A c X X' → monomials X' I * T = monomials X I := by
  have hfit : ∀ (B : Matrix (Fin m) (Fin m) ℝ) (d : Fin m → ℝ), ∃ T : Matrix (Fin I.length) (Fin I.length) ℝ,
      ∀ u, fitted I (T.mulVec u) = bind₁ (affVars B d) (fitted I u) := by
    intro B d
    refine ⟨Matrix.of fun j i => coeff (fin (I.get j)) (bind₁ (affVars B d) (monomial (fin (I.get i)) 1)), fun u => ?_⟩
    rw [eq_fitted I hnd (fun α hα => (hmem α).mpr hα) (bind₁ (affVars B d) (fitted I u))
      ((affVars_degree _ _ _).trans (totalDegree_fitted I u fun α hα => (hmem α).mp hα))]
    congr 1
    funext j
    have h1 : fitted I u = ∑ i, C (u i) * monomial (fin (I.get i)) 1 := by
      rw [fitted]
      refine Finset.sum_congr rfl fun i _ => ?_
      rw [C_mul_monomial, mul_one]
    rw [h1, map_sum, coeff_sum]
    simp only [map_mul, Matrix.mulVec, dotProduct, Matrix.of_apply]
    refine Finset.sum_congr rfl fun i _ => ?_
    rw [bind₁_C_right, coeff_C_mul, mul_comm]
  obtain ⟨T, hT⟩ := hfit A c
  obtain ⟨T', hT'⟩ := hfit A' (-A'.mulVec c)
  have hinj : Function.Injective (fitted I) := by
    intro u v huv
    funext j
    rw [← coeff_fitted I hnd u j, huv, coeff_fitted I hnd v j]
  refine ⟨T, T', ?_, hT, fun M X X' h => ?_⟩
  · refine Matrix.ext_of_mulVec_single fun j => ?_
    rw [← Matrix.mulVec_mulVec, Matrix.one_mulVec]
    apply hinj
    rw [hT, hT', affVars_inv hA]
  · refine Matrix.ext_of_mulVec_single fun j => ?_
    rw [← Matrix.mulVec_mulVec, mulVec_monomials, mulVec_monomials, hT]
    funext i
    rw [affVars_eval, ← h.row]

/-! ## Radial basis surfaces -/

/-- The importance of the variables: the eigenvalues, or 1 if none are given. -/
def importance (m : ℕ) (e : Option NpVec) (k : Fin m) : ℝ :=
  match e with
  | none => 1
  | some u => if h : (k : ℕ) < u.n then u.val ⟨k, h⟩ else 0

/-- `A` preserves the sum of squares weighted by the importance of the variables. -/
def Keeps (e : Option NpVec) (A : Matrix (Fin m) (Fin m) ℝ) : Prop :=
  ∀ d : Fin m → ℝ, ∑ k, importance m e k * (∑ l, A k l * d l) ^ 2 = ∑ k, importance m e k * d k ^ 2

theorem params_ell {g : ℝ} {v e : Option NpVec} {q : Params M m} (h : params M m g v e = .ok q) :
    ∃ t : ℝ, ∀ k, -1 / q.ell k = t * importance m e k := by
  cases e with
  | none =>
    refine ⟨-1 / g, fun k => ?_⟩
    rw [importance, mul_one]
    cases v with
    | none => cases h; rfl
    | some v =>
      simp only [params] at h
      split_ifs at h
      cases h; rfl
  | some u =>
    by_cases hu : m ≤ u.n
    · refine ⟨-1 / (g * ∑ i, u.val i), fun k => ?_⟩
      have hk : q.ell k = g * (∑ i, u.val i) / u.val (Fin.castLE hu k) := by
        cases v with
        | none =>
          simp only [params, dif_pos hu] at h
          cases h; rfl
        | some v =>
          simp only [params, dif_pos hu] at h
          split_ifs at h
          cases h; rfl
      have hi : importance m (some u) k = u.val (Fin.castLE hu k) := dif_pos (lt_of_lt_of_le k.2 hu)
      rw [hk, hi, div_div_eq_mul_div, div_mul_eq_mul_div]
    · simp [params, dif_neg hu] at h

theorem kernel_moved {M1 M2 : ℕ} {A : Matrix (Fin m) (Fin m) ℝ} {c : Fin m → ℝ} {e : Option NpVec} (hk : Keeps e A) {ell : Fin m → ℝ}
    (hell : ∃ t : ℝ, ∀ k, -1 / ell k = t * importance m e k) {X X' : Matrix (Fin M1) (Fin m) ℝ} {Y Y' : Matrix (Fin M2) (Fin m) ℝ}
    (h : SamePoints A c X X') (h2 : SamePoints A c Y Y') : exponential_squared X Y 1 ell = exponential_squared X' Y' 1 ell := by
  obtain ⟨t, ht⟩ := hell
  ext i j
  rw [exponential_squared, exponential_squared, Matrix.of_apply, Matrix.of_apply]
  congr 2
  have h3 := congrArg (t * ·) (hk fun l => X' i l - Y' j l)
  simp only [Finset.mul_sum] at h3
  refine Eq.trans (Finset.sum_congr rfl fun k _ => ?_) (h3.trans (Finset.sum_congr rfl fun k _ => ?_))
  · have : X i k - Y j k = ∑ l, A k l * (X' i l - Y' j l) := by
      rw [h i k, h2 j k]
      simp only [mul_sub, Finset.sum_sub_distrib]
      ring
    rw [ht, this]
    ring
  · rw [ht]
    ring

theorem covMat_moved {A : Matrix (Fin m) (Fin m) ℝ} {c : Fin m → ℝ} {e : Option NpVec} (hk : Keeps e A) {q : Params M m}
    (hell : ∃ t : ℝ, ∀ k, -1 / q.ell k = t * importance m e k) {X X' : Matrix (Fin M) (Fin m) ℝ}
    (h : SamePoints A c X X') : covMat X q = covMat X' q := by
  rw [covMat, covMat, kernel_moved hk hell h h]

theorem isUnit_det_congr {n : ℕ} {S S' : Matrix (Fin n) (Fin n) ℝ} (h : ∀ v, S'.mulVec v = 0 → (∀ u, S.mulVec u = 0 → u = 0) → v = 0)
    (hS : IsUnit S.det) : IsUnit S'.det := by
  rw [isUnit_iff_ne_zero] at hS ⊢
  have h1 : ∀ u, S.mulVec u = 0 → u = 0 := fun u hu => Matrix.eq_zero_of_mulVec_eq_zero hS hu
  intro h0
  obtain ⟨v, hv, hv0⟩ := Matrix.exists_mulVec_eq_zero_iff.mpr h0
  exact hv (h v hv0 h1)

theorem det_conj {T T' G G' : Matrix (Fin p) (Fin p) ℝ} (hT : T * T' = 1) (h : G = T.transpose * G' * T) : IsUnit G.det ↔ IsUnit G'.det := by
  have hd : IsUnit T.det := (Matrix.isUnit_iff_isUnit_det T).mp ⟨⟨T, T', hT, mul_eq_one_comm.mp hT⟩, rfl⟩
  rw [h, Matrix.det_mul, Matrix.det_mul, Matrix.det_transpose, IsUnit.mul_iff, IsUnit.mul_iff]
  tauto

/-- The projection of generalised least squares does not depend on the basis. -/
theorem gls_proj_moved {K : Matrix (Fin M) (Fin M) ℝ} {B B' : Matrix (Fin M) (Fin p) ℝ} {T T' : Matrix (Fin p) (Fin p) ℝ} (hT : T * T' = 1)
    (hB : B' * T = B) (hG : IsUnit (B.transpose * (K⁻¹ * B)).det) :
    B * ((B.transpose * (K⁻¹ * B))⁻¹ * B.transpose) = B' * ((B'.transpose * (K⁻¹ * B'))⁻¹ * B'.transpose) := by
  have hT2 : T' * T = 1 := mul_eq_one_comm.mp hT
  have hconj : B.transpose * (K⁻¹ * B) = T.transpose * (B'.transpose * (K⁻¹ * B')) * T := by
    rw [← hB, Matrix.transpose_mul]
    simp only [Matrix.mul_assoc]
  have hG' := (det_conj hT hconj).mp hG
  have hinv : (B.transpose * (K⁻¹ * B))⁻¹ = T' * (B'.transpose * (K⁻¹ * B'))⁻¹ * T'.transpose := by
    rw [hconj, Matrix.mul_inv_rev, Matrix.mul_inv_rev, Matrix.inv_eq_right_inv hT,
      Matrix.inv_eq_right_inv (show T.transpose * T'.transpose = 1 by rw [← Matrix.transpose_mul, hT2, Matrix.transpose_one]), Matrix.mul_assoc]
  rw [hinv]
  calc B * (T' * (B'.transpose * (K⁻¹ * B'))⁻¹ * T'.transpose * B.transpose)
      = (B' * (T * T')) * ((B'.transpose * (K⁻¹ * B'))⁻¹ * (T'.transpose * T.transpose) * B'.transpose) := by
        rw [← hB, Matrix.transpose_mul]
        simp only [Matrix.mul_assoc]
    _ = _ := by rw [hT, Matrix.mul_one, ← Matrix.transpose_mul, hT, Matrix.transpose_one, Matrix.mul_one]

/-- The training objective is the same function. -/
theorem objective_moved (lib : Lib) (hm : 1 ≤ m) {X X' : Matrix (Fin M) (Fin m) ℝ} (f : Fin M → ℝ) (v e : Option NpVec)
    {A A' : Matrix (Fin m) (Fin m) ℝ} (hA : A * A' = 1) (hk : Keeps e A) {c : Fin m → ℝ} (h : SamePoints A c X X') {a : ℝ} (ha : a ^ 2 = 1)
    (b t : ℝ) : rbf_objective lib X' (fun i => a * f i + b) v N e t = rbf_objective lib X f v N e t := by
  obtain ⟨I, hI, hnd, hmem, -⟩ := C25_enumerates N m hm
  obtain ⟨T, T', hT, hfit, hB⟩ := basis_change hnd hmem hA c
  replace hB := hB M X X' h
  have hb : ∀ Z : Matrix (Fin M) (Fin m) ℝ, polynomial_bases Z N = .ok ⟨I, monomials Z I⟩ := fun Z => by rw [polynomial_bases, hI]
  unfold rbf_objective
  cases hq : params M m ((10 : ℝ) ^ t) v e with
  | error er => rw [bind_of_error hq, bind_of_error hq]
  | ok q =>
    rw [bind_of_ok hq, bind_of_ok hq, ← covMat_moved hk (params_ell hq) h]
    cases hL : lib.cholesky M (covMat X q) with
    | error er => rw [bind_of_error hL, bind_of_error hL]
    | ok L =>
      rw [bind_of_ok hL, bind_of_ok hL, bind_of_ok (hb X), bind_of_ok (hb X')]
      simp only
      set K := covMat X q
      by_cases hK : IsUnit K.det
      swap
      · have : ∀ Z : Matrix (Fin M) (Fin I.length) ℝ, Np.solve K Z = .error .linAlgError := fun Z => by rw [Np.solve, if_neg hK]
        rw [bind_of_error (this _), bind_of_error (this _)]
      rw [bind_of_ok (solve_ok hK _), bind_of_ok (solve_ok hK _), bind_of_ok (solve_ok hK _), bind_of_ok (solve_ok hK _)]
      have hconj : (monomials X I).transpose * (K⁻¹ * monomials X I) = T.transpose * ((monomials X' I).transpose * (K⁻¹ * monomials X' I)) * T := by
        rw [← hB, Matrix.transpose_mul]
        simp only [Matrix.mul_assoc]
      by_cases hG : IsUnit ((monomials X I).transpose * (K⁻¹ * monomials X I)).det
      swap
      · have h1 : ∀ Z : Matrix (Fin I.length) (Fin 1) ℝ, Np.solve ((monomials X I).transpose * (K⁻¹ * monomials X I)) Z = .error .linAlgError :=
          fun Z => by rw [Np.solve, if_neg hG]
        have h2 : ∀ Z : Matrix (Fin I.length) (Fin 1) ℝ, Np.solve ((monomials X' I).transpose * (K⁻¹ * monomials X' I)) Z = .error .linAlgError :=
          fun Z => by rw [Np.solve, if_neg fun h => hG ((det_conj hT hconj).mpr h)]
        rw [bind_of_error (h1 _), bind_of_error (h2 _)]
      have hG' := (det_conj hT hconj).mp hG
      rw [bind_of_ok (solve_ok hG' _), bind_of_ok (solve_ok hG _), bind_of_ok (solve_ok hK _), bind_of_ok (solve_ok hK _)]
      set P := monomials X I * (((monomials X I).transpose * (K⁻¹ * monomials X I))⁻¹ * (monomials X I).transpose) with hP
      have hP' := gls_proj_moved hT hB hG
      -- constants are reproduced
      have hone : P * (K⁻¹ * colMat fun _ => (1 : ℝ)) = colMat fun _ => 1 := by
        have h0 : (C 1 : MvPolynomial (Fin m) ℝ).totalDegree ≤ N := by simp
        have h1 := mulVec_monomials X I fun j => coeff (fin (I.get j)) (C 1 : MvPolynomial (Fin m) ℝ)
        rw [← eq_fitted I hnd (fun α hα => (hmem α).mpr hα) _ h0] at h1
        simp only [eval_C] at h1
        rw [← h1, ← mulVec_col, hP]
        set B := monomials X I
        set u := colMat fun j => coeff (fin (I.get j)) (C 1 : MvPolynomial (Fin m) ℝ)
        calc B * ((B.transpose * (K⁻¹ * B))⁻¹ * B.transpose) * (K⁻¹ * (B * u))
            = B * ((B.transpose * (K⁻¹ * B))⁻¹ * (B.transpose * (K⁻¹ * B))) * u := by simp only [Matrix.mul_assoc]
          _ = B * u := by rw [Matrix.nonsing_inv_mul _ hG, Matrix.mul_one]
      have hf' : (colMat fun i => a * f i + b) = a • colMat f + b • colMat fun _ : Fin M => (1 : ℝ) := by
        ext i j
        simp [colMat]
      have hres : (colMat fun i => a * f i + b) - monomials X' I * (((monomials X' I).transpose * (K⁻¹ * monomials X' I))⁻¹
            * ((monomials X' I).transpose * (K⁻¹ * colMat fun i => a * f i + b)))
          = a • (colMat f - monomials X I * (((monomials X I).transpose * (K⁻¹ * monomials X I))⁻¹
            * ((monomials X I).transpose * (K⁻¹ * colMat f)))) := by
        have e1 : monomials X' I * (((monomials X' I).transpose * (K⁻¹ * monomials X' I))⁻¹
            * ((monomials X' I).transpose * (K⁻¹ * colMat fun i => a * f i + b))) = P * (K⁻¹ * colMat fun i => a * f i + b) := by
          rw [hP, hP']
          simp only [Matrix.mul_assoc]
        have e2 : monomials X I * (((monomials X I).transpose * (K⁻¹ * monomials X I))⁻¹
            * ((monomials X I).transpose * (K⁻¹ * colMat f))) = P * (K⁻¹ * colMat f) := by
          rw [hP]
          simp only [Matrix.mul_assoc]
        rw [e1, e2, hf', Matrix.mul_add, Matrix.mul_add, Matrix.mul_smul, Matrix.mul_smul, Matrix.mul_smul, Matrix.mul_smul, hone, smul_sub]
        abel
      rw [hres, Matrix.transpose_smul, Matrix.mul_smul, Matrix.smul_mul, Matrix.mul_smul, smul_smul, ← sq, ha, one_smul]

theorem saddle_moved {K : Matrix (Fin M) (Fin M) ℝ} {B B' : Matrix (Fin M) (Fin p) ℝ} {T T' : Matrix (Fin p) (Fin p) ℝ} (hT : T * T' = 1)
    (hB : B' * T = B) (h : IsUnit (saddle K B).det) : IsUnit (saddle K B').det := by
  have hT2 : T' * T = 1 := mul_eq_one_comm.mp hT
  refine isUnit_det_congr (fun z hz h1 => ?_) h
  rw [saddle_mulVec] at hz
  have z1 : K.mulVec (fun i => z (Fin.castAdd p i)) + B'.mulVec (fun j => z (Fin.natAdd M j)) = 0 := by
    funext i
    have := congrFun hz (Fin.castAdd p i)
    rwa [Fin.append_left] at this
  have z2 : (B'.transpose.mulVec fun i => z (Fin.castAdd p i)) = 0 := by
    funext i
    have := congrFun hz (Fin.natAdd M i)
    rwa [Fin.append_right] at this
  have h2 := h1 (Fin.append (fun i => z (Fin.castAdd p i)) (T'.mulVec fun j => z (Fin.natAdd M j))) (by
    rw [saddle_mulVec]
    simp only [Fin.append_left, Fin.append_right]
    have e1 : B.mulVec (fun j => (T'.mulVec fun j => z (Fin.natAdd M j)) j) = B'.mulVec fun j => z (Fin.natAdd M j) := by
      change B.mulVec (T'.mulVec fun j => z (Fin.natAdd M j)) = _
      rw [← hB, Matrix.mulVec_mulVec, Matrix.mul_assoc, hT, Matrix.mul_one]
    have e2 : (B.transpose.mulVec fun i => z (Fin.castAdd p i)) = 0 := by
      rw [← hB, Matrix.transpose_mul, ← Matrix.mulVec_mulVec, z2, Matrix.mulVec_zero]
    rw [e1, z1, e2]
    funext i
    refine Fin.addCases (fun i => ?_) (fun i => ?_) i
    · rw [Fin.append_left]; rfl
    · rw [Fin.append_right]; rfl)
  have h3 : (T'.mulVec fun j => z (Fin.natAdd M j)) = 0 := by
    funext j
    have := congrFun h2 (Fin.natAdd M j)
    rwa [Fin.append_right] at this
  have h4 : (fun j => z (Fin.natAdd M j)) = 0 := by
    rw [← Matrix.one_mulVec (fun j => z (Fin.natAdd M j)), ← hT, ← Matrix.mulVec_mulVec, h3, Matrix.mulVec_zero]
  funext i
  refine Fin.addCases (fun i => ?_) (fun i => ?_) i
  · have := congrFun h2 (Fin.castAdd p i)
    rwa [Fin.append_left] at this
  · exact congrFun h4 i

theorem saddle_unique {K : Matrix (Fin M) (Fin M) ℝ} {B : Matrix (Fin M) (Fin p) ℝ} (h : IsUnit (saddle K B).det) {r r' : Fin M → ℝ}
    {u u' : Fin p → ℝ} (h1 : K.mulVec r + B.mulVec u = K.mulVec r' + B.mulVec u') (h2 : B.transpose.mulVec r = B.transpose.mulVec r') :
    r = r' ∧ u = u' := by
  have hinj := Matrix.mulVec_injective_iff_isUnit.mpr ((Matrix.isUnit_iff_isUnit_det _).mpr h)
  have hz : Fin.append r u = Fin.append r' u' := by
    apply hinj
    rw [saddle_mulVec, saddle_mulVec]
    simp only [Fin.append_left, Fin.append_right]
    exact congrArg₂ Fin.append h1 h2
  constructor
  · funext i
    have := congrFun hz (Fin.castAdd _ i)
    rwa [Fin.append_left, Fin.append_left] at this
  · funext j
    have := congrFun hz (Fin.natAdd M j)
    rwa [Fin.append_right, Fin.append_right] at this

theorem rbfFit_moved (hm : 1 ≤ m) {X X' : Matrix (Fin M) (Fin m) ℝ} (f : Fin M → ℝ) (v e : Option NpVec)
    {A A' : Matrix (Fin m) (Fin m) ℝ} (hA : A * A' = 1) (hk : Keeps e A) {c : Fin m → ℝ} (h : SamePoints A c X X') {a : ℝ} (ha : a ^ 2 = 1)
    (b g : ℝ) : (∃ er, rbfFit X f v N e g = .error er ∧ rbfFit X' (fun i => a * f i + b) v N e g = .error er) ∨
      ∃ t t' : Fit M m, rbfFit X f v N e g = .ok t ∧ rbfFit X' (fun i => a * f i + b) v N e g = .ok t' ∧ t'.q = t.q ∧ t'.K = t.K ∧
        t'.radial = (fun i => a * t.radial i) ∧ fitted t'.I t'.poly = C a * bind₁ (affVars A c) (fitted t.I t.poly) + C b ∧
        (b = 0 → t'.Rsqr = t.Rsqr) := by
  obtain ⟨I, hI, hnd, hmem, -⟩ := C25_enumerates N m hm
  obtain ⟨T, T', hT, hfit, hB⟩ := basis_change hnd hmem hA c
  replace hB := hB M X X' h
  have hB2 : monomials X I * T' = monomials X' I := by rw [← hB, Matrix.mul_assoc, hT, Matrix.mul_one]
  have hb : ∀ Z : Matrix (Fin M) (Fin m) ℝ, polynomial_bases Z N = .ok ⟨I, monomials Z I⟩ := fun Z => by rw [polynomial_bases, hI]
  cases hq : params M m g v e with
  | error er =>
    refine .inl ⟨er, ?_, ?_⟩ <;> (unfold rbfFit; rw [bind_of_error hq])
  | ok q =>
    obtain ⟨t0, ht0⟩ := params_ell hq
    have hcov := covMat_moved hk (q := floored q) ⟨t0, ht0⟩ h
    by_cases hS : IsUnit (saddle (covMat X (floored q)) (monomials X I)).det
    swap
    · have hS' : ¬ IsUnit (saddle (covMat X (floored q)) (monomials X' I)).det := fun h1 => hS (saddle_moved (mul_eq_one_comm.mp hT) hB2 h1)
      refine .inl ⟨.linAlgError, ?_, ?_⟩
      · unfold rbfFit
        rw [bind_of_ok hq, bind_of_ok (hb X)]
        simp only
        rw [bind_of_error (show Np.solve _ _ = .error .linAlgError by rw [Np.solve, if_neg hS])]
      · unfold rbfFit
        rw [bind_of_ok hq, bind_of_ok (hb X')]
        simp only
        rw [bind_of_error (show Np.solve _ _ = .error .linAlgError by rw [Np.solve, if_neg]; rw [← hcov]; exact hS')]
    have hS' := saddle_moved hT hB hS
    by_cases hK : IsUnit (covMat X (floored q)).det
    swap
    · refine .inl ⟨.linAlgError, ?_, ?_⟩
      · unfold rbfFit
        rw [bind_of_ok hq, bind_of_ok (hb X)]
        simp only
        rw [bind_of_ok (solve_ok hS _), bind_of_error (show Np.solve _ _ = .error .linAlgError by rw [Np.solve, if_neg hK])]
      · unfold rbfFit
        rw [bind_of_ok hq, bind_of_ok (hb X'), ← hcov]
        simp only
        rw [bind_of_ok (solve_ok hS' _), bind_of_error (show Np.solve _ _ = .error .linAlgError by rw [Np.solve, if_neg hK])]
    obtain ⟨t, ht⟩ : ∃ t, rbfFit X f v N e g = .ok t := by
      unfold rbfFit
      rw [bind_of_ok hq, bind_of_ok (hb X)]
      simp only
      rw [bind_of_ok (solve_ok hS _), bind_of_ok (solve_ok hK _), bind_of_ok (solve_ok hK _)]
      exact ⟨_, rfl⟩
    obtain ⟨t', ht'⟩ : ∃ t, rbfFit X' (fun i => a * f i + b) v N e g = .ok t := by
      unfold rbfFit
      rw [bind_of_ok hq, bind_of_ok (hb X'), ← hcov]
      simp only
      rw [bind_of_ok (solve_ok hS' _), bind_of_ok (solve_ok hK _), bind_of_ok (solve_ok hK _)]
      exact ⟨_, rfl⟩
    refine .inr ⟨t, t', ht, ht', ?_⟩
    obtain ⟨q1, hq1, hqt, hKt, hIt, -, -, e1, e2, e3⟩ := rbfFit_spec ht
    obtain ⟨q2, hq2, hqt', hKt', hIt', -, -, e1', e2', e3'⟩ := rbfFit_spec ht'
    obtain rfl := Except.ok.inj (hq1.symm.trans hq)
    obtain rfl := Except.ok.inj (hq2.symm.trans hq1)
    obtain ⟨q, K, I1, r, u, R⟩ := t
    obtain ⟨q', K', I2, r', u', R'⟩ := t'
    simp only at hqt hKt hIt e1 e2 e3 hqt' hKt' hIt' e1' e2' e3' ⊢
    subst hqt hqt'
    obtain rfl := Except.ok.inj (hIt.symm.trans hI)
    obtain rfl := Except.ok.inj (hIt'.symm.trans hIt)
    rw [← hcov] at hKt'
    subst hKt hKt'
    -- the constant
    obtain ⟨o, ho⟩ : ∃ o, fitted I2 o = (C 1 : MvPolynomial (Fin m) ℝ) :=
      ⟨_, (eq_fitted I2 hnd (fun α hα => (hmem α).mpr hα) (C 1) (by simp)).symm⟩
    have ho' : (monomials X' I2).mulVec o = fun _ => 1 := by
      rw [mulVec_monomials, ho]
      funext i
      rw [eval_C]
    have hBu : (monomials X' I2).mulVec (T.mulVec u) = (monomials X I2).mulVec u := by rw [Matrix.mulVec_mulVec, hB]
    have hsol := saddle_unique hS' (r := r') (r' := a • r) (u := u') (u' := a • T.mulVec u + b • o) (by
      rw [e1', Matrix.mulVec_add, Matrix.mulVec_smul, Matrix.mulVec_smul, Matrix.mulVec_smul, hBu, ho', ← add_assoc, ← smul_add, e1]
      funext i
      simp) (by
      rw [e2', Matrix.mulVec_smul, ← hB2, Matrix.transpose_mul, ← Matrix.mulVec_mulVec, e2, Matrix.mulVec_zero, smul_zero])
    obtain ⟨hr, hu⟩ := hsol
    subst hr hu
    refine ⟨rfl, rfl, rfl, ?_, fun hb0 => ?_⟩
    · have hlin : ∀ x y : Fin I2.length → ℝ, fitted I2 (a • x + b • y) = C a * fitted I2 x + C b * fitted I2 y := by
        intro x y
        refine MvPolynomial.funext fun z => ?_
        simp only [eval_fitted, map_add, map_mul, eval_C, Finset.mul_sum, ← Finset.sum_add_distrib, Pi.add_apply, Pi.smul_apply, smul_eq_mul]
        exact Finset.sum_congr rfl fun j _ => by ring
      rw [hlin, hfit, ho, C_1, mul_one]
    · subst hb0
      have hres : (fun i => a * f i + 0) - (monomials X' I2).mulVec (a • T.mulVec u + (0 : ℝ) • o) = a • (f - (monomials X I2).mulVec u) := by
        rw [zero_smul, add_zero, Matrix.mulVec_smul, hBu, smul_sub]
        congr 1
        funext i
        simp
      have hf0 : (fun i => a * f i + 0) = a • f := by
        funext i
        simp
      rw [e3', e3, hres, hf0]
      simp only [Matrix.mulVec_smul, smul_dotProduct, dotProduct_smul, smul_eq_mul, ← mul_assoc]
      rw [← sq, ha, one_mul, one_mul]

theorem surface_moved {A : Matrix (Fin m) (Fin m) ℝ} {c : Fin m → ℝ} {e : Option NpVec} (hk : Keeps e A) {ell : Fin m → ℝ}
    (hell : ∃ t : ℝ, ∀ k, -1 / ell k = t * importance m e k) {X X' : Matrix (Fin M) (Fin m) ℝ}
    (h : SamePoints A c X X') (r : Fin M → ℝ) (P : MvPolynomial (Fin m) ℝ) (a b : ℝ) (y : Fin m → ℝ) :
    surface X' ell (fun i => a * r i) (C a * bind₁ (affVars A c) P + C b) y = a * surface X ell r P (A.mulVec y + c) + b := by
  have h1 := kernel_moved hk hell (X := Matrix.of fun _ : Fin 1 => A.mulVec y + c) (X' := Matrix.of fun _ : Fin 1 => y) (fun _ _ => rfl) h
  have h2 : ∀ i, Real.exp (-∑ k, ((A.mulVec y + c) k - X i k) ^ 2 / ell k) = Real.exp (-∑ k, (y k - X' i k) ^ 2 / ell k) := by
    intro i
    have h3 := congrFun (congrFun h1 0) i
    simp only [exponential_squared, Matrix.of_apply, one_mul] at h3
    have h4 : ∀ (z : Fin m → ℝ) (Z : Matrix (Fin M) (Fin m) ℝ), -∑ k, (z k - Z i k) ^ 2 / ell k
        = ∑ k, (z k - Z i k) * (z k - Z i k) * (-1 / ell k) := by
      intro z Z
      rw [← Finset.sum_neg_distrib]
      exact Finset.sum_congr rfl fun k _ => by ring
    rw [h4, h4, h3]
  rw [surface, surface, map_add, map_mul, eval_C, eval_C, affVars_eval, mul_add, Finset.mul_sum, ← add_assoc]
  congr 2
  exact Finset.sum_congr rfl fun i _ => by rw [h2]; ring

theorem surfaceGrad_moved {A : Matrix (Fin m) (Fin m) ℝ} {c : Fin m → ℝ} {e : Option NpVec} (hk : Keeps e A) {ell : Fin m → ℝ}
    (hell : ∃ t : ℝ, ∀ k, -1 / ell k = t * importance m e k) {X X' : Matrix (Fin M) (Fin m) ℝ}
    (h : SamePoints A c X X') (r : Fin M → ℝ) (P : MvPolynomial (Fin m) ℝ) (a b : ℝ) (y : Fin m → ℝ) (k : Fin m) :
    surfaceGrad X' ell (fun i => a * r i) (C a * bind₁ (affVars A c) P + C b) y k
      = a * ∑ l, surfaceGrad X ell r P (A.mulVec y + c) l * A l k := by
  -- both are the derivative of the same function
  have d1 := hasFDerivAt_surface X' ell (fun i => a * r i) (C a * bind₁ (affVars A c) P + C b) y
  let L : (Fin m → ℝ) →L[ℝ] (Fin m → ℝ) := ContinuousLinearMap.pi fun l => ∑ k, A l k • (ContinuousLinearMap.proj k : (Fin m → ℝ) →L[ℝ] ℝ)
  have hL : ∀ x, L x = A.mulVec x := by
    intro x
    funext l
    simp [L, Matrix.mulVec, dotProduct]
  have d2 : HasFDerivAt (fun x => L x + c) L y := L.hasFDerivAt.add_const c
  have d3 := hasFDerivAt_surface X ell r P (A.mulVec y + c)
  have d4 : HasFDerivAt (surface X ell r P) (∑ k, surfaceGrad X ell r P (A.mulVec y + c) k • (ContinuousLinearMap.proj k : (Fin m → ℝ) →L[ℝ] ℝ))
      ((fun x => L x + c) y) := by
    rw [show (fun x => L x + c) y = A.mulVec y + c by rw [← hL]]
    exact d3
  have d5 := ((d4.comp y d2).const_mul a).add_const b
  have hfun : (fun x => a * (surface X ell r P ∘ fun x => L x + c) x + b)
      = surface X' ell (fun i => a * r i) (C a * bind₁ (affVars A c) P + C b) := by
    funext x
    rw [surface_moved hk hell h, Function.comp_apply, hL]
  rw [hfun] at d5
  have h6 := congrArg (fun D : (Fin m → ℝ) →L[ℝ] ℝ => D (Pi.single k 1)) (d1.unique d5)
  simpa [hL, Matrix.mulVec_single, Pi.single_apply, Finset.sum_ite_eq] using h6

/-- C136: `RadialBasisApproximation`.  `A` keeps the distances weighted by the eigenvalues given; without eigenvalues `A` is orthogonal. -/
theorem C136_rbf (lib : Lib) (w : RBF) (hm : 1 ≤ m) {X X' : Matrix (Fin M) (Fin m) ℝ} (f : Fin M → ℝ) (v e : Option NpVec)
    {A A' : Matrix (Fin m) (Fin m) ℝ} (hA : A * A' = 1) (hk : Keeps e A) {c : Fin m → ℝ} (h : SamePoints A c X X') {a : ℝ} (ha : a ^ 2 = 1)
    (b : ℝ) : (∃ er, (rfit lib X f v e).run w = (.error er, w) ∧ (rfit lib X' (fun i => a * f i + b) v e).run w = (.error er, w)) ∨
      ∃ w1 w2, (rfit lib X f v e).run w = (.ok (), w1) ∧ (rfit lib X' (fun i => a * f i + b) v e).run w = (.ok (), w2) ∧
        Tracks A c a b w1.predict w2.predict ∧ w2.ell = w1.ell ∧ w2.K = w1.K ∧ (b = 0 → w2.Rsqr = w1.Rsqr) := by
  have hT : (∃ er, rbfTrainMat lib w.N X f v e = .error er ∧ rbfTrainMat lib w.N X' (fun i => a * f i + b) v e = .error er) ∨
      ∃ (t t' : Fit M m) (g : ℝ), rbfTrainMat lib w.N X f v e = .ok t ∧ rbfTrainMat lib w.N X' (fun i => a * f i + b) v e = .ok t' ∧
        rbfFit X f v w.N e g = .ok t ∧ rbfFit X' (fun i => a * f i + b) v w.N e g = .ok t' ∧ t'.q = t.q ∧ t'.K = t.K ∧
        t'.radial = (fun i => a * t.radial i) ∧ fitted t'.I t'.poly = C a * bind₁ (affVars A c) (fitted t.I t.poly) + C b ∧
        (b = 0 → t'.Rsqr = t.Rsqr) := by
    unfold rbfTrainMat
    have hobj : rbf_objective lib X' (fun i => a * f i + b) v w.N e = rbf_objective lib X f v w.N e :=
      funext fun t => objective_moved lib hm f v e hA hk h ha b t
    rw [hobj]
    split_ifs
    · exact .inl ⟨_, rfl, rfl⟩
    · cases lib.fminbound (rbf_objective lib X f v w.N e) (-10) 1 with
      | error er => exact .inl ⟨er, rfl, rfl⟩
      | ok y =>
        rcases rbfFit_moved hm f v e hA hk h ha b ((10 : ℝ) ^ y) (N := w.N) with ⟨er, h1, h2⟩ | ⟨t, t', h1, h2, h3⟩
        · exact .inl ⟨er, h1, h2⟩
        · exact .inr ⟨t, t', _, h1, h2, h1, h2, h3⟩
  rw [rfit_run, rfit_run]
  rcases hT with ⟨er, h1, h2⟩ | ⟨t, t', g, h1, h2, h3, h4, hq, hK, hr, hp, hR⟩
  · rw [h1, h2]
    exact .inl ⟨er, rfl, rfl⟩
  · rw [h1, h2]
    refine .inr ⟨_, _, rfl, rfl, fun M' Y Y' hY => ?_, by rw [hq], by rw [hK], fun hb => by rw [hR hb]⟩
    obtain ⟨q1, hq1, hqt, -, hIt, -⟩ := rbfFit_spec h3
    obtain ⟨q2, hq2, hqt', -, hIt', -⟩ := rbfFit_spec h4
    have hell : ∃ s : ℝ, ∀ k, -1 / t.q.ell k = s * importance m e k := by
      obtain ⟨s, hs⟩ := params_ell hq1
      rw [hqt]
      exact ⟨s, hs⟩
    obtain ⟨p1, p2⟩ := rbfPredict_eq (hI := hIt) X t.q.ell t.radial t.poly rfl rfl rfl rfl Y
      (s := { w with X := some (NpMat.of X), f := some (NpVec.of f), Rsqr := some t.Rsqr, K := some (NpMat.of t.K),
                     ell := some (NpVec.of t.q.ell), radial_weights := some (NpVec.of t.radial), poly_weights := some (NpVec.of t.poly) })
    obtain ⟨p1', p2'⟩ := rbfPredict_eq (hI := hIt') X' t'.q.ell t'.radial t'.poly rfl rfl rfl rfl Y'
      (s := { w with X := some (NpMat.of X'), f := some (NpVec.of fun i => a * f i + b), Rsqr := some t'.Rsqr, K := some (NpMat.of t'.K),
                     ell := some (NpVec.of t'.q.ell), radial_weights := some (NpVec.of t'.radial), poly_weights := some (NpVec.of t'.poly) })
    have v1 : (fun i => surface X' t'.q.ell t'.radial (fitted t'.I t'.poly) (Y' i))
        = fun i => a * surface X t.q.ell t.radial (fitted t.I t.poly) (Y i) + b := by
      funext i
      rw [hp, hr, hq, surface_moved hk hell h, ← hY.row]
    have v2 : (Matrix.of fun i k => surfaceGrad X' t'.q.ell t'.radial (fitted t'.I t'.poly) (Y' i) k)
        = a • ((Matrix.of fun i k => surfaceGrad X t.q.ell t.radial (fitted t.I t.poly) (Y i) k) * A) := by
      ext i k
      rw [Matrix.of_apply, hp, hr, hq, surfaceGrad_moved hk hell h, ← hY.row, Matrix.smul_apply, Matrix.mul_apply]
      rfl
    exact ⟨_, _, p1, by rw [p1', v1], p2, by rw [p2', v1, v2]⟩

/-! ## Surfaces on the active variables -/

open Model.Subspaces Model.Domains Model.ActiveSurfaces Model.QPSolver

variable {S E R : Type} {n k k' : ℕ}

/-- Two orthonormal bases of the same subspace, the second in the new coordinates. -/
theorem basis_turn {Q : Matrix (Fin m) (Fin m) ℝ} (hQ : Q.transpose * Q = 1) {V1 V1' : Matrix (Fin m) (Fin n) ℝ} (h1 : V1.transpose * V1 = 1)
    (h1' : V1'.transpose * V1' = 1) (h : V1' * V1'.transpose = Q.transpose * (V1 * V1.transpose) * Q) :
    ∃ U : Matrix (Fin n) (Fin n) ℝ, U = V1.transpose * Q * V1' ∧ U * U.transpose = 1 ∧ U.transpose * U = 1 ∧ V1' = Q.transpose * V1 * U := by
  have hQ' : Q * Q.transpose = 1 := mul_eq_one_comm.mp hQ
  refine ⟨_, rfl, ?_, ?_, ?_⟩
  · rw [Matrix.transpose_mul, Matrix.transpose_mul, Matrix.transpose_transpose]
    calc V1.transpose * Q * V1' * (V1'.transpose * (Q.transpose * V1)) = V1.transpose * Q * (V1' * V1'.transpose) * Q.transpose * V1 := by
          simp only [Matrix.mul_assoc]
      _ = V1.transpose * (Q * Q.transpose) * (V1 * V1.transpose) * (Q * Q.transpose) * V1 := by rw [h]; simp only [Matrix.mul_assoc]
      _ = (V1.transpose * V1) * (V1.transpose * V1) := by rw [hQ', Matrix.mul_one, Matrix.mul_one]; simp only [Matrix.mul_assoc]
      _ = 1 := by rw [h1, Matrix.one_mul]
  · rw [Matrix.transpose_mul, Matrix.transpose_mul, Matrix.transpose_transpose]
    calc V1'.transpose * (Q.transpose * V1) * (V1.transpose * Q * V1') = V1'.transpose * (Q.transpose * (V1 * V1.transpose) * Q) * V1' := by
          simp only [Matrix.mul_assoc]
      _ = (V1'.transpose * V1') * (V1'.transpose * V1') := by rw [← h]; simp only [Matrix.mul_assoc]
      _ = 1 := by rw [h1', Matrix.one_mul]
  · calc V1' = V1' * V1'.transpose * V1' := by rw [Matrix.mul_assoc, h1', Matrix.mul_one]
      _ = Q.transpose * V1 * (V1.transpose * Q * V1') := by rw [h]; simp only [Matrix.mul_assoc]

theorem predict_of {s : Subspaces} {V1 : Matrix (Fin m) (Fin n) ℝ} {V2 : Matrix (Fin m) (Fin k) ℝ} (h1 : s.W1 = some (NpMat.of V1))
    (h2 : s.W2 = some (NpMat.of V2)) (surf : Surface R) (r : R) (X : Matrix (Fin M) (Fin m) ℝ) {g : Fin M → ℝ} {G : Matrix (Fin M) (Fin n) ℝ}
    (e1 : surf.predict r (.mat (NpMat.of (X * V1))) false = .ok (NpVec.of g, none))
    (e2 : surf.predict r (.mat (NpMat.of (X * V1))) true = .ok (NpVec.of g, some (NpMat.of G))) :
    predict surf r s (.mat (NpMat.of X)) false = .ok (NpVec.of g, none) ∧
    predict surf r s (.mat (NpMat.of X)) true = .ok (NpVec.of g, some (NpMat.of (G * V1.transpose))) := by
  constructor
  · unfold predict predict_av
    rw [forward_mul h1 h2]
    simp only [bind, Except.bind, e1]
    rfl
  · unfold predict predict_av
    rw [forward_mul h1 h2, h1]
    simp only [bind, Except.bind, e2, if_true, NpMat.transpose_of, dot_of]
    rfl

theorem samePoints_active {Q : Matrix (Fin m) (Fin m) ℝ} {V1 V1' : Matrix (Fin m) (Fin n) ℝ} {U : Matrix (Fin n) (Fin n) ℝ}
    (hQ : Q.transpose * Q = 1) (hU : U * U.transpose = 1) (hV : V1' = Q.transpose * V1 * U) {c : Fin m → ℝ} {X X' : Matrix (Fin M) (Fin m) ℝ}
    (h : SamePoints Q c X X') : SamePoints U (V1.transpose.mulVec c) (X * V1) (X' * V1') := by
  have hr : ∀ {n : ℕ} (X : Matrix (Fin M) (Fin m) ℝ) (V : Matrix (Fin m) (Fin n) ℝ) i, (X * V) i = V.transpose.mulVec (X i) := by
    intro n X V i
    funext j
    rw [Matrix.mul_apply]
    exact Finset.sum_congr rfl fun l _ => mul_comm _ _
  have hQ' : Q * Q.transpose = 1 := mul_eq_one_comm.mp hQ
  intro i j
  have h1 : (X * V1) i = U.mulVec ((X' * V1') i) + V1.transpose.mulVec c := by
    rw [hr, hr, h.row, Matrix.mulVec_add, Matrix.mulVec_mulVec, Matrix.mulVec_mulVec, hV, Matrix.transpose_mul, Matrix.transpose_mul,
      Matrix.transpose_transpose, ← Matrix.mul_assoc U, hU, Matrix.one_mul]
  exact congrFun h1 j

/-- On the full space the surfaces agree if they do on the active variables. -/
theorem tracks_active {Q : Matrix (Fin m) (Fin m) ℝ} {V1 V1' : Matrix (Fin m) (Fin n) ℝ} {V2 : Matrix (Fin m) (Fin k) ℝ}
    {V2' : Matrix (Fin m) (Fin k') ℝ} {U : Matrix (Fin n) (Fin n) ℝ} (hQ : Q.transpose * Q = 1) (hU : U * U.transpose = 1)
    (hV : V1' = Q.transpose * V1 * U) {s s' : Subspaces} (h1 : s.W1 = some (NpMat.of V1)) (h2 : s.W2 = some (NpMat.of V2))
    (h1' : s'.W1 = some (NpMat.of V1')) (h2' : s'.W2 = some (NpMat.of V2')) {c : Fin m → ℝ} {a b : ℝ} {surf : Surface R} {r r' : R}
    (h : Tracks U (V1.transpose.mulVec c) a b (surf.predict r) (surf.predict r')) :
    Tracks Q c a b (predict surf r s) (predict surf r' s') := by
  intro M X X' hX
  obtain ⟨g, G, p1, p2, p3, p4⟩ := h M _ _ (samePoints_active hQ hU hV hX)
  obtain ⟨q1, q2⟩ := predict_of h1 h2 surf r X p1 p3
  obtain ⟨q3, q4⟩ := predict_of h1' h2' surf r' X' p2 p4
  refine ⟨g, G * V1.transpose, q1, q3, q2, ?_⟩
  rw [q4]
  congr 5
  rw [hV, Matrix.transpose_mul, Matrix.transpose_mul, Matrix.transpose_transpose, Matrix.smul_mul]
  congr 1
  calc G * U * (U.transpose * (V1.transpose * Q)) = G * (U * U.transpose) * V1.transpose * Q := by simp only [Matrix.mul_assoc]
    _ = G * V1.transpose * Q := by rw [hU, Matrix.mul_one]

theorem train_poly_run {lib : Model.ResponseSurfaces.Lib} {a : AVMap S (PolyApprox × E)} {V1 : Matrix (Fin m) (Fin n) ℝ} {V2 : Matrix (Fin m) (Fin k) ℝ}
    (h1 : a.subspaces.W1 = some (NpMat.of V1)) (h2 : a.subspaces.W2 = some (NpMat.of V2)) (X : Matrix (Fin M) (Fin m) ℝ) (f : Fin M → ℝ)
    (v : Option NpVec) (w : S × Files × PolyApprox × E) :
    (train_with_data (polySurface lib) a (.mat (NpMat.of X)) (.mat (NpMat.of (Matrix.of fun i (_ : Fin 1) => f i))) v).run w
      = (((fit lib (X * V1) f none).run w.2.2.1).1, (w.1, w.2.1, ((fit lib (X * V1) f none).run w.2.2.1).2, w.2.2.2)) := by
  unfold train_with_data AVMap.forward
  rw [forward_mul h1 h2, PyM.run_bind_ok (PyM.run_lift _ _)]
  dsimp only
  unfold train
  rw [if_neg (by simp [polySurface])]
  rfl

theorem train_rbf_run {lib : Model.ResponseSurfaces.Lib} {a : AVMap S (RBF × E)} {V1 : Matrix (Fin m) (Fin n) ℝ} {V2 : Matrix (Fin m) (Fin k) ℝ}
    (h1 : a.subspaces.W1 = some (NpMat.of V1)) (h2 : a.subspaces.W2 = some (NpMat.of V2)) (X : Matrix (Fin M) (Fin m) ℝ) (f : Fin M → ℝ)
    (v : Option NpVec) (w : S × Files × RBF × E) :
    (train_with_data (rbfSurface lib) a (.mat (NpMat.of X)) (.mat (NpMat.of (Matrix.of fun i (_ : Fin 1) => f i))) v).run w
      = (((rfit lib (X * V1) f v a.subspaces.eigenvals).run w.2.2.1).1,
        (w.1, w.2.1, ((rfit lib (X * V1) f v a.subspaces.eigenvals).run w.2.2.1).2, w.2.2.2)) := by
  unfold train_with_data AVMap.forward
  rw [forward_mul h1 h2, PyM.run_bind_ok (PyM.run_lift _ _)]
  dsimp only
  unfold train
  rw [if_pos (by simp [rbfSurface])]
  rfl

/-- C136: polynomial surfaces on the active variables, for any orthonormal bases of the same active subspace. -/
theorem C136_active_polynomial {lib : Model.ResponseSurfaces.Lib} (hl : LstsqOK lib) {d d' : AVMap S (PolyApprox × E)} {Q : Matrix (Fin m) (Fin m) ℝ}
    {V1 V1' : Matrix (Fin m) (Fin n) ℝ} {V2 : Matrix (Fin m) (Fin k) ℝ} {V2' : Matrix (Fin m) (Fin k') ℝ} (hQ : Q.transpose * Q = 1)
    (h1 : d.subspaces.W1 = some (NpMat.of V1)) (h2 : d.subspaces.W2 = some (NpMat.of V2)) (h1' : d'.subspaces.W1 = some (NpMat.of V1'))
    (h2' : d'.subspaces.W2 = some (NpMat.of V2')) (ho : V1.transpose * V1 = 1) (ho' : V1'.transpose * V1' = 1)
    (hV : V1' * V1'.transpose = Q.transpose * (V1 * V1.transpose) * Q) (hn : 1 ≤ n) {c : Fin m → ℝ} {X X' : Matrix (Fin M) (Fin m) ℝ}
    (hX : SamePoints Q c X X') (f : Fin M → ℝ) (v : Option NpVec) (w : S × Files × PolyApprox × E) (hN : 1 ≤ w.2.2.1.N)
    (hu : Unisolvent w.2.2.1.N (X * V1)) (a b : ℝ) :
    ∃ p p', (train_with_data (polySurface lib) d (.mat (NpMat.of X)) (.mat (NpMat.of (Matrix.of fun i (_ : Fin 1) => f i))) v).run w
        = (.ok (), (w.1, w.2.1, p, w.2.2.2)) ∧
      (train_with_data (polySurface lib) d' (.mat (NpMat.of X')) (.mat (NpMat.of (Matrix.of fun i (_ : Fin 1) => a * f i + b))) v).run w
        = (.ok (), (w.1, w.2.1, p', w.2.2.2)) ∧
      Tracks Q c a b (predict (polySurface lib) p d.subspaces) (predict (polySurface lib) p' d'.subspaces) := by
  obtain ⟨U, -, hU, -, hVU⟩ := basis_turn hQ ho ho' hV
  obtain ⟨p, p', r1, r2, ht, -⟩ := C136_polynomial lib hl w.2.2.1 hn hN f none (fun _ => by simp) hu hU (samePoints_active hQ hU hVU hX) a b
  refine ⟨p, p', ?_, ?_, tracks_active hQ hU hVU h1 h2 h1' h2' ht⟩
  · rw [train_poly_run h1 h2, r1]
  · rw [train_poly_run h1' h2', r2]

theorem keeps_of {e : Fin m → ℝ} (hn : n ≤ m) {Q : Matrix (Fin m) (Fin m) ℝ} {V1 V1' : Matrix (Fin m) (Fin n) ℝ}
    (ho' : V1'.transpose * V1' = 1)
    (hE : V1' * Matrix.diagonal (fun j => e (Fin.castLE hn j)) * V1'.transpose
      = Q.transpose * (V1 * Matrix.diagonal (fun j => e (Fin.castLE hn j)) * V1.transpose) * Q) :
    Keeps (some (NpVec.of e)) (V1.transpose * Q * V1') := by
  set D := Matrix.diagonal (fun j => e (Fin.castLE hn j)) with hD
  set U := V1.transpose * Q * V1' with hU
  have h1 : U.transpose * (D * U) = D := by
    rw [hU, Matrix.transpose_mul, Matrix.transpose_mul, Matrix.transpose_transpose]
    calc V1'.transpose * (Q.transpose * V1) * (D * (V1.transpose * Q * V1')) = V1'.transpose * (Q.transpose * (V1 * D * V1.transpose) * Q) * V1' := by
          simp only [Matrix.mul_assoc]
      _ = (V1'.transpose * V1') * D * (V1'.transpose * V1') := by rw [← hE]; simp only [Matrix.mul_assoc]
      _ = D := by rw [ho', Matrix.one_mul, Matrix.mul_one]
  have hi : ∀ j : Fin n, importance n (some (NpVec.of e)) j = e (Fin.castLE hn j) := fun j => dif_pos (lt_of_lt_of_le j.2 hn)
  have hq : ∀ z : Fin n → ℝ, ∑ j, importance n (some (NpVec.of e)) j * z j ^ 2 = z ⬝ᵥ D.mulVec z := by
    intro z
    simp only [hi, dotProduct, hD, Matrix.mulVec_diagonal]
    exact Finset.sum_congr rfl fun j _ => by ring
  intro z
  have h2 : ∑ j, importance n (some (NpVec.of e)) j * (∑ l, U j l * z l) ^ 2 = U.mulVec z ⬝ᵥ D.mulVec (U.mulVec z) := hq (U.mulVec z)
  rw [h2, hq, Matrix.mulVec_mulVec, dotProduct_comm, Matrix.dotProduct_mulVec, ← Matrix.mulVec_transpose, Matrix.mulVec_mulVec, h1, dotProduct_comm]

/-- C136: radial basis surfaces on the active variables, for any orthonormal eigenvectors of the same matrix. -/
theorem C136_active_rbf {lib : Model.ResponseSurfaces.Lib} {d d' : AVMap S (RBF × E)} {Q : Matrix (Fin m) (Fin m) ℝ}
    {V1 V1' : Matrix (Fin m) (Fin n) ℝ} {V2 : Matrix (Fin m) (Fin k) ℝ} {V2' : Matrix (Fin m) (Fin k') ℝ} (hQ : Q.transpose * Q = 1)
    (h1 : d.subspaces.W1 = some (NpMat.of V1)) (h2 : d.subspaces.W2 = some (NpMat.of V2)) (h1' : d'.subspaces.W1 = some (NpMat.of V1'))
    (h2' : d'.subspaces.W2 = some (NpMat.of V2')) {e : Fin m → ℝ} (he : d.subspaces.eigenvals = some (NpVec.of e))
    (he' : d'.subspaces.eigenvals = some (NpVec.of e)) (ho : V1.transpose * V1 = 1) (ho' : V1'.transpose * V1' = 1)
    (hV : V1' * V1'.transpose = Q.transpose * (V1 * V1.transpose) * Q) (hn : 1 ≤ n) (hnm : n ≤ m)
    (hE : V1' * Matrix.diagonal (fun j => e (Fin.castLE hnm j)) * V1'.transpose
      = Q.transpose * (V1 * Matrix.diagonal (fun j => e (Fin.castLE hnm j)) * V1.transpose) * Q) {c : Fin m → ℝ}
    {X X' : Matrix (Fin M) (Fin m) ℝ} (hX : SamePoints Q c X X') (f : Fin M → ℝ) (v : Option NpVec) (w : S × Files × RBF × E) {a : ℝ}
    (ha : a ^ 2 = 1) (b : ℝ) :
    (∃ er, (train_with_data (rbfSurface lib) d (.mat (NpMat.of X)) (.mat (NpMat.of (Matrix.of fun i (_ : Fin 1) => f i))) v).run w
        = (.error er, w) ∧
      (train_with_data (rbfSurface lib) d' (.mat (NpMat.of X')) (.mat (NpMat.of (Matrix.of fun i (_ : Fin 1) => a * f i + b))) v).run w
        = (.error er, w)) ∨
    ∃ p p', (train_with_data (rbfSurface lib) d (.mat (NpMat.of X)) (.mat (NpMat.of (Matrix.of fun i (_ : Fin 1) => f i))) v).run w
        = (.ok (), (w.1, w.2.1, p, w.2.2.2)) ∧
      (train_with_data (rbfSurface lib) d' (.mat (NpMat.of X')) (.mat (NpMat.of (Matrix.of fun i (_ : Fin 1) => a * f i + b))) v).run w
        = (.ok (), (w.1, w.2.1, p', w.2.2.2)) ∧
      Tracks Q c a b (predict (rbfSurface lib) p d.subspaces) (predict (rbfSurface lib) p' d'.subspaces) := by
  obtain ⟨U, hUd, hU, -, hVU⟩ := basis_turn hQ ho ho' hV
  have hk : Keeps (some (NpVec.of e)) U := by
    rw [hUd]
    exact keeps_of hnm ho' hE
  rw [train_rbf_run h1 h2, train_rbf_run h1' h2', he, he']
  rcases C136_rbf lib w.2.2.1 hn f v (some (NpVec.of e)) hU hk (samePoints_active hQ hU hVU hX) ha b with ⟨er, r1, r2⟩ | ⟨p, p', r1, r2, ht, -⟩
  · exact .inl ⟨er, by rw [r1], by rw [r2]⟩
  · refine .inr ⟨p, p', by rw [r1], by rw [r2], tracks_active hQ hU hVU h1 h2 h1' h2' ht⟩

/-! ## From the samples to the surface -/

open Proofs.Bootstrap in
/-- What `compute` stores: `W1` holds the first `n` eigenvectors. -/
theorem computed {lib : Model.Subspaces.Lib} (hl : SubLibOK lib) (rng : Rng S) (hm : 2 ≤ m) (hM : 0 < M)
    {X : Option (Matrix (Fin M) (Fin m) ℝ)} {f : Option (Fin M → ℝ)} {df : Option (Matrix (Fin M) (Fin m) ℝ)}
    (weights : Option (Fin M → ℝ)) (h : X ≠ none ∨ df ≠ none) {sstype : String} {t : SS}
    (ht : SS.ofString sstype = some t) {nboot : ℤ} (hb : nboot ≤ 0) {w w1 : S × Subspaces} {e : Fin m → ℝ} {V : Matrix (Fin m) (Fin m) ℝ}
    (hest : (estimate lib rng t X f df (weightsOf weights)).run w = (.ok ⟨m, e, V⟩, w1)) {r : S × Subspaces}
    (hr : (computeOn lib rng X f df weights sstype "EVG" nboot).run w = (.ok (), r)) {V1 : Matrix (Fin m) (Fin n) ℝ}
    (h1 : r.2.W1 = some (NpMat.of V1)) :
    V.transpose * V = 1 ∧ Antitone e ∧ V1.transpose * V1 = 1 ∧ 1 ≤ n ∧ ∃ hn : n ≤ m, (∀ i j, V1 i j = V i (Fin.castLE hn j)) ∧
      ∃ V2 : Matrix (Fin m) (Fin (m - n)) ℝ, r.2.W2 = some (NpMat.of V2) := by
  obtain ⟨e0, V0, r0, hp, c1, c2, c3, c4, -⟩ := compute_ok hl rng hm hM X f df weights h sstype "EVG" t ht nboot w w1 _ hest (fun h => by omega) (.inl rfl)
  obtain ⟨rfl, rfl⟩ : e = e0 ∧ V = V0 := by injection hp with _ h1 h2; exact ⟨h1, h2⟩
  obtain rfl : r = r0 := (Prod.mk.inj (hr.symm.trans c1)).2
  obtain ⟨e2, V0, hp0, ho, -, hanti⟩ := estimate_good hl rng t _ _ _ _ hest
  obtain ⟨rfl, rfl⟩ : e = e2 ∧ V = V0 := by injection hp0 with _ h1 h2; exact ⟨h1, h2⟩
  obtain ⟨m', n', V', V1', V2', a1, a2, a3, a4, a5, a6, -⟩ := c2
  have b1 := Option.some.inj (c4.symm.trans a1)
  have b2 := Option.some.inj (h1.symm.trans a2)
  obtain rfl : m = m' := congrArg NpMat.rows b1
  obtain rfl : n = n' := congrArg NpMat.cols b2
  obtain rfl := NpMat.of_injective b1
  obtain rfl := NpMat.of_injective b2
  have hcol : ∀ i j, V1 i j = V i (Fin.castLE a5 j) := fun i j => a6 i _ j rfl
  refine ⟨ho, hanti, ?_, a4, a5, hcol, V2', a3⟩
  ext j k
  have := congrFun (congrFun ho (Fin.castLE a5 j)) (Fin.castLE a5 k)
  rw [Matrix.mul_apply] at this ⊢
  simp only [Matrix.transpose_apply, hcol] at this ⊢
  rw [this, Matrix.one_apply, Matrix.one_apply]
  simp [Fin.ext_iff]

/-- The matrix with eigenvalues `e` is determined by the spans of its leading eigenvectors. -/
theorem diagonal_sum {e : Fin m → ℝ} {x : ℕ → ℝ} (hx : ∀ i : Fin m, x i = e i) (h0 : x m = 0) (W : Matrix (Fin m) (Fin m) ℝ) :
    W * Matrix.diagonal e * W.transpose = ∑ i ∈ Finset.range m, (x i - x (i + 1)) • leadProj W (i + 1) := by
  have hD : Matrix.diagonal e = ∑ i ∈ Finset.range m, (x i - x (i + 1)) • Matrix.diagonal (fun j : Fin m => if (j : ℕ) < i + 1 then (1 : ℝ) else 0) := by
    ext j k
    rw [Matrix.sum_apply]
    by_cases hjk : j = k
    · subst hjk
      simp only [Matrix.smul_apply, Matrix.diagonal_apply_eq, smul_eq_mul, mul_ite, mul_one, mul_zero]
      rw [← Finset.sum_filter]
      have : (Finset.range m).filter (fun i => (j : ℕ) < i + 1) = Finset.Ico (j : ℕ) m := by
        ext i
        simp only [Finset.mem_filter, Finset.mem_range, Finset.mem_Ico]
        omega
      rw [this, Finset.sum_Ico_eq_sum_range]
      have h2 := Finset.sum_range_sub' (fun i => x (j + i)) (m - j)
      simp only [← add_assoc] at h2
      rw [h2, add_zero, hx, Nat.add_sub_cancel' j.2.le, h0, sub_zero]
    · simp [Matrix.smul_apply, Matrix.diagonal_apply_ne _ hjk]
  rw [hD, Matrix.mul_sum, Matrix.sum_mul]
  refine Finset.sum_congr rfl fun i _ => ?_
  rw [leadProj_eq, Matrix.mul_smul, Matrix.smul_mul]

theorem Follows.matrix {Q : Matrix (Fin m) (Fin m) ℝ} {t : ℝ} {e e' : Fin m → ℝ} {W W' : Matrix (Fin m) (Fin m) ℝ} (h : Follows Q t e W e' W')
    (ha : Antitone e) :
    W' * Matrix.diagonal e' * W'.transpose = t • (Q.transpose * (W * Matrix.diagonal e * W.transpose) * Q) := by
  set x : ℕ → ℝ := fun i => if h : i < m then e ⟨i, h⟩ else 0 with hxd
  have hx : ∀ i : Fin m, x i = e i := fun i => dif_pos i.2
  have h0 : x m = 0 := dif_neg (lt_irrefl m)
  rw [diagonal_sum hx h0, diagonal_sum (x := fun i => t * x i) (fun i => by rw [hx, h.1]) (by rw [h0, mul_zero]), Matrix.mul_sum, Matrix.sum_mul,
    Finset.smul_sum]
  refine Finset.sum_congr rfl fun i hi => ?_
  rw [Finset.mem_range] at hi
  have hr : t * x i - t * x (i + 1) = t * (x i - x (i + 1)) := by ring
  rw [hr, Matrix.mul_smul, Matrix.smul_mul, smul_smul]
  by_cases hz : x i - x (i + 1) = 0
  · rw [hz, mul_zero, zero_smul, zero_smul]
  · rw [h.2 (i + 1) ?_]
    intro j k hj hk
    have hi1 : i + 1 < m := lt_of_le_of_lt hk k.2
    have e1 : x i = e ⟨i, hi⟩ := dif_pos hi
    have e2 : x (i + 1) = e ⟨i + 1, hi1⟩ := dif_pos hi1
    have h3 : e ⟨i + 1, hi1⟩ < e ⟨i, hi⟩ := by
      refine lt_of_le_of_ne (ha (Fin.le_def.mpr (by simp))) fun heq => hz ?_
      rw [e1, e2, heq, sub_self]
    exact lt_of_le_of_lt (ha (Fin.le_def.mpr hk)) (lt_of_lt_of_le h3 (ha (Fin.le_def.mpr (by simp only; omega))))

theorem leading_matrix {e : Fin m → ℝ} {V : Matrix (Fin m) (Fin m) ℝ} {V1 : Matrix (Fin m) (Fin n) ℝ} (ho : V.transpose * V = 1) (hn : n ≤ m)
    (h : ∀ i j, V1 i j = V i (Fin.castLE hn j)) :
    V1 * Matrix.diagonal (fun j => e (Fin.castLE hn j)) * V1.transpose = V1 * V1.transpose * (V * Matrix.diagonal e * V.transpose) := by
  have h1 : V1.transpose * V = (Matrix.of fun (i : Fin n) (j : Fin m) => if (i : ℕ) = j then (1 : ℝ) else 0) := by
    ext i j
    have := congrFun (congrFun ho (Fin.castLE hn i)) j
    rw [Matrix.mul_apply] at this ⊢
    simp only [Matrix.transpose_apply, h, Matrix.of_apply] at this ⊢
    rw [this, Matrix.one_apply]
    simp [Fin.ext_iff]
  have h2 : (Matrix.of fun (i : Fin n) (j : Fin m) => if (i : ℕ) = j then (1 : ℝ) else 0) * Matrix.diagonal e * V.transpose
      = Matrix.diagonal (fun j => e (Fin.castLE hn j)) * V1.transpose := by
    ext i k
    rw [Matrix.mul_apply, Matrix.diagonal_mul, Finset.sum_eq_single (Fin.castLE hn i)]
    · rw [Matrix.mul_diagonal, Matrix.of_apply, Matrix.transpose_apply, Matrix.transpose_apply, h]
      simp
    · intro j _ hj
      rw [Matrix.mul_diagonal, Matrix.of_apply, if_neg, zero_mul, zero_mul]
      intro hij
      exact hj (Fin.ext (by simp [hij]))
    · intro hh
      exact absurd (Finset.mem_univ _) hh
  calc V1 * Matrix.diagonal (fun j => e (Fin.castLE hn j)) * V1.transpose
      = V1 * (V1.transpose * V * Matrix.diagonal e * V.transpose) := by rw [h1, h2, Matrix.mul_assoc]
    _ = _ := by simp only [Matrix.mul_assoc]

theorem leading_moved {Q : Matrix (Fin m) (Fin m) ℝ} (hQ : Q.transpose * Q = 1) {e : Fin m → ℝ} {V V' : Matrix (Fin m) (Fin m) ℝ}
    {V1 V1' : Matrix (Fin m) (Fin n) ℝ} (hF : Follows Q 1 e V e V') (ha : Antitone e) (ho : V.transpose * V = 1) (ho' : V'.transpose * V' = 1)
    (hn : n ≤ m) (h : ∀ i j, V1 i j = V i (Fin.castLE hn j)) (h' : ∀ i j, V1' i j = V' i (Fin.castLE hn j))
    (hV : V1' * V1'.transpose = Q.transpose * (V1 * V1.transpose) * Q) :
    V1' * Matrix.diagonal (fun j => e (Fin.castLE hn j)) * V1'.transpose
      = Q.transpose * (V1 * Matrix.diagonal (fun j => e (Fin.castLE hn j)) * V1.transpose) * Q := by
  have hQ' : Q * Q.transpose = 1 := mul_eq_one_comm.mp hQ
  rw [leading_matrix ho' hn h', leading_matrix ho hn h, hF.matrix ha, one_smul, hV]
  calc Q.transpose * (V1 * V1.transpose) * Q * (Q.transpose * (V * Matrix.diagonal e * V.transpose) * Q)
      = Q.transpose * (V1 * V1.transpose) * (Q * Q.transpose) * (V * Matrix.diagonal e * V.transpose) * Q := by simp only [Matrix.mul_assoc]
    _ = _ := by rw [hQ', Matrix.mul_one]; simp only [Matrix.mul_assoc]

open Proofs.Bootstrap in
/-- C136, any estimate that follows the coordinates: estimate, partition, train and predict. -/
theorem follows_polynomial {lib : Model.Subspaces.Lib} (hl : SubLibOK lib) (rng : Rng S) (hm : 2 ≤ m) (hM : 0 < M)
    {X X' : Option (Matrix (Fin M) (Fin m) ℝ)} {f f' : Option (Fin M → ℝ)} {df df' : Option (Matrix (Fin M) (Fin m) ℝ)}
    (weights : Option (Fin M → ℝ)) (h : X ≠ none ∨ df ≠ none) (h' : X' ≠ none ∨ df' ≠ none) {sstype : String} {t : SS}
    (ht : SS.ofString sstype = some t) {nboot : ℤ} (hb : nboot ≤ 0) {w w1 : S × Subspaces} {e e' : Fin m → ℝ} {V V' : Matrix (Fin m) (Fin m) ℝ}
    (hest : (estimate lib rng t X f df (weightsOf weights)).run w = (.ok ⟨m, e, V⟩, w1))
    (hest' : (estimate lib rng t X' f' df' (weightsOf weights)).run w = (.ok ⟨m, e', V'⟩, w1))
    {Q : Matrix (Fin m) (Fin m) ℝ} (hQ : Q.transpose * Q = 1) {s : ℝ} (hs : 0 < s) (hF : Follows Q s e V e' V') :
    ∃ (r r' : S × Subspaces) (n : ℕ) (V1 : Matrix (Fin m) (Fin n) ℝ),
      (computeOn lib rng X f df weights sstype "EVG" nboot).run w = (.ok (), r) ∧
      (computeOn lib rng X' f' df' weights sstype "EVG" nboot).run w = (.ok (), r') ∧
      r.2.eigenvals = some (NpVec.of e) ∧ r.2.W1 = some (NpMat.of V1) ∧
      ((∃ j k, e j ≠ e k) → ∀ (rlib : Model.ResponseSurfaces.Lib), LstsqOK rlib → ∀ (d d' : AVMap S (PolyApprox × E)),
        d.subspaces = r.2 → d'.subspaces = r'.2 → ∀ (M0 : ℕ) (c : Fin m → ℝ) (Z Z' : Matrix (Fin M0) (Fin m) ℝ), SamePoints Q c Z Z' →
        ∀ (g : Fin M0 → ℝ) (v : Option NpVec) (u : S × Files × PolyApprox × E), 1 ≤ u.2.2.1.N → Unisolvent u.2.2.1.N (Z * V1) → ∀ a b : ℝ,
        ∃ p p', (train_with_data (polySurface rlib) d (.mat (NpMat.of Z)) (.mat (NpMat.of (Matrix.of fun i (_ : Fin 1) => g i))) v).run u
            = (.ok (), (u.1, u.2.1, p, u.2.2.2)) ∧
          (train_with_data (polySurface rlib) d' (.mat (NpMat.of Z')) (.mat (NpMat.of (Matrix.of fun i (_ : Fin 1) => a * g i + b))) v).run u
            = (.ok (), (u.1, u.2.1, p', u.2.2.2)) ∧
          Tracks Q c a b (predict (polySurface rlib) p d.subspaces) (predict (polySurface rlib) p' d'.subspaces)) := by
  obtain ⟨r, r', n, V1, V1', r1, r2, r3, r4, r5, r6, r7⟩ := compute_follows hl rng hm hM weights h h' ht hb hest hest' hs hF
  obtain ⟨-, -, o1, hn, -, -, V2, o2⟩ := computed hl rng hm hM weights h ht hb hest r1 r5
  obtain ⟨-, -, o3, -, -, -, V2', o4⟩ := computed hl rng hm hM weights h' ht hb hest' r2 r6
  refine ⟨r, r', n, V1, r1, r2, r3, r5, fun he rlib hrl d d' hd hd' M0 c Z Z' hZ g v u hN hu a b => ?_⟩
  exact C136_active_polynomial hrl hQ (by rw [hd]; exact r5) (by rw [hd]; exact o2) (by rw [hd']; exact r6) (by rw [hd']; exact o4) o1 o3
    (r7 he) hn hZ g v u hN hu a b

open Proofs.Bootstrap in
theorem follows_rbf {lib : Model.Subspaces.Lib} (hl : SubLibOK lib) (rng : Rng S) (hm : 2 ≤ m) (hM : 0 < M)
    {X X' : Option (Matrix (Fin M) (Fin m) ℝ)} {f f' : Option (Fin M → ℝ)} {df df' : Option (Matrix (Fin M) (Fin m) ℝ)}
    (weights : Option (Fin M → ℝ)) (h : X ≠ none ∨ df ≠ none) (h' : X' ≠ none ∨ df' ≠ none) {sstype : String} {t : SS}
    (ht : SS.ofString sstype = some t) {nboot : ℤ} (hb : nboot ≤ 0) {w w1 : S × Subspaces} {e e' : Fin m → ℝ} {V V' : Matrix (Fin m) (Fin m) ℝ}
    (hest : (estimate lib rng t X f df (weightsOf weights)).run w = (.ok ⟨m, e, V⟩, w1))
    (hest' : (estimate lib rng t X' f' df' (weightsOf weights)).run w = (.ok ⟨m, e', V'⟩, w1))
    {Q : Matrix (Fin m) (Fin m) ℝ} (hQ : Q.transpose * Q = 1) (hF : Follows Q 1 e V e' V') :
    ∃ (r r' : S × Subspaces) (n : ℕ) (V1 : Matrix (Fin m) (Fin n) ℝ),
      (computeOn lib rng X f df weights sstype "EVG" nboot).run w = (.ok (), r) ∧
      (computeOn lib rng X' f' df' weights sstype "EVG" nboot).run w = (.ok (), r') ∧
      r.2.eigenvals = some (NpVec.of e) ∧ r.2.W1 = some (NpMat.of V1) ∧
      ((∃ j k, e j ≠ e k) → ∀ (rlib : Model.ResponseSurfaces.Lib) (d d' : AVMap S (RBF × E)),
        d.subspaces = r.2 → d'.subspaces = r'.2 → ∀ (M0 : ℕ) (c : Fin m → ℝ) (Z Z' : Matrix (Fin M0) (Fin m) ℝ), SamePoints Q c Z Z' →
        ∀ (g : Fin M0 → ℝ) (v : Option NpVec) (u : S × Files × RBF × E) (a b : ℝ), a ^ 2 = 1 →
        (∃ er, (train_with_data (rbfSurface rlib) d (.mat (NpMat.of Z)) (.mat (NpMat.of (Matrix.of fun i (_ : Fin 1) => g i))) v).run u
            = (.error er, u) ∧
          (train_with_data (rbfSurface rlib) d' (.mat (NpMat.of Z')) (.mat (NpMat.of (Matrix.of fun i (_ : Fin 1) => a * g i + b))) v).run u
            = (.error er, u)) ∨
        ∃ p p', (train_with_data (rbfSurface rlib) d (.mat (NpMat.of Z)) (.mat (NpMat.of (Matrix.of fun i (_ : Fin 1) => g i))) v).run u
            = (.ok (), (u.1, u.2.1, p, u.2.2.2)) ∧
          (train_with_data (rbfSurface rlib) d' (.mat (NpMat.of Z')) (.mat (NpMat.of (Matrix.of fun i (_ : Fin 1) => a * g i + b))) v).run u
            = (.ok (), (u.1, u.2.1, p', u.2.2.2)) ∧
          Tracks Q c a b (predict (rbfSurface rlib) p d.subspaces) (predict (rbfSurface rlib) p' d'.subspaces)) := by
  obtain ⟨r, r', n, V1, V1', r1, r2, r3, r4, r5, r6, r7⟩ := compute_follows hl rng hm hM weights h h' ht hb hest hest' one_pos hF
  obtain ⟨oV, oa, o1, hn, hnm, oc, V2, o2⟩ := computed hl rng hm hM weights h ht hb hest r1 r5
  obtain ⟨oV', -, o3, -, hnm', oc', V2', o4⟩ := computed hl rng hm hM weights h' ht hb hest' r2 r6
  have hee : e' = e := funext fun j => by rw [hF.1, one_mul]
  subst hee
  have r4' : r'.2.eigenvals = some (NpVec.of e') := by rw [r4]; simp only [one_mul]
  refine ⟨r, r', n, V1, r1, r2, r3, r5, fun he rlib d d' hd hd' M0 c Z Z' hZ g v u a b ha => ?_⟩
  exact C136_active_rbf hQ (by rw [hd]; exact r5) (by rw [hd]; exact o2) (by rw [hd']; exact r6) (by rw [hd']; exact o4)
    (by rw [hd]; exact r3) (by rw [hd']; exact r4') o1 o3 (r7 he) hn hnm
    (leading_moved hQ hF oa oV oV' hnm oc oc' (r7 he)) hZ g v u ha b

/-- C136: `compute` with gradients, then polynomial surfaces.  The outputs may change their unit. -/
theorem C136_compute_polynomial {lib : Model.Subspaces.Lib} (hl : SubLibOK lib) (rng : Rng S) (hm : 2 ≤ m) (hM : 0 < M)
    (G : Matrix (Fin M) (Fin m) ℝ) (weights : Option (Fin M → ℝ)) (hw : ∀ i, 0 ≤ weightsOf weights i) {nboot : ℤ} (hb : nboot ≤ 0)
    (w : S × Subspaces) {Q : Matrix (Fin m) (Fin m) ℝ} (hQ : Q.transpose * Q = 1) {a : ℝ} (ha : a ≠ 0) :
    ∃ (r r' : S × Subspaces) (n : ℕ) (e : Fin m → ℝ) (V1 : Matrix (Fin m) (Fin n) ℝ),
      (computeOn lib rng none none (some G) weights "AS" "EVG" nboot).run w = (.ok (), r) ∧
      (computeOn lib rng none none (some (a • (G * Q))) weights "AS" "EVG" nboot).run w = (.ok (), r') ∧
      r.2.eigenvals = some (NpVec.of e) ∧ r.2.W1 = some (NpMat.of V1) ∧
      ((∃ j k, e j ≠ e k) → ∀ (rlib : Model.ResponseSurfaces.Lib), LstsqOK rlib → ∀ (d d' : AVMap S (PolyApprox × E)),
        d.subspaces = r.2 → d'.subspaces = r'.2 → ∀ (M0 : ℕ) (c : Fin m → ℝ) (Z Z' : Matrix (Fin M0) (Fin m) ℝ), SamePoints Q c Z Z' →
        ∀ (g : Fin M0 → ℝ) (v : Option NpVec) (u : S × Files × PolyApprox × E), 1 ≤ u.2.2.1.N → Unisolvent u.2.2.1.N (Z * V1) → ∀ b : ℝ,
        ∃ p p', (train_with_data (polySurface rlib) d (.mat (NpMat.of Z)) (.mat (NpMat.of (Matrix.of fun i (_ : Fin 1) => g i))) v).run u
            = (.ok (), (u.1, u.2.1, p, u.2.2.2)) ∧
          (train_with_data (polySurface rlib) d' (.mat (NpMat.of Z')) (.mat (NpMat.of (Matrix.of fun i (_ : Fin 1) => a * g i + b))) v).run u
            = (.ok (), (u.1, u.2.1, p', u.2.2.2)) ∧
          Tracks Q c a b (predict (polySurface rlib) p d.subspaces) (predict (polySurface rlib) p' d'.subspaces)) := by
  obtain ⟨e, V, e', V', h1, h2, h3⟩ := C135_active lib hl (by omega) G (weightsOf weights) hw hQ ha
  obtain ⟨r, r', n, V1, q1, q2, q3, q4, q5⟩ := follows_polynomial hl rng hm hM (X := none) (X' := none) (f := none) (f' := none) (df := some G)
    (df' := some (a • (G * Q))) weights (.inr (by simp)) (.inr (by simp)) (show SS.ofString "AS" = some .AS from rfl) hb (w := w) (w1 := w)
    (lift_of h1 w) (lift_of h2 w) hQ (by positivity : 0 < a ^ 2) h3 (E := E)
  exact ⟨r, r', n, e, V1, q1, q2, q3, q4, fun he rlib hr d d' hd hd' M0 c Z Z' hZ g v u hN hu b => q5 he rlib hr d d' hd hd' M0 c Z Z' hZ g v u hN hu a b⟩

/-- C136: `compute` with gradients, then radial basis surfaces.  The outputs may only change their sign and their zero. -/
theorem C136_compute_rbf_partial {lib : Model.Subspaces.Lib} (hl : SubLibOK lib) (rng : Rng S) (hm : 2 ≤ m) (hM : 0 < M)
    (G : Matrix (Fin M) (Fin m) ℝ) (weights : Option (Fin M → ℝ)) (hw : ∀ i, 0 ≤ weightsOf weights i) {nboot : ℤ} (hb : nboot ≤ 0)
    (w : S × Subspaces) {Q : Matrix (Fin m) (Fin m) ℝ} (hQ : Q.transpose * Q = 1) {a : ℝ} (ha : a ^ 2 = 1) :
    ∃ (r r' : S × Subspaces) (n : ℕ) (e : Fin m → ℝ) (V1 : Matrix (Fin m) (Fin n) ℝ),
      (computeOn lib rng none none (some G) weights "AS" "EVG" nboot).run w = (.ok (), r) ∧
      (computeOn lib rng none none (some (a • (G * Q))) weights "AS" "EVG" nboot).run w = (.ok (), r') ∧
      r.2.eigenvals = some (NpVec.of e) ∧ r.2.W1 = some (NpMat.of V1) ∧
      ((∃ j k, e j ≠ e k) → ∀ (rlib : Model.ResponseSurfaces.Lib) (d d' : AVMap S (RBF × E)),
        d.subspaces = r.2 → d'.subspaces = r'.2 → ∀ (M0 : ℕ) (c : Fin m → ℝ) (Z Z' : Matrix (Fin M0) (Fin m) ℝ), SamePoints Q c Z Z' →
        ∀ (g : Fin M0 → ℝ) (v : Option NpVec) (u : S × Files × RBF × E) (b : ℝ),
        (∃ er, (train_with_data (rbfSurface rlib) d (.mat (NpMat.of Z)) (.mat (NpMat.of (Matrix.of fun i (_ : Fin 1) => g i))) v).run u
            = (.error er, u) ∧
          (train_with_data (rbfSurface rlib) d' (.mat (NpMat.of Z')) (.mat (NpMat.of (Matrix.of fun i (_ : Fin 1) => a * g i + b))) v).run u
            = (.error er, u)) ∨
        ∃ p p', (train_with_data (rbfSurface rlib) d (.mat (NpMat.of Z)) (.mat (NpMat.of (Matrix.of fun i (_ : Fin 1) => g i))) v).run u
            = (.ok (), (u.1, u.2.1, p, u.2.2.2)) ∧
          (train_with_data (rbfSurface rlib) d' (.mat (NpMat.of Z')) (.mat (NpMat.of (Matrix.of fun i (_ : Fin 1) => a * g i + b))) v).run u
            = (.ok (), (u.1, u.2.1, p', u.2.2.2)) ∧
          Tracks Q c a b (predict (rbfSurface rlib) p d.subspaces) (predict (rbfSurface rlib) p' d'.subspaces)) := by
  have ha0 : a ≠ 0 := by rintro rfl; norm_num at ha
  obtain ⟨e, V, e', V', h1, h2, h3⟩ := C135_active lib hl (by omega) G (weightsOf weights) hw hQ ha0
  rw [ha] at h3
  obtain ⟨r, r', n, V1, q1, q2, q3, q4, q5⟩ := follows_rbf hl rng hm hM (X := none) (X' := none) (f := none) (f' := none) (df := some G)
    (df' := some (a • (G * Q))) weights (.inr (by simp)) (.inr (by simp)) (show SS.ofString "AS" = some .AS from rfl) hb (w := w) (w1 := w)
    (lift_of h1 w) (lift_of h2 w) hQ h3 (E := E)
  exact ⟨r, r', n, e, V1, q1, q2, q3, q4, fun he rlib d d' hd hd' M0 c Z Z' hZ g v u b => q5 he rlib d d' hd hd' M0 c Z Z' hZ g v u a b ha⟩

/-! ## The unit of the outputs -/

/-- The length scale that training picks lies in the interval searched. -/
theorem train_range {lib : Model.ResponseSurfaces.Lib} (hch : CholeskyOK lib) (hfm : FminboundOK lib) (w : RBF) (hm : 1 ≤ m)
    (X : Matrix (Fin M) (Fin m) ℝ) (hu : Unisolvent w.N X) (hX : Function.Injective X) (f : Fin M → ℝ) (v e : Option NpVec) (hv : GoodNoise M v)
    (he : GoodEig m e) :
    ∃ (t : Fit M m) (g : ℝ), 1e-10 ≤ g ∧ g ≤ 10 ∧ rbfTrainMat lib w.N X f v e = .ok t ∧ rbfFit X f v w.N e g = .ok t := by
  obtain ⟨I, hI, -⟩ := C25_enumerates w.N m hm
  have hB := unisolvent_full_rank hm hu hI
  have hobj : ∀ t ∈ Set.Icc (-10 : ℝ) 1, ∃ y, rbf_objective lib X f v w.N e t = .ok y := by
    intro t _
    obtain ⟨q, hq, hl, hv0, -⟩ := params_ok hv he (Real.rpow_pos_of_pos (by norm_num : (0 : ℝ) < 10) t)
    have hK : (covMat X q).PosDef := cov_posDef_distinct X q hl hv0 hX
    obtain ⟨L, hL, -⟩ := (hch M _ (covMat_symm X q hl)).1 hK
    exact objective_ok lib f hq hK hL hI hB
  obtain ⟨t, ⟨t1, t2⟩, ht⟩ := (hfm _ (-10) 1 (by norm_num)).1 hobj
  obtain ⟨s, hs, -⟩ := C31_well_posed hm X hu f v e hv he ((10 : ℝ) ^ t) (Real.rpow_pos_of_pos (by norm_num) t)
  have hM := card_le_of_unisolvent hm X hu
  refine ⟨s, (10 : ℝ) ^ t, ?_, ?_, ?_, hs⟩
  · have := Real.rpow_le_rpow_of_exponent_le (x := (10 : ℝ)) (by norm_num) t1
    refine le_trans (le_of_eq ?_) this
    rw [Real.rpow_neg (by norm_num), show (10 : ℝ) ^ (10 : ℝ) = (10 : ℝ) ^ (10 : ℕ) from by exact_mod_cast Real.rpow_natCast 10 10]
    norm_num
  · have := Real.rpow_le_rpow_of_exponent_le (x := (10 : ℝ)) (by norm_num) t2
    rwa [Real.rpow_one] at this
  · unfold rbfTrainMat
    rw [if_neg (by omega), ht]
    exact hs

/-- The points 0 and 1 with outputs 0 and `a`, two eigenvalues `s`, default noise: what a trained surface of degree 0 predicts at 1. -/
theorem two_points {lib : Model.ResponseSurfaces.Lib} (hch : CholeskyOK lib) (hfm : FminboundOK lib) (a : ℝ) {s : ℝ} (hs : 0 < s) :
    ∃ (w' : RBF) (g : ℝ), 1e-10 ≤ g ∧ g ≤ 10 ∧
      (rfit lib !![(0 : ℝ); 1] ![0, a] none (some (NpVec.of fun _ : Fin 2 => s))).run { N := 0 } = (.ok (), w') ∧
      w'.predict (.mat (NpMat.of !![(1 : ℝ)])) false = .ok (NpVec.of fun _ : Fin 1 =>
        a * (1 - max (g * s) 1e-6 / (2 * (max (g * s) 1e-6 + (1 - Real.exp (-(1 / (2 * g))))))), none) := by
  have hE : GoodEig 1 (some (NpVec.of fun _ : Fin 2 => s)) := by
    rintro u ⟨⟩
    exact ⟨by simp [NpVec.of], fun i => hs.le, fun i _ => hs⟩
  have hX : Function.Injective !![(0 : ℝ); 1] := by
    intro i j hij
    have := congrFun hij 0
    fin_cases i <;> fin_cases j <;> simp_all
  obtain ⟨t, g, g1, g2, ht, hfit⟩ := train_range hch hfm { N := 0 } (m := 1) le_rfl !![(0 : ℝ); 1] (unisolvent_const _) hX ![0, a] none _
    (by rintro u ⟨⟩) hE
  have hg : 0 < g := lt_of_lt_of_le (by norm_num) g1
  obtain ⟨q0, hq0, hq, hK, hI, -, -, hsys, horth, -⟩ := rbfFit_spec hfit
  have hrun := rfit_run lib { N := 0 } !![(0 : ℝ); 1] ![0, a] none (some (NpVec.of fun _ : Fin 2 => s))
  rw [ht] at hrun
  refine ⟨_, g, g1, g2, hrun, ?_⟩
  rw [(rbfPredict_eq (hI := hI) !![(0 : ℝ); 1] t.q.ell t.radial t.poly rfl rfl rfl rfl !![(1 : ℝ)]
    (s := { N := 0, X := some (NpMat.of _), f := some (NpVec.of _), Rsqr := some t.Rsqr, K := some (NpMat.of t.K),
            ell := some (NpVec.of t.q.ell), radial_weights := some (NpVec.of t.radial), poly_weights := some (NpVec.of t.poly) })).1]
  have hp : params 2 1 g none (some (NpVec.of fun _ : Fin 2 => s)) = .ok ⟨fun _ => g * 2, fun _ => g * s⟩ := by
    unfold params
    simp only
    rw [dif_pos (show 1 ≤ (NpVec.of fun _ : Fin 2 => s).n from by simp [NpVec.of])]
    simp only [NpVec.of, Except.ok.injEq, Params.mk.injEq]
    constructor
    · funext k
      change g * (∑ i : Fin 2, s) / s = g * 2
      rw [Fin.sum_univ_two]
      field_simp
      ring
    · funext i
      change g * ∑ i ∈ Finset.univ.filter (fun i : Fin 2 => 1 ≤ (i : ℕ)), s = g * s
      rw [show (Finset.univ.filter fun i : Fin 2 => 1 ≤ (i : ℕ)) = {1} from by decide, Finset.sum_singleton]
  have hI0 : t.I = [fun _ => 0] := Except.ok.inj (hI.symm.trans (show index_set 0 1 = .ok [fun _ => 0] from rfl))
  obtain rfl := Except.ok.inj (hp.symm.trans hq0)
  obtain ⟨q, K, I, r, u, R⟩ := t
  dsimp only at *
  subst hI0
  subst hq
  subst hK
  set k := Real.exp (-(1 / (2 * g))) with hk
  have hk1 : k < 1 := by
    rw [hk, Real.exp_lt_one_iff]
    have : 0 < 1 / (2 * g) := by positivity
    linarith
  set v := max (g * s) 1e-6 with hv
  have hv0 : 0 < v := lt_of_lt_of_le (by norm_num) (le_max_right _ _)
  have e0 := congrFun hsys 0
  have e1 := congrFun hsys 1
  have e2 := congrFun horth 0
  have hx : -1 / (g * 2) = -(1 / (2 * g)) := by field_simp
  simp [covMat, exponential_squared, floored, Matrix.mulVec, dotProduct, Fin.sum_univ_two, monomials, hx] at e0 e1 e2
  have hk' : Real.exp (-(g⁻¹ * 2⁻¹)) = k := by
    rw [hk]
    congr 2
    field_simp
  rw [hk', ← hv] at e0 e1
  congr 3
  funext i
  have h1 := congrFun (kernel_mulVec !![(0 : ℝ); 1] (fun _ => g * 2) r !![(1 : ℝ)] [fun _ => 0] u) i
  change surface !![(0 : ℝ); 1] (fun _ => g * 2) r (fitted [fun _ => 0] u) (!![(1 : ℝ)] i) = _
  rw [← h1]
  obtain rfl := Fin.fin_one_eq_zero i
  simp [exponential_squared, Matrix.mulVec, dotProduct, Fin.sum_univ_two, monomials, hx]
  rw [hk']
  have hne : v + (1 - k) ≠ 0 := by linarith
  have hr1 : r 1 * (2 * (v + (1 - k))) = a := by linear_combination e1 - e0 - (k - 1 - v) * e2
  rw [← hr1]
  field_simp
  linear_combination e1 - hr1

/-- C136 fails for radial basis surfaces when the outputs change their unit: the eigenvalues change by the square of the factor, the default noise
with them, and what is predicted does not change by the factor. -/
theorem C136_units_refuted {lib : Model.ResponseSurfaces.Lib} (hch : CholeskyOK lib) (hfm : FminboundOK lib) :
    ∃ (X : Matrix (Fin 2) (Fin 1) ℝ) (f : Fin 2 → ℝ) (e : Fin 2 → ℝ) (a : ℝ) (w1 w2 : RBF), 0 < a ∧ (∀ j, 0 < e j) ∧
      (rfit lib X f none (some (NpVec.of e))).run { N := 0 } = (.ok (), w1) ∧
      (rfit lib X (fun i => a * f i + 0) none (some (NpVec.of fun j => a ^ 2 * e j))).run { N := 0 } = (.ok (), w2) ∧
      ¬ Tracks (1 : Matrix (Fin 1) (Fin 1) ℝ) 0 a 0 w1.predict w2.predict := by
  obtain ⟨w1, g1, a1, a2, r1, p1⟩ := two_points hch hfm 1 one_pos
  obtain ⟨w2, g2, b1, b2, r2, p2⟩ := two_points hch hfm (10 ^ 7) (s := 10 ^ 14) (by norm_num)
  refine ⟨!![(0 : ℝ); 1], ![0, 1], fun _ => 1, 10 ^ 7, w1, w2, by norm_num, fun _ => one_pos, r1, ?_, fun h => ?_⟩
  · have h1 : (fun i => (10 : ℝ) ^ 7 * (![0, 1] : Fin 2 → ℝ) i + 0) = ![0, 10 ^ 7] := by
      funext i
      fin_cases i <;> simp
    have h2 : (fun _ : Fin 2 => ((10 : ℝ) ^ 7) ^ 2 * 1) = fun _ => 10 ^ 14 := by
      funext i
      norm_num
    rw [h1, h2]
    exact r2
  · obtain ⟨y, G, q1, q2, -⟩ := h 1 !![(1 : ℝ)] !![(1 : ℝ)] (fun i k => by obtain rfl := Fin.fin_one_eq_zero k; simp)
    have c1 := (Prod.mk.inj (Except.ok.inj (p1.symm.trans q1))).1
    have c2 := (Prod.mk.inj (Except.ok.inj (p2.symm.trans q2))).1
    have hinj : ∀ {y z : Fin 1 → ℝ}, NpVec.of y = NpVec.of z → y = z := fun h => by injection h
    have d1 := congrFun (hinj c1) 0
    have d2 := congrFun (hinj c2) 0
    rw [one_mul, mul_one] at d1
    rw [add_zero, ← d1] at d2
    have d3 := mul_left_cancel₀ (by norm_num : (10 : ℝ) ^ 7 ≠ 0) d2
    have hk : ∀ g : ℝ, 1e-10 ≤ g → g ≤ 10 → Real.exp (-(1 / (2 * g))) ≤ 20 / 21 := by
      intro g h1 h2
      have hg : 0 < g := lt_of_lt_of_le (by norm_num) h1
      have hx : 1 / 20 ≤ 1 / (2 * g) := one_div_le_one_div_of_le (by positivity) (by linarith)
      rw [Real.exp_neg]
      refine inv_le_of_inv_le₀ (by norm_num) ?_
      have := Real.add_one_le_exp (1 / (2 * g))
      rw [show ((20 : ℝ) / 21)⁻¹ = 1 / 20 + 1 from by norm_num]
      linarith
    have k1 := hk g1 a1 a2
    have k2 := hk g2 b1 b2
    have k3 := Real.exp_pos (-(1 / (2 * g2)))
    set x1 := Real.exp (-(1 / (2 * g1)))
    set x2 := Real.exp (-(1 / (2 * g2)))
    have v1 : max g1 1e-6 ≤ 10 := max_le a2 (by norm_num)
    have v1' : 0 < max g1 1e-6 := lt_of_lt_of_le (by norm_num) (le_max_right _ _)
    have v2 : 10 ^ 4 ≤ max (g2 * 10 ^ 14) 1e-6 := by
      refine le_trans ?_ (le_max_left _ _)
      nlinarith
    set y1 := max g1 1e-6
    set y2 := max (g2 * 10 ^ 14) 1e-6
    have z1 : y1 + (1 - x1) ≠ 0 := by linarith
    have z2 : y2 + (1 - x2) ≠ 0 := by nlinarith
    have h4 : y2 / (2 * (y2 + (1 - x2))) = y1 / (2 * (y1 + (1 - x1))) := by linarith
    rw [div_eq_div_iff (by simpa using z2) (by simpa using z1)] at h4
    nlinarith

/-! ## The hypotheses hold in concrete cases -/

theorem reflected_points : SamePoints (!![-1] : Matrix (Fin 1) (Fin 1) ℝ) (fun _ => 1) (Matrix.of ![![0], ![1]] : Matrix (Fin 2) (Fin 1) ℝ)
    (Matrix.of ![![1], ![0]]) := by
  intro i k
  obtain rfl := Fin.fin_one_eq_zero k
  fin_cases i <;> simp

/-- A line through two points, in the coordinate `1 - x`, with outputs in another unit. -/
example (lib : Model.ResponseSurfaces.Lib) (hl : LstsqOK lib) := C136_polynomial lib hl { N := 1 } le_rfl le_rfl ![3, 5] none (fun _ => by simp)
  unisolvent_line (A := !![-1]) (A' := !![-1]) (by ext i j; fin_cases i; fin_cases j; simp) reflected_points 2 7

/-- A radial basis surface in the coordinate `1 - x`, with eigenvalues given. -/
example (lib : Model.ResponseSurfaces.Lib) := C136_rbf lib { N := 1 } le_rfl ![3, 5] none (some (NpVec.of ![2, 1])) (A := !![-1]) (A' := !![-1])
  (by ext i j; fin_cases i; fin_cases j; simp) (fun z => by simp) reflected_points (a := -1) (by norm_num) 7

/-- A rotated plane, with the basis vector of the active subspace reversed. -/
example : ∃ (Q : Matrix (Fin 2) (Fin 2) ℝ) (V1 V1' : Matrix (Fin 2) (Fin 1) ℝ), Q ≠ 1 ∧ Q.transpose * Q = 1 ∧ V1.transpose * V1 = 1 ∧
    V1'.transpose * V1' = 1 ∧ V1' * V1'.transpose = Q.transpose * (V1 * V1.transpose) * Q ∧
    V1' * Matrix.diagonal (fun j => (![2, 1] : Fin 2 → ℝ) (Fin.castLE one_le_two j)) * V1'.transpose
      = Q.transpose * (V1 * Matrix.diagonal (fun j => (![2, 1] : Fin 2 → ℝ) (Fin.castLE one_le_two j)) * V1.transpose) * Q := by
  refine ⟨!![3 / 5, -4 / 5; 4 / 5, 3 / 5], !![1; 0], !![-3 / 5; 4 / 5], fun h => ?_, ?_, ?_, ?_, ?_, ?_⟩
  · have := congrFun (congrFun h 0) 0
    norm_num at this
  all_goals
    ext i j
    simp only [Matrix.mul_apply, Matrix.transpose_apply, Fin.sum_univ_two, Fin.sum_univ_one, Matrix.diagonal_apply]
    fin_cases i <;> fin_cases j <;> norm_num

/-- Gradients along the first input: the eigenvalues differ. -/
example (lib : Model.Subspaces.Lib) (hl : SubLibOK lib) : ∃ e W, active_subspace lib (.mat (NpMat.of !![(1 : ℝ), 0])) (wcol fun _ : Fin 1 => 1) = .ok ⟨2, e, W⟩ ∧
    ∃ j k, e j ≠ e k := by
  obtain ⟨e, W, h, hs⟩ := C34_posSemidef lib hl (by norm_num) _ (gradOuter_posSemidef !![(1 : ℝ), 0] (fun _ : Fin 1 => 1) fun _ => zero_le_one)
  refine ⟨e, W, by rw [active_subspace_eq, h], 0, 1, fun he => ?_⟩
  have hC := hs.isEigh.vecs
  have ho : W * W.transpose = 1 := mul_eq_one_comm.mp hs.isEigh.orth
  have hd : Matrix.diagonal e = e 0 • (1 : Matrix (Fin 2) (Fin 2) ℝ) := by
    ext i j
    fin_cases i <;> fin_cases j <;> simp [he]
  rw [hd, Matrix.mul_smul, Matrix.mul_one] at hC
  have h2 := congrArg (· * W.transpose) hC
  simp only [Matrix.mul_assoc, Matrix.smul_mul, ho, Matrix.mul_one] at h2
  have h3 := congrFun (congrFun h2 0) 0
  have h4 := congrFun (congrFun h2 1) 1
  simp [gradOuter] at h3 h4
  linarith

/-- The contracts of the library can be met. -/
example : ∃ lib : Model.ResponseSurfaces.Lib, CholeskyOK lib ∧ FminboundOK lib := by
  obtain ⟨lib, -, h1, h2⟩ := rbfLib_exists
  exact ⟨lib, h1, h2⟩

end Props
