import Verif.Proofs.Kernel
import Verif.Proofs.PolyTrain

/-! Lemmas about radial basis models. -/

open Py Model.ResponseSurfaces Matrix Proofs.PolyApprox Proofs.Kernel

namespace Proofs.RBF

variable {m n M p N : ℕ}

theorem bind_ok {α β : Type} {x : Except Err α} {f : α → Except Err β} {b : β} (h : (x >>= f) = .ok b) :
    ∃ a, x = .ok a ∧ f a = .ok b := by
  cases x with
  | error e => cases h
  | ok a => exact ⟨a, rfl, h⟩

theorem bind_of_ok {α β : Type} {x : Except Err α} {f : α → Except Err β} {a : α} (h : x = .ok a) : (x >>= f) = f a := by
  rw [h]; rfl

theorem bind_of_error {α β : Type} {x : Except Err α} {f : α → Except Err β} {e : Err} (h : x = .error e) :
    (x >>= f) = .error e := by
  rw [h]; rfl

theorem solve_spec {n k : ℕ} {A : Matrix (Fin n) (Fin n) ℝ} {B Z : Matrix (Fin n) (Fin k) ℝ} (h : Np.solve A B = .ok Z) :
    IsUnit A.det ∧ A * Z = B := by
  unfold Np.solve at h
  split_ifs at h with hA
  · refine ⟨hA, ?_⟩
    rw [← Except.ok.inj h, ← Matrix.mul_assoc, Matrix.mul_nonsing_inv _ hA, Matrix.one_mul]

/-- The regularised covariance of `train`. -/
noncomputable abbrev floored (q : Params M m) : Params M m := ⟨q.ell, fun i => max (q.v i) 1e-6⟩

theorem mulVec_col {r c : ℕ} (A : Matrix (Fin r) (Fin c) ℝ) (v : Fin c → ℝ) : A * colMat v = colMat (A.mulVec v) := by
  ext i j
  simp [Matrix.mul_apply, colMat, Matrix.mulVec, dotProduct]

theorem colMat_injective {n : ℕ} : Function.Injective (colMat : (Fin n → ℝ) → _) := by
  intro u v h
  funext i
  exact congrFun (congrFun h i) 0

/-- What a successful fit satisfies. -/
theorem rbfFit_spec {X : Matrix (Fin M) (Fin m) ℝ} {f : Fin M → ℝ} {v e : Option NpVec} {g : ℝ} {t : Fit M m}
    (h : rbfFit X f v N e g = .ok t) :
    ∃ q0, params M m g v e = .ok q0 ∧ t.q = floored q0 ∧ t.K = covMat X t.q ∧ index_set N m = .ok t.I ∧
      IsUnit (saddle t.K (monomials X t.I)).det ∧ IsUnit t.K.det ∧
      t.K.mulVec t.radial + (monomials X t.I).mulVec t.poly = f ∧ (monomials X t.I).transpose.mulVec t.radial = 0 ∧
      t.Rsqr = 1 - (f - (monomials X t.I).mulVec t.poly) ⬝ᵥ (t.K⁻¹.mulVec (f - (monomials X t.I).mulVec t.poly))
        / (f ⬝ᵥ t.K⁻¹.mulVec f) := by
  unfold rbfFit at h
  obtain ⟨q0, hq, h⟩ := bind_ok h
  obtain ⟨⟨I, B⟩, hI, h⟩ := bind_ok h
  obtain ⟨W, hW, h⟩ := bind_ok h
  obtain ⟨Kres, hKres, h⟩ := bind_ok h
  obtain ⟨Kf, hKf, h⟩ := bind_ok h
  obtain rfl := Except.ok.inj h
  have hI' : index_set N m = .ok I ∧ B = monomials X I := by
    unfold polynomial_bases at hI
    split at hI
    · rename_i J hJ
      have := Except.ok.inj hI
      cases this
      exact ⟨hJ, rfl⟩
    · cases hI
  obtain ⟨hI', rfl⟩ := hI'
  obtain ⟨hS, hSW⟩ := solve_spec hW
  obtain ⟨hK, hKres⟩ := solve_spec hKres
  obtain ⟨-, hKf⟩ := solve_spec hKf
  refine ⟨q0, hq, rfl, rfl, hI', hS, hK, ?_, ?_, ?_⟩
  · funext i
    have h1 := congrFun (congrFun hSW (Fin.castAdd I.length i)) 0
    have h2 := congrFun (saddle_mulVec (covMat X (floored q0)) (monomials X I) fun a => W a 0) (Fin.castAdd I.length i)
    rw [Fin.append_left] at h2
    rw [Np.vstack_castAdd] at h1
    exact h2.symm.trans h1
  · funext j
    have h1 := congrFun (congrFun hSW (Fin.natAdd M j)) 0
    have h2 := congrFun (saddle_mulVec (covMat X (floored q0)) (monomials X I) fun a => W a 0) (Fin.natAdd M j)
    rw [Fin.append_right] at h2
    rw [Np.vstack_natAdd] at h1
    exact h2.symm.trans h1
  · have hinv : ∀ (Z : Matrix (Fin M) (Fin 1) ℝ) (u : Fin M → ℝ), covMat X (floored q0) * Z = colMat u →
        Z = colMat ((covMat X (floored q0))⁻¹.mulVec u) := by
      intro Z u hZ
      rw [← mulVec_col, ← hZ, ← Matrix.mul_assoc, Matrix.nonsing_inv_mul _ hK, Matrix.one_mul]
    have hr : colMat f - monomials X I * colMat (fun j : Fin I.length => W (Fin.natAdd M j) 0)
        = colMat (f - (monomials X I).mulVec fun j : Fin I.length => W (Fin.natAdd M j) 0) := by
      rw [mulVec_col]; rfl
    have hdot : ∀ u v : Fin M → ℝ, ((colMat u).transpose * colMat v) 0 0 = u ⬝ᵥ v := by
      intro u v
      rw [Matrix.mul_apply]
      rfl
    rw [hr] at hKres
    rw [hr, hinv _ _ hKres, hinv _ _ hKf, hdot, hdot]

/-- A fit exists for positive length scales and a polynomial block of full column rank. -/
theorem rbfFit_ok {X : Matrix (Fin M) (Fin m) ℝ} (f : Fin M → ℝ) {v e : Option NpVec} {g : ℝ} {q0 : Params M m}
    (hq : params M m g v e = .ok q0) (hl : ∀ k, 0 < q0.ell k) {I : List (Fin m → ℕ)} (hI : index_set N m = .ok I)
    (hB : Spec.FullColumnRank (monomials X I)) : ∃ t, rbfFit X f v N e g = .ok t := by
  have hK : (covMat X (floored q0)).PosDef := cov_posDef X _ hl fun i => lt_of_lt_of_le (by norm_num) (le_max_right _ _)
  have hb : polynomial_bases X N = .ok ⟨I, monomials X I⟩ := by rw [polynomial_bases, hI]
  unfold rbfFit
  rw [bind_of_ok hq, bind_of_ok hb]
  simp only
  rw [bind_of_ok (solve_ok (saddle_det hK hB) _), bind_of_ok (solve_ok (posDef_det hK) _),
    bind_of_ok (solve_ok (posDef_det hK) _)]
  exact ⟨_, rfl⟩

/-- `B^T K^{-1} B` is invertible. -/
theorem schur_det {K : Matrix (Fin M) (Fin M) ℝ} (hK : K.PosDef) {B : Matrix (Fin M) (Fin p) ℝ}
    (hB : Spec.FullColumnRank B) : IsUnit (B.transpose * (K⁻¹ * B)).det := by
  have h := Matrix.PosDef.conjTranspose_mul_mul_same (B := B) hK.inv hB
  have h2 := posDef_det h
  rw [Matrix.mul_assoc] at h2
  exact h2

theorem objective_ok (lib : Lib) {X : Matrix (Fin M) (Fin m) ℝ} (f : Fin M → ℝ) {v e : Option NpVec} {t : ℝ}
    {q : Params M m} (hq : params M m ((10 : ℝ) ^ t) v e = .ok q) (hK : (covMat X q).PosDef) {L : Matrix (Fin M) (Fin M) ℝ}
    (hL : lib.cholesky M (covMat X q) = .ok L) {I : List (Fin m → ℕ)} (hI : index_set N m = .ok I)
    (hB : Spec.FullColumnRank (monomials X I)) : ∃ y, rbf_objective lib X f v N e t = .ok y := by
  have hb : polynomial_bases X N = .ok ⟨I, monomials X I⟩ := by rw [polynomial_bases, hI]
  unfold rbf_objective
  rw [bind_of_ok hq, bind_of_ok hL, bind_of_ok hb]
  simp only
  rw [bind_of_ok (solve_ok (posDef_det hK) _), bind_of_ok (solve_ok (posDef_det hK) _),
    bind_of_ok (solve_ok (schur_det hK hB) _), bind_of_ok (solve_ok (posDef_det hK) _)]
  exact ⟨_, rfl⟩

theorem objective_error (lib : Lib) {X : Matrix (Fin M) (Fin m) ℝ} (f : Fin M → ℝ) {v e : Option NpVec} {t : ℝ}
    {q : Params M m} (hq : params M m ((10 : ℝ) ^ t) v e = .ok q) {er : Err} (hL : lib.cholesky M (covMat X q) = .error er) :
    rbf_objective lib X f v N e t = .error er := by
  unfold rbf_objective
  rw [bind_of_ok hq, bind_of_error hL]

/-! ## Predictions -/

/-- The fitted function. -/
noncomputable def surface (X0 : Matrix (Fin M) (Fin m) ℝ) (ell : Fin m → ℝ) (radial : Fin M → ℝ) (P : MvPolynomial (Fin m) ℝ)
    (x : Fin m → ℝ) : ℝ :=
  ∑ i, radial i * Real.exp (-∑ k, (x k - X0 i k) ^ 2 / ell k) + MvPolynomial.eval x P

/-- Its partial derivatives. -/
noncomputable def surfaceGrad (X0 : Matrix (Fin M) (Fin m) ℝ) (ell : Fin m → ℝ) (radial : Fin M → ℝ)
    (P : MvPolynomial (Fin m) ℝ) (x : Fin m → ℝ) (k : Fin m) : ℝ :=
  ∑ i, radial i * (Real.exp (-∑ k, (x k - X0 i k) ^ 2 / ell k) * (-(2 * (x k - X0 i k) / ell k)))
    + MvPolynomial.eval x (MvPolynomial.pderiv k P)

theorem hasFDerivAt_surface (X0 : Matrix (Fin M) (Fin m) ℝ) (ell : Fin m → ℝ) (radial : Fin M → ℝ)
    (P : MvPolynomial (Fin m) ℝ) (x : Fin m → ℝ) :
    HasFDerivAt (surface X0 ell radial P)
      (∑ k, surfaceGrad X0 ell radial P x k • (ContinuousLinearMap.proj k : (Fin m → ℝ) →L[ℝ] ℝ)) x := by
  have hk : ∀ i k, HasFDerivAt (fun x : Fin m → ℝ => (x k - X0 i k) ^ 2 / ell k)
      ((2 * (x k - X0 i k) / ell k) • (ContinuousLinearMap.proj k : (Fin m → ℝ) →L[ℝ] ℝ)) x := by
    intro i k
    have h1 : HasDerivAt (fun y : ℝ => (y - X0 i k) ^ 2 / ell k) (2 * (x k - X0 i k) / ell k) (x k) := by
      have := (((hasDerivAt_id (x k)).sub_const (X0 i k)).pow 2).div_const (ell k)
      simpa using this
    have h2 : HasFDerivAt (fun x : Fin m → ℝ => x k) (ContinuousLinearMap.proj k : (Fin m → ℝ) →L[ℝ] ℝ) x :=
      (ContinuousLinearMap.proj (R := ℝ) (φ := fun _ : Fin m => ℝ) k).hasFDerivAt
    exact h1.comp_hasFDerivAt x h2
  have hs : ∀ i, HasFDerivAt (fun x : Fin m → ℝ => -∑ k, (x k - X0 i k) ^ 2 / ell k)
      (-∑ k, (2 * (x k - X0 i k) / ell k) • (ContinuousLinearMap.proj k : (Fin m → ℝ) →L[ℝ] ℝ)) x := by
    intro i
    have := (HasFDerivAt.fun_sum fun k (_ : k ∈ Finset.univ) => hk i k).neg
    exact this
  have he : ∀ i, HasFDerivAt (fun x : Fin m → ℝ => radial i * Real.exp (-∑ k, (x k - X0 i k) ^ 2 / ell k))
      (radial i • (Real.exp (-∑ k, (x k - X0 i k) ^ 2 / ell k) •
        (-∑ k, (2 * (x k - X0 i k) / ell k) • (ContinuousLinearMap.proj k : (Fin m → ℝ) →L[ℝ] ℝ)))) x :=
    fun i => (hs i).exp.const_mul (radial i)
  have ht := (HasFDerivAt.fun_sum fun i (_ : i ∈ Finset.univ) => he i).add (hasFDerivAt_eval P x)
  refine ht.congr_fderiv ?_
  ext v
  simp only [_root_.add_apply, _root_.smul_apply, _root_.sum_apply, _root_.neg_apply,
    ContinuousLinearMap.proj_apply, smul_eq_mul, surfaceGrad, add_mul, Finset.sum_add_distrib, Finset.sum_mul]
  congr 1
  rw [Finset.sum_comm]
  refine Finset.sum_congr rfl fun i _ => ?_
  rw [mul_neg, mul_neg, Finset.mul_sum, Finset.mul_sum, ← Finset.sum_neg_distrib]
  exact Finset.sum_congr rfl fun k _ => by ring

theorem kernel_mulVec {M' : ℕ} (X0 : Matrix (Fin M) (Fin m) ℝ) (ell : Fin m → ℝ) (radial : Fin M → ℝ)
    (Y : Matrix (Fin M') (Fin m) ℝ) (I : List (Fin m → ℕ)) (c : Fin I.length → ℝ) :
    (exponential_squared Y X0 1 ell).mulVec radial + (monomials Y I).mulVec c
      = fun i => surface X0 ell radial (fitted I c) (Y i) := by
  funext i
  rw [Pi.add_apply, mulVec_monomials, surface]
  congr 1
  simp only [Matrix.mulVec, dotProduct, exponential_squared, Matrix.of_apply, one_mul]
  refine Finset.sum_congr rfl fun j _ => ?_
  rw [mul_comm, ← Finset.sum_neg_distrib]
  congr 2
  exact Finset.sum_congr rfl fun k _ => by ring

theorem grad_mulVec {M' : ℕ} (X0 : Matrix (Fin M) (Fin m) ℝ) (ell : Fin m → ℝ) (radial : Fin M → ℝ)
    (Y : Matrix (Fin M') (Fin m) ℝ) (I : List (Fin m → ℕ)) (c : Fin I.length → ℝ) (k : Fin m) :
    (grad_exponential_squared X0 Y 1 ell k).transpose.mulVec radial + (gradMonomials Y I k).mulVec c
      = fun i => surfaceGrad X0 ell radial (fitted I c) (Y i) k := by
  funext i
  rw [Pi.add_apply, mulVec_gradMonomials, surfaceGrad]
  congr 1
  simp only [Matrix.mulVec, dotProduct, grad_exponential_squared, Matrix.transpose_apply, Matrix.of_apply, one_mul]
  refine Finset.sum_congr rfl fun j _ => ?_
  rw [← Finset.sum_neg_distrib]
  have : (∑ l, (X0 j l - Y i l) * (X0 j l - Y i l) * (-1 / ell l)) = ∑ l, -((Y i l - X0 j l) ^ 2 / ell l) :=
    Finset.sum_congr rfl fun l _ => by ring
  rw [this]
  ring

theorem rbfPredictMat_eq {M' : ℕ} {I : List (Fin m → ℕ)} (hI : index_set N m = .ok I) (X0 : Matrix (Fin M) (Fin m) ℝ)
    (ell : Fin m → ℝ) (radial : Fin M → ℝ) (c : Fin I.length → ℝ) (Y : Matrix (Fin M') (Fin m) ℝ) :
    rbfPredictMat N X0 ell (NpVec.of radial) (NpVec.of c) Y false
      = .ok (fun i => surface X0 ell radial (fitted I c) (Y i), none) ∧
    rbfPredictMat N X0 ell (NpVec.of radial) (NpVec.of c) Y true
      = .ok (fun i => surface X0 ell radial (fitted I c) (Y i),
        some (Matrix.of fun i k => surfaceGrad X0 ell radial (fitted I c) (Y i) k)) := by
  have h1 : polynomial_bases Y N = .ok ⟨I, monomials Y I⟩ := by rw [polynomial_bases, hI]
  have h2 : grad_polynomial_bases Y N = .ok ⟨I, gradMonomials Y I⟩ := by rw [grad_polynomial_bases, hI]
  have h3 : ((List.finRange m).mapM fun k => do
      let a ← NpVec.dot (grad_exponential_squared X0 Y 1 ell k).transpose (NpVec.of radial)
      let b ← NpVec.dot (gradMonomials Y I k) (NpVec.of c)
      return a + b : Except Err _)
      = .ok ((List.finRange m).map fun k => fun i => surfaceGrad X0 ell radial (fitted I c) (Y i) k) :=
    mapM_ok _ _ _ fun k _ => by
      rw [bind_of_ok (NpVec.dot_of _ _), bind_of_ok (NpVec.dot_of _ _), ← grad_mulVec]
      rfl
  have h4 := kernel_mulVec X0 ell radial Y I c
  constructor
  · unfold rbfPredictMat
    simp only
    rw [bind_of_ok h1]
    simp only
    rw [bind_of_ok (NpVec.dot_of _ _), bind_of_ok (NpVec.dot_of _ _), h4]
    rfl
  · unfold rbfPredictMat
    simp only
    rw [bind_of_ok h1]
    simp only
    rw [bind_of_ok (NpVec.dot_of _ _), bind_of_ok (NpVec.dot_of _ _), h4, if_pos trivial, bind_of_ok h2]
    simp only
    rw [bind_of_ok h3]
    change Except.ok _ = Except.ok _
    congr 3
    ext i k
    rw [Matrix.of_apply, getD_map_finRange, Matrix.of_apply]

theorem rbfPredict_eq {M' : ℕ} (s : RBF) {I : List (Fin m → ℕ)} (hI : index_set s.N m = .ok I) (X0 : Matrix (Fin M) (Fin m) ℝ)
    (ell : Fin m → ℝ) (radial : Fin M → ℝ) (c : Fin I.length → ℝ) (hX : s.X = some (NpMat.of X0))
    (hell : s.ell = some (NpVec.of ell)) (hr : s.radial_weights = some (NpVec.of radial))
    (hc : s.poly_weights = some (NpVec.of c)) (Y : Matrix (Fin M') (Fin m) ℝ) :
    s.predict (.mat (NpMat.of Y)) false = .ok (NpVec.of fun i => surface X0 ell radial (fitted I c) (Y i), none) ∧
    s.predict (.mat (NpMat.of Y)) true = .ok (NpVec.of fun i => surface X0 ell radial (fitted I c) (Y i),
        some (NpMat.of (Matrix.of fun i k => surfaceGrad X0 ell radial (fitted I c) (Y i) k))) := by
  obtain ⟨h1, h2⟩ := rbfPredictMat_eq hI X0 ell radial c Y
  have hcond : (NpMat.of X0).cols = (NpMat.of Y).cols ∧ (NpVec.of ell).n = (NpMat.of Y).cols := ⟨rfl, rfl⟩
  constructor
  · unfold Model.ResponseSurfaces.RBF.predict
    simp only [Model.Misc.process_inputs, hX, hell, hr, hc]
    rw [dif_pos hcond]
    erw [h1]
    rfl
  · unfold Model.ResponseSurfaces.RBF.predict
    simp only [Model.Misc.process_inputs, hX, hell, hr, hc]
    rw [dif_pos hcond]
    erw [h2]
    rfl

end Proofs.RBF
