import Verif.Props.ComputeMore
import Verif.Props.LocalWeights
import Verif.Proofs.Rotation

/-!
# Property C135: the estimates follow a change of the coordinates

`x = Q x'` with an orthogonal `Q`, and `f' = a f + b`.  The eigenvalues are multiplied by `a^2`, and the subspaces are the same in the new
coordinates.
-/

open Py Model.Subspaces Model.Gradients Spec Matrix Proofs.Eigh Proofs.Bootstrap Proofs.PolyApprox

namespace Props

variable {S E W : Type} {M m : ℕ}

/-! ## What is to be shown -/

/-- The orthogonal projector onto the span of the first `n` columns of `W`. -/
def leadProj (W : Matrix (Fin m) (Fin m) ℝ) (n : ℕ) : Matrix (Fin m) (Fin m) ℝ :=
  Matrix.of fun k l => ∑ j : Fin m, if (j : ℕ) < n then W k j * W l j else 0

/-- The eigenvalues are multiplied by `t`, and for every `n` at which the eigenvalues have a gap the span of the first `n` directions is
expressed in the new coordinates. -/
def Follows (Q : Matrix (Fin m) (Fin m) ℝ) (t : ℝ) (e : Fin m → ℝ) (W : Matrix (Fin m) (Fin m) ℝ) (e' : Fin m → ℝ)
    (W' : Matrix (Fin m) (Fin m) ℝ) : Prop :=
  (∀ j, e' j = t * e j) ∧
    ∀ n : ℕ, (∀ j k : Fin m, (j : ℕ) < n → n ≤ k → e k < e j) → leadProj W' n = Q.transpose * leadProj W n * Q

/-! ## Eigenvectors across a gap -/

theorem leadProj_eq (W : Matrix (Fin m) (Fin m) ℝ) (n : ℕ) :
    leadProj W n = W * Matrix.diagonal (fun j : Fin m => if (j : ℕ) < n then (1 : ℝ) else 0) * W.transpose := by
  ext k l
  rw [Matrix.mul_apply, leadProj, Matrix.of_apply]
  refine Finset.sum_congr rfl fun j _ => ?_
  rw [Matrix.mul_diagonal, Matrix.transpose_apply]
  split_ifs <;> simp

theorem leadProj_unique {B : Matrix (Fin m) (Fin m) ℝ} {e : Fin m → ℝ} {U V : Matrix (Fin m) (Fin m) ℝ} (hU : IsEigh B e U)
    (hV : IsEigh B e V) (n : ℕ) (hgap : ∀ j k : Fin m, (j : ℕ) < n → n ≤ k → e k < e j) : leadProj U n = leadProj V n := by
  set D := Matrix.diagonal (fun j : Fin m => if (j : ℕ) < n then (1 : ℝ) else 0) with hD
  have hUU : U * U.transpose = 1 := mul_eq_one_comm.mp hU.orth
  have hVV : V * V.transpose = 1 := mul_eq_one_comm.mp hV.orth
  have hB : B.transpose = B := by
    have hA : B = U * Matrix.diagonal e * U.transpose := by rw [← hU.vecs, Matrix.mul_assoc, hUU, Matrix.mul_one]
    rw [hA]
    simp [Matrix.transpose_mul, Matrix.mul_assoc]
  have hc : Matrix.diagonal e * (U.transpose * V) = (U.transpose * V) * Matrix.diagonal e := by
    have h1 := congrArg Matrix.transpose hU.vecs
    rw [Matrix.transpose_mul, Matrix.transpose_mul, hB, Matrix.diagonal_transpose] at h1
    rw [← Matrix.mul_assoc, ← h1, Matrix.mul_assoc, hV.vecs, Matrix.mul_assoc]
  have hcD : D * (U.transpose * V) = (U.transpose * V) * D := by
    ext j k
    have h1 := congrFun (congrFun hc j) k
    rw [Matrix.diagonal_mul, Matrix.mul_diagonal] at h1
    rw [hD, Matrix.diagonal_mul, Matrix.mul_diagonal]
    by_cases hj : (j : ℕ) < n <;> by_cases hk : (k : ℕ) < n
    · simp [hj, hk]
    · have := hgap j k hj (not_lt.mp hk)
      have h0 : (U.transpose * V) j k = 0 := by
        have h2 : (e j - e k) * (U.transpose * V) j k = 0 := by linear_combination h1
        exact (mul_eq_zero.mp h2).resolve_left (by linarith)
      simp [h0]
    · have := hgap k j hk (not_lt.mp hj)
      have h0 : (U.transpose * V) j k = 0 := by
        have h2 : (e j - e k) * (U.transpose * V) j k = 0 := by linear_combination h1
        exact (mul_eq_zero.mp h2).resolve_left (by linarith)
      simp [h0]
    · simp [hj, hk]
  rw [leadProj_eq, leadProj_eq, ← hD]
  calc U * D * U.transpose = U * D * U.transpose * (V * V.transpose) := by rw [hVV, Matrix.mul_one]
    _ = U * (D * (U.transpose * V)) * V.transpose := by simp only [Matrix.mul_assoc]
    _ = (U * U.transpose) * V * D * V.transpose := by rw [hcD]; simp only [Matrix.mul_assoc]
    _ = V * D * V.transpose := by rw [hUU, Matrix.one_mul]

theorem follows_of {A A' Q : Matrix (Fin m) (Fin m) ℝ} (hQ : Q.transpose * Q = 1) {t : ℝ} (ht : 0 < t)
    (hA : A' = t • (Q.transpose * A * Q)) {e e' : Fin m → ℝ} {W W' : Matrix (Fin m) (Fin m) ℝ} (h : IsSortedEigh A e W)
    (h' : IsSortedEigh A' e' W') : Follows Q t e W e' W' := by
  subst hA
  have hQ' : Q * Q.transpose = 1 := mul_eq_one_comm.mp hQ
  have hU : IsEigh (t • (Q.transpose * A * Q)) (fun j => t * e j) (Q.transpose * W) := by
    refine ⟨?_, ?_⟩
    · have h1 : Matrix.diagonal (fun j => t * e j) = t • Matrix.diagonal e := by
        rw [← Matrix.diagonal_smul]
        rfl
      rw [h1, Matrix.smul_mul, Matrix.mul_smul]
      congr 1
      calc Q.transpose * A * Q * (Q.transpose * W) = Q.transpose * A * (Q * Q.transpose) * W := by simp only [Matrix.mul_assoc]
        _ = Q.transpose * (A * W) := by rw [hQ', Matrix.mul_one, Matrix.mul_assoc]
        _ = Q.transpose * W * Matrix.diagonal e := by rw [h.isEigh.vecs, Matrix.mul_assoc]
    · rw [Matrix.transpose_mul, Matrix.transpose_transpose]
      calc W.transpose * Q * (Q.transpose * W) = W.transpose * (Q * Q.transpose) * W := by simp only [Matrix.mul_assoc]
        _ = 1 := by rw [hQ', Matrix.mul_one, h.isEigh.orth]
  have hanti : Antitone fun j => t * e j := fun i j hij => mul_le_mul_of_nonneg_left (h.anti hij) ht.le
  have he : e' = fun j => t * e j :=
    antitone_unique h'.anti hanti ((roots_of_eigh h'.isEigh).symm.trans (roots_of_eigh hU))
  refine ⟨fun j => by rw [he], fun n hgap => ?_⟩
  rw [leadProj_unique (he ▸ h'.isEigh) hU n fun j k hj hk => mul_lt_mul_of_pos_left (hgap j k hj hk) ht, leadProj_eq, leadProj_eq,
    Matrix.transpose_mul, Matrix.transpose_transpose]
  simp only [Matrix.mul_assoc]

/-! ## Gradients -/

theorem gradOuter_rotate (G : Matrix (Fin M) (Fin m) ℝ) (w : Fin M → ℝ) (Q : Matrix (Fin m) (Fin m) ℝ) (a : ℝ) :
    gradOuter (a • (G * Q)) w = a ^ 2 • (Q.transpose * gradOuter G w * Q) := by
  have h1 : ∀ G : Matrix (Fin M) (Fin m) ℝ, gradOuter G w = G.transpose * (Matrix.diagonal w * G) := by
    intro G
    ext k l
    rw [Matrix.mul_apply, gradOuter, Matrix.of_apply]
    refine Finset.sum_congr rfl fun i _ => ?_
    rw [Matrix.diagonal_mul, Matrix.transpose_apply]
    ring
  rw [h1, h1, Matrix.transpose_smul, Matrix.transpose_mul, Matrix.mul_smul, Matrix.smul_mul, Matrix.mul_smul, smul_smul, ← sq]
  simp only [Matrix.mul_assoc]

/-- C135: `active_subspace`.  The gradients in the new coordinates are the rows of `a G Q`. -/
theorem C135_active (lib : Model.Subspaces.Lib) (hl : SubLibOK lib) (hm : 0 < m) (G : Matrix (Fin M) (Fin m) ℝ) (w : Fin M → ℝ)
    (hw : ∀ i, 0 ≤ w i) {Q : Matrix (Fin m) (Fin m) ℝ} (hQ : Q.transpose * Q = 1) {a : ℝ} (ha : a ≠ 0) :
    ∃ e W e' W', active_subspace lib (.mat (NpMat.of G)) (wcol w) = .ok ⟨m, e, W⟩ ∧
      active_subspace lib (.mat (NpMat.of (a • (G * Q)))) (wcol w) = .ok ⟨m, e', W'⟩ ∧ Follows Q (a ^ 2) e W e' W' := by
  obtain ⟨e, W, h, hs⟩ := C34_posSemidef lib hl hm _ (gradOuter_posSemidef G w hw)
  obtain ⟨e', W', h', hs'⟩ := C34_posSemidef lib hl hm _ (gradOuter_posSemidef (a • (G * Q)) w hw)
  exact ⟨e, W, e', W', by rw [active_subspace_eq, h], by rw [active_subspace_eq, h'],
    follows_of hQ (by positivity) (gradOuter_rotate G w Q a) hs hs'⟩

/-! ## Least squares -/

theorem leastSquares_unique {r c : ℕ} {A : Matrix (Fin r) (Fin c) ℝ} {b : Fin r → ℝ} {u v : Fin c → ℝ} (hA : FullColumnRank A)
    (hu : IsLeastSquares A b u) (hv : IsLeastSquares A b v) : u = v := by
  rw [Proofs.LeastSquares.isLeastSquares_iff] at hu hv
  have h1 : A.transpose.mulVec (A.mulVec (u - v)) = 0 := by
    have : A.mulVec (u - v) = (A.mulVec u - b) - (A.mulVec v - b) := by rw [Matrix.mulVec_sub]; abel
    rw [this, Matrix.mulVec_sub, hu, hv, sub_self]
  have h2 : sqNorm (A.mulVec (u - v)) = 0 := by
    rw [Proofs.LeastSquares.sqNorm_dot, Matrix.dotProduct_mulVec, ← Matrix.mulVec_transpose, h1, zero_dotProduct]
  rw [Proofs.LeastSquares.sqNorm_eq_zero, Matrix.mulVec_sub] at h2
  exact hA (sub_eq_zero.mp h2)

theorem leastSquares_move {r c : ℕ} {A A' : Matrix (Fin r) (Fin c) ℝ} {φ ψ : (Fin c → ℝ) →ₗ[ℝ] (Fin c → ℝ)}
    (h : ∀ z, A'.mulVec z = A.mulVec (φ z)) (hφ : ∀ y, φ (ψ y) = y) {a : ℝ} (ha : a ≠ 0) (d : Fin c → ℝ) {b : Fin r → ℝ}
    {u : Fin c → ℝ} (hu : IsLeastSquares A b u) : IsLeastSquares A' (a • b + A'.mulVec d) (a • ψ u + d) := by
  intro z
  have e1 : A'.mulVec (a • ψ u + d) - (a • b + A'.mulVec d) = a • (A.mulVec u - b) := by
    rw [Matrix.mulVec_add, Matrix.mulVec_smul, h (ψ u), hφ]
    module
  have e2 : A'.mulVec z - (a • b + A'.mulVec d) = a • (A.mulVec (φ (a⁻¹ • (z - d))) - b) := by
    rw [← h, Matrix.mulVec_smul, Matrix.mulVec_sub, smul_sub, smul_smul, mul_inv_cancel₀ ha, one_smul]
    abel
  rw [e1, e2, Proofs.LeastSquares.sqNorm_smul, Proofs.LeastSquares.sqNorm_smul]
  exact mul_le_mul_of_nonneg_left (hu _) (sq_nonneg a)

/-- A least-squares solution of smallest norm. -/
def IsMinNorm {r c : ℕ} (A : Matrix (Fin r) (Fin c) ℝ) (b : Fin r → ℝ) (u : Fin c → ℝ) : Prop :=
  IsLeastSquares A b u ∧ ∀ v, IsLeastSquares A b v → sqNorm u ≤ sqNorm v

theorem minNorm_move {r c : ℕ} {A A' : Matrix (Fin r) (Fin c) ℝ} {φ ψ : (Fin c → ℝ) →ₗ[ℝ] (Fin c → ℝ)}
    (h : ∀ z, A'.mulVec z = A.mulVec (φ z)) (hφ : ∀ y, φ (ψ y) = y) (hψ : ∀ y, ψ (φ y) = y) {a : ℝ} (ha : a ≠ 0) (d : Fin c → ℝ)
    {b : Fin r → ℝ} {u u' : Fin c → ℝ} (hu : IsMinNorm A b u) (hu' : IsMinNorm A' (a • b + A'.mulVec d) u')
    (hc : (d = 0 ∧ ∀ z, sqNorm (φ z) = sqNorm z) ∨ FullColumnRank A) : u' = a • ψ u + d := by
  have h1 := leastSquares_move h hφ ha d hu.1
  rcases hc with ⟨rfl, hn⟩ | hr
  · refine min_norm_unique hu'.1 h1 hu'.2 fun z hz => ?_
    have hb : b = a⁻¹ • (a • b + A'.mulVec 0) + A.mulVec 0 := by
      rw [Matrix.mulVec_zero, Matrix.mulVec_zero, add_zero, add_zero, smul_smul, inv_mul_cancel₀ ha, one_smul]
    have h2 : ∀ z, A.mulVec z = A'.mulVec (ψ z) := fun z => by rw [h, hφ]
    have h3 := leastSquares_move (A := A') (A' := A) (φ := ψ) (ψ := φ) h2 hψ (inv_ne_zero ha) 0 hz
    rw [← hb] at h3
    have h4 := hu.2 _ h3
    have h5 : sqNorm (ψ u) = sqNorm u := by rw [← hn (ψ u), hφ]
    rw [add_zero, Proofs.LeastSquares.sqNorm_smul, hn] at h4
    rw [add_zero, Proofs.LeastSquares.sqNorm_smul, h5]
    have ha2 : 0 < a ^ 2 := by positivity
    calc a ^ 2 * sqNorm u ≤ a ^ 2 * (a⁻¹ ^ 2 * sqNorm z) := mul_le_mul_of_nonneg_left h4 ha2.le
      _ = sqNorm z := by field_simp
  · refine leastSquares_unique (A := A') (fun y z hyz => ?_) hu'.1 h1
    have hyz : A'.mulVec y = A'.mulVec z := hyz
    rw [h, h] at hyz
    have := congrArg ψ (hr hyz)
    rwa [hψ, hψ] at this

/-- The sample in the new coordinates, `x' = Q^T (x + shift)`. -/
def newCoords (Q : Matrix (Fin m) (Fin m) ℝ) (c : Fin m → ℝ) (X : Matrix (Fin M) (Fin m) ℝ) : Matrix (Fin M) (Fin m) ℝ :=
  Matrix.of fun i k => ∑ l, X i l * Q l k + c k

/-- Coefficients of `v_0 + v.x'` in the old coordinates. -/
noncomputable def backMap (Q : Matrix (Fin m) (Fin m) ℝ) (c : Fin m → ℝ) : (Fin (1 + m) → ℝ) →ₗ[ℝ] (Fin (1 + m) → ℝ) where
  toFun v := Fin.append (fun _ : Fin 1 => v (Fin.castAdd m 0) + ∑ k, c k * v (Fin.natAdd 1 k)) fun l => ∑ k, Q l k * v (Fin.natAdd 1 k)
  map_add' u v := by
    funext i
    refine Fin.addCases (fun i => ?_) (fun l => ?_) i
    · simp only [Fin.append_left, Pi.add_apply, mul_add, Finset.sum_add_distrib]
      ring
    · simp only [Fin.append_right, Pi.add_apply, mul_add, Finset.sum_add_distrib]
  map_smul' t v := by
    funext i
    refine Fin.addCases (fun i => ?_) (fun l => ?_) i
    · simp only [Fin.append_left, Pi.smul_apply, smul_eq_mul, RingHom.id_apply, mul_add, Finset.mul_sum]
      congr 1
      exact Finset.sum_congr rfl fun k _ => by ring
    · simp only [Fin.append_right, Pi.smul_apply, smul_eq_mul, RingHom.id_apply, Finset.mul_sum]
      exact Finset.sum_congr rfl fun k _ => by ring

theorem backMap_zero (Q : Matrix (Fin m) (Fin m) ℝ) (c : Fin m → ℝ) (v : Fin (1 + m) → ℝ) (i : Fin 1) :
    backMap Q c v (Fin.castAdd m i) = v (Fin.castAdd m 0) + ∑ k, c k * v (Fin.natAdd 1 k) := by
  simp only [backMap, LinearMap.coe_mk, AddHom.coe_mk, Fin.append_left]

theorem backMap_succ (Q : Matrix (Fin m) (Fin m) ℝ) (c : Fin m → ℝ) (v : Fin (1 + m) → ℝ) (l : Fin m) :
    backMap Q c v (Fin.natAdd 1 l) = ∑ k, Q l k * v (Fin.natAdd 1 k) := by
  simp only [backMap, LinearMap.coe_mk, AddHom.coe_mk, Fin.append_right]

theorem backMap_inv {Q Q' : Matrix (Fin m) (Fin m) ℝ} (h : Q * Q' = 1) (c c' : Fin m → ℝ)
    (hc : ∀ k, c' k + ∑ l, c l * Q' l k = 0) (v : Fin (1 + m) → ℝ) : backMap Q c (backMap Q' c' v) = v := by
  funext i
  refine Fin.addCases (fun i => ?_) (fun l => ?_) i
  · rw [Fin.fin_one_eq_zero i, backMap_zero, backMap_zero]
    simp only [backMap_succ]
    have h1 : ∑ k, c k * ∑ j, Q' k j * v (Fin.natAdd 1 j) = ∑ j, (∑ k, c k * Q' k j) * v (Fin.natAdd 1 j) := by
      simp only [Finset.mul_sum, Finset.sum_mul]
      rw [Finset.sum_comm]
      exact Finset.sum_congr rfl fun _ _ => Finset.sum_congr rfl fun _ _ => by ring
    have h2 : ∑ k, c' k * v (Fin.natAdd 1 k) + ∑ j, (∑ k, c k * Q' k j) * v (Fin.natAdd 1 j) = 0 := by
      rw [← Finset.sum_add_distrib]
      exact Finset.sum_eq_zero fun k _ => by rw [← add_mul, hc, zero_mul]
    rw [h1]
    linarith
  · rw [backMap_succ]
    simp only [backMap_succ]
    have h1 := congrFun (congrArg (fun B : Matrix (Fin m) (Fin m) ℝ => B.mulVec fun k => v (Fin.natAdd 1 k)) h) l
    beta_reduce at h1
    rw [Matrix.one_mulVec, ← Matrix.mulVec_mulVec] at h1
    exact h1

theorem backMap_norm {Q : Matrix (Fin m) (Fin m) ℝ} (hQ : Q.transpose * Q = 1) (v : Fin (1 + m) → ℝ) :
    sqNorm (backMap Q 0 v) = sqNorm v := by
  unfold sqNorm
  rw [Fin.sum_univ_add, Fin.sum_univ_add]
  simp only [backMap_zero, backMap_succ, Fin.sum_univ_one, Pi.zero_apply, zero_mul,
    Finset.sum_const_zero, add_zero]
  congr 1
  have h1 : Q.mulVec (fun k => v (Fin.natAdd 1 k)) ⬝ᵥ Q.mulVec (fun k => v (Fin.natAdd 1 k))
      = (fun k => v (Fin.natAdd 1 k)) ⬝ᵥ fun k => v (Fin.natAdd 1 k) := by
    rw [Matrix.dotProduct_mulVec, ← Matrix.mulVec_transpose, Matrix.mulVec_mulVec, hQ, Matrix.one_mulVec]
  simp only [dotProduct, Matrix.mulVec] at h1
  simp only [sq]
  exact h1

/-- The slope of the fit in the new coordinates. -/
theorem slope_follows {p : ℕ} {Y : Matrix (Fin p) (Fin m) ℝ} {r g : Fin p → ℝ} {Q : Matrix (Fin m) (Fin m) ℝ} (hQ : Q.transpose * Q = 1)
    {c : Fin m → ℝ} {a b : ℝ} (ha : a ≠ 0) {A A' : Matrix (Fin p) (Fin (1 + m)) ℝ}
    (hA : ∀ v i, A.mulVec v i = r i * (v (Fin.castAdd m 0) + ∑ k, Y i k * v (Fin.natAdd 1 k)))
    (hA' : ∀ v i, A'.mulVec v i = r i * (v (Fin.castAdd m 0) + ∑ k, newCoords Q c Y i k * v (Fin.natAdd 1 k))) {u u' : Fin (1 + m) → ℝ}
    (hu : IsMinNorm A (fun i => g i * r i) u) (hu' : IsMinNorm A' (fun i => (a * g i + b) * r i) u')
    (hc : (c = 0 ∧ b = 0) ∨ FullColumnRank A) (k : Fin m) :
    u' (Fin.natAdd 1 k) = a * ∑ l, u (Fin.natAdd 1 l) * Q l k := by
  have hQ' : Q * Q.transpose = 1 := mul_eq_one_comm.mp hQ
  set c' : Fin m → ℝ := fun k => -∑ l, c l * Q k l with hc'
  have hφ : ∀ v, backMap Q c (backMap Q.transpose c' v) = v := backMap_inv hQ' c c' fun k => by
    simp only [hc', Matrix.transpose_apply]
    ring
  have hψ : ∀ v, backMap Q.transpose c' (backMap Q c v) = v := backMap_inv hQ c' c fun k => by
    have h1 : ∑ l, (∑ j, c j * Q l j) * Q l k = c k := by
      have h2 := congrFun (congrArg (fun B : Matrix (Fin m) (Fin m) ℝ => B.mulVec c) hQ) k
      rw [Matrix.one_mulVec, ← Matrix.mulVec_mulVec] at h2
      refine Eq.trans ?_ h2
      simp only [Matrix.mulVec, dotProduct, Matrix.transpose_apply]
      refine Finset.sum_congr rfl fun l _ => ?_
      rw [mul_comm]
      congr 1
      exact Finset.sum_congr rfl fun j _ => mul_comm _ _
    simp only [hc', neg_mul, Finset.sum_neg_distrib, h1]
    ring
  have hAA : ∀ z, A'.mulVec z = A.mulVec (backMap Q c z) := by
    intro z
    funext i
    rw [hA, hA']
    congr 1
    simp only [backMap_zero, backMap_succ, newCoords, Matrix.of_apply, add_mul,
      Finset.sum_add_distrib, Finset.sum_mul, Finset.mul_sum]
    rw [Finset.sum_comm]
    simp only [mul_assoc]
    ring
  set d : Fin (1 + m) → ℝ := Fin.append (fun _ : Fin 1 => b) fun _ => 0 with hd
  have hb : (fun i => (a * g i + b) * r i) = a • (fun i => g i * r i) + A'.mulVec d := by
    funext i
    rw [Pi.add_apply, hA', hd]
    simp only [Fin.append_left, Fin.append_right, mul_zero, Finset.sum_const_zero, Pi.smul_apply, smul_eq_mul]
    ring
  rw [hb] at hu'
  have hc2 : (d = 0 ∧ ∀ z, sqNorm (backMap Q c z) = sqNorm z) ∨ FullColumnRank A := by
    rcases hc with ⟨h1, h2⟩ | h1
    · left
      subst h1 h2
      refine ⟨?_, backMap_norm hQ⟩
      funext i
      refine Fin.addCases (fun i => ?_) (fun l => ?_) i <;> simp [hd]
    · exact .inr h1
  rw [minNorm_move hAA hφ hψ ha d hu hu' hc2]
  simp only [Pi.add_apply, Pi.smul_apply, smul_eq_mul, hd, Fin.append_right, add_zero, backMap_succ,
    Matrix.transpose_apply]
  congr 1
  exact Finset.sum_congr rfl fun l _ => mul_comm _ _

/-- The sample determines affine functions. -/
def AffineDesign (X : Matrix (Fin M) (Fin m) ℝ) : Prop :=
  ∀ (a : ℝ) (s : Fin m → ℝ), (∀ i, a + ∑ k, X i k * s k = 0) → a = 0 ∧ s = 0

theorem rank_one_rotate (s : Fin m → ℝ) (Q : Matrix (Fin m) (Fin m) ℝ) (a : ℝ) :
    (Matrix.of fun k l => (a * ∑ j, s j * Q j k) * (a * ∑ j, s j * Q j l) : Matrix (Fin m) (Fin m) ℝ)
      = a ^ 2 • (Q.transpose * (Matrix.of fun k l => s k * s l) * Q) := by
  ext k l
  simp only [Matrix.of_apply, Matrix.smul_apply, Matrix.mul_apply, Matrix.transpose_apply, smul_eq_mul]
  have h : ∑ j, (∑ i, Q i k * (s i * s j)) * Q j l = (∑ i, s i * Q i k) * ∑ j, s j * Q j l := by
    rw [Finset.mul_sum]
    refine Finset.sum_congr rfl fun j _ => ?_
    rw [Finset.sum_mul, Finset.sum_mul]
    exact Finset.sum_congr rfl fun i _ => by ring
  rw [h]
  ring

theorem hstack_mulVec_comm (X : Matrix (Fin M) (Fin m) ℝ) (w : Fin M → ℝ) (v : Fin (1 + m) → ℝ) (i : Fin M) :
    (Matrix.of fun i j => Np.hstack (Np.ones M 1) X i j * Real.sqrt (w i)).mulVec v i
      = (fun i => Real.sqrt (w i)) i * (v (Fin.castAdd m 0) + ∑ k, X i k * v (Fin.natAdd 1 k)) := hstack_mulVec X w v i

/-- C135: `ols_subspace`, for a rotation of the inputs and a scaling of the values with any data, for shifts of the inputs and of the
values if the sample determines affine functions. -/
theorem C135_ols (lib : Model.Subspaces.Lib) (hl : SubLibOK lib) (hm : 0 < m) (X : Matrix (Fin M) (Fin m) ℝ) (f w : Fin M → ℝ)
    {Q : Matrix (Fin m) (Fin m) ℝ} (hQ : Q.transpose * Q = 1) {c : Fin m → ℝ} {a b : ℝ} (ha : a ≠ 0)
    (hc : (c = 0 ∧ b = 0) ∨ ((∀ i, 0 < w i) ∧ AffineDesign X)) :
    ∃ e W e' W', ols_subspace lib (.mat (NpMat.of X)) (.mat (wcol f)) (wcol w) = .ok ⟨m, e, W⟩ ∧
      ols_subspace lib (.mat (NpMat.of (newCoords Q c X))) (.mat (wcol fun i => a * f i + b)) (wcol w) = .ok ⟨m, e', W'⟩ ∧
      Follows Q (a ^ 2) e W e' W' := by
  obtain ⟨u, hu, heq⟩ := ols_eq lib X f w
  obtain ⟨u', hu', heq'⟩ := ols_eq lib (newCoords Q c X) (fun i => a * f i + b) w
  have h1 : IsMinNorm _ _ u := hu ▸ hl.lstsq _ _ _ _
  have h2 : IsMinNorm _ _ u' := hu' ▸ hl.lstsq _ _ _ _
  have hs := slope_follows hQ ha (hstack_mulVec_comm X w) (hstack_mulVec_comm (newCoords Q c X) w) h1 h2 (hc.imp_right fun h => by
    intro y z hyz
    have h3 : ∀ i, (y - z) (Fin.castAdd m 0) + ∑ k, X i k * (y - z) (Fin.natAdd 1 k) = 0 := by
      intro i
      have h4 := (hstack_mulVec X w y i).symm.trans ((congrFun hyz i).trans (hstack_mulVec X w z i))
      have h5 := mul_left_cancel₀ (Real.sqrt_pos.mpr (h.1 i)).ne' h4
      simp only [Pi.sub_apply, mul_sub, Finset.sum_sub_distrib]
      linarith
    obtain ⟨h4, h5⟩ := h.2 _ _ h3
    funext i
    refine Fin.addCases (fun i => ?_) (fun k => ?_) i
    · rw [Fin.fin_one_eq_zero i]
      exact sub_eq_zero.mp h4
    · exact sub_eq_zero.mp (congrFun h5 k))
  obtain ⟨e, W, h, hs1⟩ := C34_posSemidef lib hl hm _ (rank_one_posSemidef fun k => u (Fin.natAdd 1 k))
  obtain ⟨e', W', h', hs2⟩ := C34_posSemidef lib hl hm _ (rank_one_posSemidef fun k => u' (Fin.natAdd 1 k))
  refine ⟨e, W, e', W', heq.trans h, heq'.trans h', follows_of hQ (by positivity) ?_ hs1 hs2⟩
  simp only [hs]
  exact rank_one_rotate _ Q a

/-! ## Local linear models -/

theorem sqDist_moved {Q : Matrix (Fin m) (Fin m) ℝ} (hQ : Q.transpose * Q = 1) (c : Fin m → ℝ) (X : Matrix (Fin M) (Fin m) ℝ) (ii : Fin M) :
    sqDist (newCoords Q c X) (newCoords Q c X ii) = sqDist X (X ii) := by
  have hQ' : Q * Q.transpose = 1 := mul_eq_one_comm.mp hQ
  funext k
  set v : Fin m → ℝ := fun j => X k j - X ii j with hv
  have h1 : ∀ j, newCoords Q c X k j - newCoords Q c X ii j = Q.transpose.mulVec v j := by
    intro j
    simp only [newCoords, Matrix.of_apply, Matrix.mulVec, dotProduct, Matrix.transpose_apply, hv, mul_sub, Finset.sum_sub_distrib]
    have : ∀ x : Fin m → ℝ, ∑ l, x l * Q l j = ∑ l, Q l j * x l := fun x => Finset.sum_congr rfl fun _ _ => mul_comm _ _
    rw [this, this]
    ring
  have h2 : Q.transpose.mulVec v ⬝ᵥ Q.transpose.mulVec v = v ⬝ᵥ v := by
    rw [Matrix.dotProduct_mulVec, ← Matrix.mulVec_transpose, Matrix.mulVec_mulVec, Matrix.transpose_transpose, hQ', Matrix.one_mulVec]
  unfold sqDist
  simp only [h1, sq]
  exact h2

theorem neighbours_moved {lib : Model.Gradients.Lib} {Q : Matrix (Fin m) (Fin m) ℝ} (hQ : Q.transpose * Q = 1) (c : Fin m → ℝ)
    (X : Matrix (Fin M) (Fin m) ℝ) (ii : Fin M) (p : ℕ) : neighbours lib (newCoords Q c X) ii p = neighbours lib X ii p := by
  unfold neighbours
  rw [sqDist_moved hQ]

/-- A row of slopes in the new coordinates. -/
def turned (a : ℝ) (Q : Matrix (Fin m) (Fin m) ℝ) (g : Fin m → ℝ) : Fin m → ℝ := fun k => a * ∑ l, g l * Q l k

theorem localModel_moved {lib : Model.Gradients.Lib} (hlib : LibOK lib) (X : Matrix (Fin M) (Fin m) ℝ) (f u : Fin M → ℝ) (p : ℕ) (ii : Fin M)
    {Q : Matrix (Fin m) (Fin m) ℝ} (hQ : Q.transpose * Q = 1) {c : Fin m → ℝ} {a b : ℝ} (ha : a ≠ 0)
    (hc : (c = 0 ∧ b = 0) ∨ (0 < u ii ∧ GeneralPosition X p)) :
    localModel lib (newCoords Q c X) (fun i => a * f i + b) u p ii = (localModel lib X f u p ii).map (turned a Q) := by
  have key : ∀ (Y : Matrix (Fin M) (Fin m) ℝ) (g : Fin M → ℝ) (ind : List (Fin M)), neighbours lib Y ii p = ind →
      localModel lib Y g u p ii = if h : ind.length = p then
        .ok fun j => lib.lstsq (Real.sqrt (u ii) • Np.hstack (Np.ones p 1) (Y.submatrix (fun k : Fin p => ind.get (k.cast h.symm)) id))
          (fun k : Fin p => g (ind.get (k.cast h.symm)) * Real.sqrt (u ii)) (Fin.natAdd 1 j)
      else .error .valueError := by
    rintro Y g _ rfl
    rfl
  rw [key _ _ _ (neighbours_moved hQ c X ii p), key X f _ rfl]
  by_cases h : (neighbours lib X ii p).length = p
  · rw [dif_pos h, dif_pos h]
    have hnd := nodup_neighbours hlib X ii p
    set s : Fin p → Fin M := fun k => (neighbours lib X ii p).get (k.cast h.symm) with hs
    have hsinj : Function.Injective s := by
      intro k k' hk
      have := (List.nodup_iff_injective_get.mp hnd) hk
      simpa [Fin.ext_iff] using this
    have hmul : ∀ (Y : Matrix (Fin M) (Fin m) ℝ) (v : Fin (1 + m) → ℝ) (k : Fin p),
        (Real.sqrt (u ii) • Np.hstack (Np.ones p 1) (Y.submatrix s id)).mulVec v k
          = Real.sqrt (u ii) * (v (Fin.castAdd m 0) + ∑ j, Y (s k) j * v (Fin.natAdd 1 j)) := by
      intro Y v k
      rw [Matrix.smul_mulVec, Pi.smul_apply, smul_eq_mul]
      congr 1
      rw [Matrix.mulVec, dotProduct, Fin.sum_univ_add]
      simp only [Np.hstack_castAdd, Np.hstack_natAdd]
      simp [Np.ones]
    refine congrArg Except.ok ?_
    funext k
    refine slope_follows (Y := X.submatrix s id) (r := fun _ => Real.sqrt (u ii)) (g := fun k => f (s k)) (c := c) (b := b) hQ ha
      (fun v i => hmul X v i) (fun v i => hmul (newCoords Q c X) v i) (hlib.lstsq _ _) (hlib.lstsq _ _) (hc.imp_right fun hgp => ?_) k
    intro y z hyz
    have h1 : ∀ k, y (Fin.castAdd m 0) + ∑ j, X (s k) j * y (Fin.natAdd 1 j) = z (Fin.castAdd m 0) + ∑ j, X (s k) j * z (Fin.natAdd 1 j) := by
      intro k
      have := (hmul X y k).symm.trans ((congrFun hyz k).trans (hmul X z k))
      exact mul_left_cancel₀ (Real.sqrt_pos.mpr hgp.1).ne' this
    obtain ⟨h2, h3⟩ := hgp.2 s hsinj _ _ (fun j => y (Fin.natAdd 1 j)) (fun j => z (Fin.natAdd 1 j)) h1
    funext i
    refine Fin.addCases (fun i => ?_) (fun j => ?_) i
    · rw [Fin.fin_one_eq_zero i]
      exact h2
    · exact congrFun h3 j
  · rw [dif_neg h, dif_neg h]
    rfl

theorem turned_rows {k : ℕ} (a : ℝ) (Q : Matrix (Fin m) (Fin m) ℝ) (D : Matrix (Fin k) (Fin m) ℝ) (i : Fin k) :
    turned a Q (D i) = (a • (D * Q)) i := by
  funext l
  rw [Matrix.smul_apply, Matrix.mul_apply, smul_eq_mul]
  rfl

theorem foldlM_turned {k : ℕ} (a : ℝ) (Q : Matrix (Fin m) (Fin m) ℝ) (randint : PyM W (Fin M)) (g g' : Fin M → Except Err (Fin m → ℝ))
    (hg : ∀ ii, g' ii = (g ii).map (turned a Q)) (l : List (Fin k)) (D : Matrix (Fin k) (Fin m) ℝ) (w : W) :
    (l.foldlM (fun df i => do
        let ii ← randint
        let v ← PyM.lift (g' ii)
        return Matrix.updateRow df i v : Matrix (Fin k) (Fin m) ℝ → Fin k → PyM W (Matrix (Fin k) (Fin m) ℝ)) (a • (D * Q))).run w
      = (((l.foldlM (fun df i => do
        let ii ← randint
        let v ← PyM.lift (g ii)
        return Matrix.updateRow df i v : Matrix (Fin k) (Fin m) ℝ → Fin k → PyM W (Matrix (Fin k) (Fin m) ℝ)) D).run w).1.map fun D => a • (D * Q),
        ((l.foldlM (fun df i => do
        let ii ← randint
        let v ← PyM.lift (g ii)
        return Matrix.updateRow df i v : Matrix (Fin k) (Fin m) ℝ → Fin k → PyM W (Matrix (Fin k) (Fin m) ℝ)) D).run w).2) := by
  induction l generalizing D w with
  | nil => rfl
  | cons i l ih =>
    rw [List.foldlM_cons, List.foldlM_cons]
    simp only [PyM.run_bind]
    rcases hr : randint.run w with ⟨_ | ii, w'⟩
    · rfl
    · dsimp only
      rw [hg ii]
      cases hgi : g ii with
      | error e => rfl
      | ok v =>
        have hup : Matrix.updateRow (a • (D * Q)) i (turned a Q v) = a • (Matrix.updateRow D i v * Q) := by
          ext x y
          by_cases hx : x = i
          · subst hx
            rw [Matrix.updateRow_self, Matrix.smul_apply, Matrix.mul_apply, smul_eq_mul, Matrix.updateRow_self]
            rfl
          · rw [Matrix.updateRow_ne hx, Matrix.smul_apply, Matrix.smul_apply, Matrix.mul_apply, Matrix.mul_apply, Matrix.updateRow_ne hx]
        refine Eq.trans ?_ (ih (Matrix.updateRow D i v) w')
        rw [← hup]
        rfl

/-- C135: `local_linear_gradients` draws the same centres, fails in the same way, and its rows are the slopes in the new coordinates. -/
theorem C135_gradients {lib : Model.Gradients.Lib} (hlib : LibOK lib) (randint : PyM W (Fin M)) (X : Matrix (Fin M) (Fin m) ℝ) (f : Fin M → ℝ)
    (p : PArg) (weights : Option (Fin M → ℝ)) {Q : Matrix (Fin m) (Fin m) ℝ} (hQ : Q.transpose * Q = 1) {c : Fin m → ℝ} {a b : ℝ} (ha : a ≠ 0)
    (hc : (c = 0 ∧ b = 0) ∨ ((∀ u, weights = some u → ∀ i, 0 < u i) ∧ ∀ k, checkP M m p = .ok k → GeneralPosition X k)) (w : W) :
    (local_linear_gradients lib randint (newCoords Q c X) (fun i => a * f i + b) p weights).run w
      = (((local_linear_gradients lib randint X f p weights).run w).1.map fun D => a • (D * Q),
        ((local_linear_gradients lib randint X f p weights).run w).2) := by
  unfold local_linear_gradients
  cases hp : checkP M m p with
  | error e => rfl
  | ok k =>
    dsimp only
    unfold localLoop
    have h0 : (Np.zeros (numModels M m) m : Matrix _ _ ℝ) = a • ((Np.zeros (numModels M m) m) * Q) := by
      ext i j
      simp [Np.zeros, Matrix.mul_apply]
    conv_lhs => rw [h0]
    refine foldlM_turned a Q randint _ _ (fun ii => localModel_moved hlib X f _ k ii hQ ha (hc.imp_right fun h => ⟨?_, h.2 k hp⟩)) _ _ w
    cases weights with
    | none =>
      have : (0 : ℝ) < M := by exact_mod_cast ii.pos
      simp [this]
    | some u => exact h.1 u rfl ii

/-- C135: `opg_subspace`. -/
theorem C135_opg {lib : Model.Subspaces.Lib} (hl : SubLibOK lib) (rng : Rng S) (hm : 0 < m) (X : Matrix (Fin M) (Fin m) ℝ) (f w : Fin M → ℝ)
    {Q : Matrix (Fin m) (Fin m) ℝ} (hQ : Q.transpose * Q = 1) {c : Fin m → ℝ} {a b : ℝ} (ha : a ≠ 0)
    (hc : (c = 0 ∧ b = 0) ∨ ((∀ i, 0 < w i) ∧ ∀ k, checkP M m .none = .ok k → GeneralPosition X k)) (u : S × E) :
    (∃ (er : Err) (u1 : S × E), (opg_subspace lib rng (.mat (NpMat.of X)) (.mat (wcol f)) (wcol w)).run u = (.error er, u1) ∧
        (opg_subspace lib rng (.mat (NpMat.of (newCoords Q c X))) (.mat (wcol fun i => a * f i + b)) (wcol w)).run u = (.error er, u1)) ∨
      ∃ (e : Fin m → ℝ) (W : Matrix (Fin m) (Fin m) ℝ) (e' : Fin m → ℝ) (W' : Matrix (Fin m) (Fin m) ℝ) (u1 : S × E),
        (opg_subspace lib rng (.mat (NpMat.of X)) (.mat (wcol f)) (wcol w)).run u = (.ok ⟨m, e, W⟩, u1) ∧
        (opg_subspace lib rng (.mat (NpMat.of (newCoords Q c X))) (.mat (wcol fun i => a * f i + b)) (wcol w)).run u = (.ok ⟨m, e', W'⟩, u1) ∧
        Follows Q (a ^ 2) e W e' W' := by
  rw [opg_eq, opg_eq]
  have h := C135_gradients (libOK_grad hl) (randint rng M : PyM (S × E) (Fin M)) X f .none (some w) hQ ha
    (hc.imp_right fun h => ⟨fun v hv => (Option.some.inj hv) ▸ h.1, h.2⟩) u (c := c) (b := b)
  rcases hr : (local_linear_gradients lib.grad (randint rng M : PyM (S × E) (Fin M)) X f .none (some w)).run u with ⟨r, u1⟩
  rw [hr] at h
  cases r with
  | error er => exact .inl ⟨er, u1, PyM.run_bind_error hr, PyM.run_bind_error h⟩
  | ok D =>
    obtain ⟨e, W, e', W', h1, h2, h3⟩ := C135_active lib hl hm D (fun _ => 1 / (numModels M m : ℝ)) (fun _ => by positivity) hQ ha
    exact .inr ⟨e, W, e', W', u1, (PyM.run_bind_ok hr).trans (lift_of h1 u1), (PyM.run_bind_ok h).trans (lift_of h2 u1), h3⟩

/-! ## The dimension and `compute` -/

theorem argmax_mul {k : ℕ} (v : Fin k → ℝ) {t : ℝ} (ht : 0 < t) : Np.argmax (fun i => t * v i) = Np.argmax v := by
  rcases Nat.eq_zero_or_pos k with rfl | hk
  · rw [Np.argmax_empty, Np.argmax_empty]
  · obtain ⟨i, h, h1, h2⟩ := Np.argmax_ok v hk
    rw [h, Np.argmax_eq_ok_iff]
    exact ⟨fun j => mul_le_mul_of_nonneg_left (h1 j) ht.le, fun j hj => mul_lt_mul_of_pos_left (h2 j hj) ht⟩

/-- C135: the dimension chosen by the largest gap is the same. -/
theorem C135_dimension {e e' : Fin m → ℝ} {t : ℝ} (ht : 0 < t) (h : ∀ j, e' j = t * e j) :
    eig_partition e' = (eig_partition e).map fun r => (r.1, fun i => t * r.2 i) := by
  obtain rfl : e' = fun j => t * e j := funext h
  unfold eig_partition
  have h1 : (fun i : Fin (m - 1) => |t * e ⟨i + 1, by omega⟩ - t * e ⟨i, by omega⟩|)
      = fun i : Fin (m - 1) => t * |e ⟨i + 1, by omega⟩ - e ⟨i, by omega⟩| := by
    funext i
    rw [← mul_sub, abs_mul, abs_of_pos ht]
  simp only [h1, argmax_mul _ ht]
  cases Np.argmax fun i : Fin (m - 1) => |e ⟨i + 1, by omega⟩ - e ⟨i, by omega⟩| <;> rfl

theorem const_of_no_gap {e : Fin m → ℝ} (h : ∀ k (_ : 1 ≤ k) (hk : k < m), e ⟨k - 1, by omega⟩ = e ⟨k, hk⟩) (j k : Fin m) : e j = e k := by
  have h1 : ∀ i (hi : i < m), e ⟨i, hi⟩ = e ⟨0, by omega⟩ := by
    intro i
    induction i with
    | zero => exact fun _ => rfl
    | succ i ih => exact fun hi => (h (i + 1) (by omega) hi).symm.trans (ih (by omega))
  exact (h1 j j.2).trans (h1 k k.2).symm

theorem leadProj_first {V : Matrix (Fin m) (Fin m) ℝ} {n : ℕ} {V1 : Matrix (Fin m) (Fin n) ℝ} (hn : n ≤ m)
    (h : ∀ (i : Fin m) (j : Fin m) (j' : Fin n), (j : ℕ) = j' → V1 i j' = V i j) : V1 * V1.transpose = leadProj V n := by
  ext k l
  rw [Matrix.mul_apply, leadProj, Matrix.of_apply, ← Finset.sum_filter]
  refine Finset.sum_bij (fun j _ => Fin.castLE hn j) (fun j _ => ?_) (fun i _ j _ hij => Fin.castLE_injective hn hij) (fun j hj => ?_) fun j _ => ?_
  · simp
  · simp only [Finset.mem_filter, Finset.mem_univ, true_and] at hj
    exact ⟨⟨j, hj⟩, Finset.mem_univ _, rfl⟩
  · rw [Matrix.transpose_apply, h k (Fin.castLE hn j) j rfl, h l (Fin.castLE hn j) j rfl]

theorem IsSplit.first {s : Subspaces} (h : IsSplit s) {V : Matrix (Fin m) (Fin m) ℝ} (hV : s.eigenvecs = some (NpMat.of V)) {n : ℕ}
    {V1 : Matrix (Fin m) (Fin n) ℝ} (h1 : s.W1 = some (NpMat.of V1)) : V1 * V1.transpose = leadProj V n := by
  obtain ⟨m', n', V', V1', V2', a1, a2, -, -, a5, a6, -⟩ := h
  have b1 := Option.some.inj (hV.symm.trans a1)
  have b2 := Option.some.inj (h1.symm.trans a2)
  obtain rfl : m = m' := congrArg NpMat.rows b1
  obtain rfl : n = n' := congrArg NpMat.cols b2
  obtain rfl : V = V' := NpMat.of_injective b1
  obtain rfl : V1 = V1' := NpMat.of_injective b2
  exact leadProj_first a5 a6

/-- `compute` follows if the estimate does. -/
theorem compute_follows {lib : Model.Subspaces.Lib} (hl : SubLibOK lib) (rng : Rng S) (hm : 2 ≤ m) (hM : 0 < M)
    {X X' : Option (Matrix (Fin M) (Fin m) ℝ)} {f f' : Option (Fin M → ℝ)} {df df' : Option (Matrix (Fin M) (Fin m) ℝ)}
    (weights : Option (Fin M → ℝ)) (h : X ≠ none ∨ df ≠ none) (h' : X' ≠ none ∨ df' ≠ none) {sstype : String} {t : SS}
    (ht : SS.ofString sstype = some t) {nboot : ℤ} (hb : nboot ≤ 0) {w w1 : S × Subspaces} {e e' : Fin m → ℝ} {V V' : Matrix (Fin m) (Fin m) ℝ}
    (hest : (estimate lib rng t X f df (weightsOf weights)).run w = (.ok ⟨m, e, V⟩, w1))
    (hest' : (estimate lib rng t X' f' df' (weightsOf weights)).run w = (.ok ⟨m, e', V'⟩, w1))
    {Q : Matrix (Fin m) (Fin m) ℝ} {s : ℝ} (hs : 0 < s) (hF : Follows Q s e V e' V') :
    ∃ (r r' : S × Subspaces) (n : ℕ) (V1 V1' : Matrix (Fin m) (Fin n) ℝ),
      (computeOn lib rng X f df weights sstype "EVG" nboot).run w = (.ok (), r) ∧
      (computeOn lib rng X' f' df' weights sstype "EVG" nboot).run w = (.ok (), r') ∧
      r.2.eigenvals = some (NpVec.of e) ∧ r'.2.eigenvals = some (NpVec.of fun j => s * e j) ∧
      r.2.W1 = some (NpMat.of V1) ∧ r'.2.W1 = some (NpMat.of V1') ∧
      ((∃ j k, e j ≠ e k) → V1' * V1'.transpose = Q.transpose * (V1 * V1.transpose) * Q) := by
  obtain ⟨e0, V0, r, hp, c1, c2, c3, c4, -, -, c5⟩ := compute_ok hl rng hm hM X f df weights h sstype "EVG" t ht nboot w w1 _ hest (fun h => by omega) (.inl rfl)
  obtain ⟨e1, V1, r', hp', d1, d2, d3, d4, -, -, d5⟩ :=
    compute_ok hl rng hm hM X' f' df' weights h' sstype "EVG" t ht nboot w w1 _ hest' (fun h => by omega) (.inl rfl)
  obtain ⟨rfl, rfl⟩ : e = e0 ∧ V = V0 := by injection hp with _ h1 h2; exact ⟨h1, h2⟩
  obtain ⟨rfl, rfl⟩ : e' = e1 ∧ V' = V1 := by injection hp' with _ h1 h2; exact ⟨h1, h2⟩
  obtain ⟨n, d, V1, c6, c7⟩ := c5 rfl
  obtain ⟨n', d', V1', d6, d7⟩ := d5 rfl
  rw [C135_dimension hs hF.1, c6] at d6
  have hnn : n = n' := congrArg Prod.fst (Except.ok.inj d6)
  subst hnn
  have he' : e' = fun j => s * e j := funext hF.1
  refine ⟨r, r', n, V1, V1', c1, d1, c3, by rw [d3, he'], c7, d7, fun ⟨j, k, hjk⟩ => ?_⟩
  rw [d2.first d4 d7, c2.first c4 c7]
  obtain ⟨e2, V0, hp0, -, -, hanti⟩ := estimate_good hl rng t _ _ _ _ hest
  obtain rfl : e = e2 := by injection hp0
  refine hF.2 n ?_
  obtain ⟨n2, h1, h2, d2, h3, -, h4, -⟩ := C38_gap hm e
  have hn2 : n = n2 := congrArg Prod.fst (Except.ok.inj (c6.symm.trans h3))
  subst hn2
  have hgap : e ⟨n, h2⟩ < e ⟨n - 1, by omega⟩ := by
    refine lt_of_le_of_ne (hanti (Fin.le_def.mpr (by simp))) fun heq => hjk (const_of_no_gap (fun k hk1 hk => ?_) j k)
    have := h4 k hk1 hk
    rw [← heq, sub_self, abs_zero] at this
    exact sub_eq_zero.mp (abs_eq_zero.mp (le_antisymm this (abs_nonneg _)))
  intro j k hj hk
  exact lt_of_le_of_lt (hanti (Fin.le_def.mpr hk)) (lt_of_lt_of_le hgap (hanti (Fin.le_def.mpr (by simp only; omega))))

/-- C135: `compute` with gradients.  Unless all eigenvalues are equal, `W1` spans the same active subspace in the new coordinates. -/
theorem C135_compute_active {lib : Model.Subspaces.Lib} (hl : SubLibOK lib) (rng : Rng S) (hm : 2 ≤ m) (hM : 0 < M)
    (G : Matrix (Fin M) (Fin m) ℝ) (weights : Option (Fin M → ℝ)) (hw : ∀ i, 0 ≤ weightsOf weights i) {nboot : ℤ} (hb : nboot ≤ 0)
    (w : S × Subspaces) {Q : Matrix (Fin m) (Fin m) ℝ} (hQ : Q.transpose * Q = 1) {a : ℝ} (ha : a ≠ 0) :
    ∃ (r r' : S × Subspaces) (n : ℕ) (e : Fin m → ℝ) (V1 V1' : Matrix (Fin m) (Fin n) ℝ),
      (computeOn lib rng none none (some G) weights "AS" "EVG" nboot).run w = (.ok (), r) ∧
      (computeOn lib rng none none (some (a • (G * Q))) weights "AS" "EVG" nboot).run w = (.ok (), r') ∧
      r.2.eigenvals = some (NpVec.of e) ∧ r'.2.eigenvals = some (NpVec.of fun j => a ^ 2 * e j) ∧
      r.2.W1 = some (NpMat.of V1) ∧ r'.2.W1 = some (NpMat.of V1') ∧
      ((∃ j k, e j ≠ e k) → V1' * V1'.transpose = Q.transpose * (V1 * V1.transpose) * Q) := by
  obtain ⟨e, V, e', V', h1, h2, h3⟩ := C135_active lib hl (by omega) G (weightsOf weights) hw hQ ha
  obtain ⟨r, r', n, V1, V1', h⟩ := compute_follows hl rng hm hM (X := none) (X' := none) (f := none) (f' := none) (df := some G)
    (df' := some (a • (G * Q))) weights (.inr (by simp))
    (.inr (by simp)) (show SS.ofString "AS" = some .AS from rfl) hb (w := w) (w1 := w) (lift_of h1 w) (lift_of h2 w) (by positivity : 0 < a ^ 2) h3
  exact ⟨r, r', n, e, V1, V1', h⟩

/-- C135: `compute` with a linear model. -/
theorem C135_compute_ols {lib : Model.Subspaces.Lib} (hl : SubLibOK lib) (rng : Rng S) (hm : 2 ≤ m) (hM : 0 < M)
    (X : Matrix (Fin M) (Fin m) ℝ) (f : Fin M → ℝ) (weights : Option (Fin M → ℝ)) {nboot : ℤ} (hb : nboot ≤ 0)
    (w : S × Subspaces) {Q : Matrix (Fin m) (Fin m) ℝ} (hQ : Q.transpose * Q = 1) {c : Fin m → ℝ} {a b : ℝ} (ha : a ≠ 0)
    (hc : (c = 0 ∧ b = 0) ∨ ((∀ i, 0 < weightsOf weights i) ∧ AffineDesign X)) :
    ∃ (r r' : S × Subspaces) (n : ℕ) (e : Fin m → ℝ) (V1 V1' : Matrix (Fin m) (Fin n) ℝ),
      (computeOn lib rng (some X) (some f) none weights "OLS" "EVG" nboot).run w = (.ok (), r) ∧
      (computeOn lib rng (some (newCoords Q c X)) (some fun i => a * f i + b) none weights "OLS" "EVG" nboot).run w = (.ok (), r') ∧
      r.2.eigenvals = some (NpVec.of e) ∧ r'.2.eigenvals = some (NpVec.of fun j => a ^ 2 * e j) ∧
      r.2.W1 = some (NpMat.of V1) ∧ r'.2.W1 = some (NpMat.of V1') ∧
      ((∃ j k, e j ≠ e k) → V1' * V1'.transpose = Q.transpose * (V1 * V1.transpose) * Q) := by
  obtain ⟨e, V, e', V', h1, h2, h3⟩ := C135_ols lib hl (by omega) X f (weightsOf weights) hQ ha hc
  obtain ⟨r, r', n, V1, V1', h⟩ := compute_follows hl rng hm hM (X := some X) (X' := some (newCoords Q c X)) (f := some f)
    (f' := some fun i => a * f i + b) (df := none) (df' := none) weights (.inl (by simp))
    (.inl (by simp)) (show SS.ofString "OLS" = some .OLS from rfl) hb (w := w) (w1 := w) (lift_of h1 w) (lift_of h2 w) (by positivity : 0 < a ^ 2) h3
  exact ⟨r, r', n, e, V1, V1', h⟩

/-! ## Quadratic models -/

open MvPolynomial in
theorem pderiv_bind (L : Fin m → MvPolynomial (Fin m) ℝ) (k : Fin m) (P : MvPolynomial (Fin m) ℝ) :
    pderiv k (bind₁ L P) = ∑ l, bind₁ L (pderiv l P) * pderiv k (L l) := by
  induction P using MvPolynomial.induction_on with
  | C a => simp
  | add p q hp hq => simp only [map_add, hp, hq, add_mul, Finset.sum_add_distrib]
  | mul_X p i hp =>
    simp only [map_mul, bind₁_X_right, Derivation.leibniz, hp, smul_eq_mul, map_add, pderiv_X, add_mul, Finset.sum_add_distrib]
    congr 1
    · rw [Finset.sum_eq_single i]
      · simp
      · intro b _ hb; simp [Ne.symm hb]
      · intro h; exact absurd (Finset.mem_univ _) h
    · rw [Finset.mul_sum]
      exact Finset.sum_congr rfl fun l _ => by ring

open MvPolynomial in
/-- The variables `x = B x'`. -/
noncomputable def linVars (B : Matrix (Fin m) (Fin m) ℝ) (l : Fin m) : MvPolynomial (Fin m) ℝ := ∑ k, C (B l k) * X k

open MvPolynomial in
theorem linVars_degree (B : Matrix (Fin m) (Fin m) ℝ) (l : Fin m) : (linVars B l).totalDegree ≤ 1 := by
  have := Proofs.Rotation.totalDegree_affine (B l) 0
  simpa [linVars] using this

open MvPolynomial in
theorem linVars_eval (B : Matrix (Fin m) (Fin m) ℝ) (y : Fin m → ℝ) (P : MvPolynomial (Fin m) ℝ) :
    eval y (bind₁ (linVars B) P) = eval (B.mulVec y) P := by
  rw [Proofs.Rotation.eval_bind]
  congr 2
  funext l
  simp [linVars, Matrix.mulVec, dotProduct]

open MvPolynomial in
theorem linVars_pderiv (B : Matrix (Fin m) (Fin m) ℝ) (k l : Fin m) : pderiv k (linVars B l) = C (B l k) := by
  simp only [linVars, map_sum, Derivation.leibniz, pderiv_C, pderiv_X, smul_eq_mul, mul_zero, add_zero]
  rw [Finset.sum_eq_single k]
  · simp
  · intro b _ hb; simp [Ne.symm hb]
  · intro h; exact absurd (Finset.mem_univ _) h

open MvPolynomial in
theorem linVars_grad (B : Matrix (Fin m) (Fin m) ℝ) (P : MvPolynomial (Fin m) ℝ) (k : Fin m) :
    eval 0 (pderiv k (bind₁ (linVars B) P)) = ∑ l, eval 0 (pderiv l P) * B l k := by
  rw [pderiv_bind, map_sum]
  refine Finset.sum_congr rfl fun l _ => ?_
  rw [map_mul, linVars_eval, linVars_pderiv, Matrix.mulVec_zero, eval_C]

open MvPolynomial in
theorem linVars_hess (B : Matrix (Fin m) (Fin m) ℝ) (P : MvPolynomial (Fin m) ℝ) (k j : Fin m) :
    eval 0 (pderiv k (pderiv j (bind₁ (linVars B) P))) = ∑ l, ∑ i, eval 0 (pderiv i (pderiv l P)) * B i k * B l j := by
  rw [pderiv_bind, map_sum, map_sum]
  refine Finset.sum_congr rfl fun l _ => ?_
  rw [linVars_pderiv, Derivation.leibniz, pderiv_C, smul_zero, zero_add, smul_eq_mul, map_mul, eval_C, linVars_grad, Finset.mul_sum]
  exact Finset.sum_congr rfl fun i _ => by ring

open MvPolynomial in
/-- A quadratic that minimises the weighted sum of squares. -/
def QuadFit (X : Matrix (Fin M) (Fin m) ℝ) (f w : Fin M → ℝ) (P : MvPolynomial (Fin m) ℝ) : Prop :=
  P.totalDegree ≤ 2 ∧ ∀ q : MvPolynomial (Fin m) ℝ, q.totalDegree ≤ 2 →
    ∑ i, (w i * (eval (X i) P - f i)) ^ 2 ≤ ∑ i, (w i * (eval (X i) q - f i)) ^ 2

open MvPolynomial in
/-- The sample determines quadratics. -/
def QuadDesign (X : Matrix (Fin M) (Fin m) ℝ) : Prop :=
  ∀ q : MvPolynomial (Fin m) ℝ, q.totalDegree ≤ 2 → (∀ i, eval (X i) q = 0) → q = 0

open MvPolynomial in
theorem quadFit_unique {X : Matrix (Fin M) (Fin m) ℝ} (hX : QuadDesign X) {f w : Fin M → ℝ} (hw : ∀ i, 0 < w i) {P R : MvPolynomial (Fin m) ℝ}
    (hP : QuadFit X f w P) (hR : QuadFit X f w R) : P = R := by
  have hdeg : (P - R).totalDegree ≤ 2 := (totalDegree_sub _ _).trans (max_le hP.1 hR.1)
  have hmid : (C (1 / 2) * (P + R) : MvPolynomial (Fin m) ℝ).totalDegree ≤ 2 := by
    refine (totalDegree_mul _ _).trans ?_
    rw [totalDegree_C, zero_add]
    exact (totalDegree_add _ _).trans (max_le hP.1 hR.1)
  have h1 := hP.2 _ hmid
  have h2 := hR.2 _ hmid
  have h3 : ∑ i, (w i * (eval (X i) (C (1 / 2) * (P + R)) - f i)) ^ 2
      = 1 / 2 * ∑ i, (w i * (eval (X i) P - f i)) ^ 2 + 1 / 2 * ∑ i, (w i * (eval (X i) R - f i)) ^ 2
        - 1 / 4 * ∑ i, (w i * eval (X i) (P - R)) ^ 2 := by
    simp only [Finset.mul_sum, ← Finset.sum_add_distrib, ← Finset.sum_sub_distrib]
    refine Finset.sum_congr rfl fun i _ => ?_
    simp only [map_mul, map_add, map_sub, eval_C]
    ring
  have hnn : ∀ i ∈ Finset.univ, 0 ≤ (w i * eval (X i) (P - R)) ^ 2 := fun i _ => sq_nonneg _
  have h4 : ∑ i, (w i * eval (X i) (P - R)) ^ 2 = 0 := le_antisymm (by linarith) (Finset.sum_nonneg hnn)
  refine sub_eq_zero.mp (hX _ hdeg fun i => ?_)
  have h5 := (Finset.sum_eq_zero_iff_of_nonneg hnn).mp h4 i (Finset.mem_univ i)
  rw [pow_eq_zero_iff (by norm_num)] at h5
  exact (mul_eq_zero.mp h5).resolve_left (hw i).ne'

open MvPolynomial in
theorem quadFit_moved {X : Matrix (Fin M) (Fin m) ℝ} {f w : Fin M → ℝ} {Q : Matrix (Fin m) (Fin m) ℝ} (hQ : Q.transpose * Q = 1) {a b : ℝ}
    (ha : a ≠ 0) {P : MvPolynomial (Fin m) ℝ} (hP : QuadFit (newCoords Q 0 X) (fun i => a * f i + b) w P) :
    QuadFit X f w (C a⁻¹ * (bind₁ (linVars Q.transpose) P - C b)) := by
  have hQ' : Q * Q.transpose = 1 := mul_eq_one_comm.mp hQ
  have hrow : ∀ i, newCoords Q 0 X i = Q.transpose.mulVec (X i) := by
    intro i
    funext k
    simp only [newCoords, Matrix.of_apply, Pi.zero_apply, add_zero, Matrix.mulVec, dotProduct, Matrix.transpose_apply]
    exact Finset.sum_congr rfl fun l _ => mul_comm _ _
  have hback : ∀ i, Q.mulVec (newCoords Q 0 X i) = X i := fun i => by rw [hrow, Matrix.mulVec_mulVec, hQ', Matrix.one_mulVec]
  have hd : ∀ (t s : ℝ) (R : MvPolynomial (Fin m) ℝ), R.totalDegree ≤ 2 → (C t * (R - C s)).totalDegree ≤ 2 := by
    intro t s R hR
    refine (totalDegree_mul _ _).trans ?_
    rw [totalDegree_C, zero_add]
    exact (totalDegree_sub _ _).trans (max_le hR (by simp))
  refine ⟨hd _ _ _ ((Proofs.Rotation.totalDegree_bind _ (linVars_degree _) P).trans hP.1), fun q hq => ?_⟩
  have h1 := hP.2 (C a * (bind₁ (linVars Q) q - C (-b / a))) (hd _ _ _ ((Proofs.Rotation.totalDegree_bind _ (linVars_degree _) q).trans hq))
  have e1 : ∀ i, (w i * (eval (X i) (C a⁻¹ * (bind₁ (linVars Q.transpose) P - C b)) - f i)) ^ 2
      = (a⁻¹) ^ 2 * (w i * (eval (newCoords Q 0 X i) P - (a * f i + b))) ^ 2 := by
    intro i
    rw [map_mul, map_sub, eval_C, eval_C, linVars_eval, hrow]
    field_simp
    ring
  have e2 : ∀ i, (w i * (eval (newCoords Q 0 X i) (C a * (bind₁ (linVars Q) q - C (-b / a))) - (a * f i + b))) ^ 2
      = a ^ 2 * (w i * (eval (X i) q - f i)) ^ 2 := by
    intro i
    rw [map_mul, map_sub, eval_C, eval_C, linVars_eval, hback]
    field_simp
    ring
  simp only [e2, ← Finset.mul_sum] at h1
  simp only [e1, ← Finset.mul_sum]
  calc _ ≤ (a⁻¹) ^ 2 * (a ^ 2 * ∑ i, (w i * (eval (X i) q - f i)) ^ 2) := mul_le_mul_of_nonneg_left h1 (sq_nonneg _)
    _ = _ := by field_simp

open MvPolynomial in
/-- C135, the part that holds for `qphd_subspace`: with a sample that determines quadratics, and if a coordinate exceeds 1 before the
rotation exactly if one does after it. -/
theorem C135_qphd_partial (lib : Model.Subspaces.Lib) (hl : SubLibOK lib) (hm : 0 < m) (X : Matrix (Fin M) (Fin m) ℝ) (f w : Fin M → ℝ)
    (hM : (2 + m).choose m ≤ M) (hX : QuadDesign X) (hw : ∀ i, 0 < w i) {Q : Matrix (Fin m) (Fin m) ℝ} (hQ : Q.transpose * Q = 1) {a b : ℝ}
    (ha : a ≠ 0) (hbr : (∃ i j, 1 < X i j) ↔ ∃ i j, 1 < newCoords Q 0 X i j) :
    ∃ e W e' W', qphd_subspace lib (.mat (NpMat.of X)) (.mat (wcol f)) (wcol w) = .ok ⟨m, e, W⟩ ∧
      qphd_subspace lib (.mat (NpMat.of (newCoords Q 0 X))) (.mat (wcol fun i => a * f i + b)) (wcol w) = .ok ⟨m, e', W'⟩ ∧
      Follows Q (a ^ 2) e W e' W' := by
  have hQ' : Q * Q.transpose = 1 := mul_eq_one_comm.mp hQ
  have hM0 : 0 < M := lt_of_lt_of_le (Nat.choose_pos (by omega)) hM
  obtain ⟨γ, hγ0, hγ, hγ'⟩ : ∃ γ : ℝ, 0 ≤ γ ∧ gamma (NpMat.of X) = .ok γ ∧ gamma (NpMat.of (newCoords Q 0 X)) = .ok γ := by
    rcases gamma_of X hM0 hm with ⟨h1, h2⟩ | ⟨h1, h2⟩ <;> rcases gamma_of (newCoords Q 0 X) hM0 hm with ⟨h3, h4⟩ | ⟨h3, h4⟩
    · exact ⟨1, by norm_num, h2, h4⟩
    · obtain ⟨i, j, hij⟩ := hbr.mp h1
      exact absurd (h3 i j) (not_le.mpr hij)
    · obtain ⟨i, j, hij⟩ := hbr.mpr h3
      exact absurd (h1 i j) (not_le.mpr hij)
    · exact ⟨1 / 3, by norm_num, h2, h4⟩
  obtain ⟨P, hdeg, hmin, heq⟩ := qphd_eq lib hl.lstsq hm X f w hM hγ
  obtain ⟨P', hdeg', hmin', heq'⟩ := qphd_eq lib hl.lstsq hm (newCoords Q 0 X) (fun i => a * f i + b) w hM hγ'
  have hPP := quadFit_unique hX hw ⟨hdeg, hmin⟩ (quadFit_moved hQ ha ⟨hdeg', hmin'⟩)
  obtain ⟨e, W, h, hs⟩ := C34_posSemidef lib hl hm _ (qphd_posSemidef (fun k => eval 0 (pderiv k P))
    (Matrix.of fun k r => eval 0 (pderiv k (pderiv r P))) hγ0)
  obtain ⟨e', W', h', hs'⟩ := C34_posSemidef lib hl hm _ (qphd_posSemidef (fun k => eval 0 (pderiv k P'))
    (Matrix.of fun k r => eval 0 (pderiv k (pderiv r P'))) hγ0)
  refine ⟨e, W, e', W', heq.trans h, heq'.trans h', follows_of hQ (by positivity) ?_ hs hs'⟩
  have hform : ∀ (g : Fin m → ℝ) (H : Matrix (Fin m) (Fin m) ℝ), (Matrix.of fun k l => g k * g l + γ * ∑ r, H k r * H l r : Matrix (Fin m) (Fin m) ℝ)
      = (Matrix.of fun k l => g k * g l) + γ • (H * H.transpose) := by
    intro g H
    ext k l
    simp [Matrix.mul_apply]
  have hg : (fun k => eval 0 (pderiv k P)) = fun k => a⁻¹ * ∑ j, eval 0 (pderiv j P') * Q.transpose j k := by
    funext k
    rw [hPP, Derivation.leibniz, pderiv_C, smul_zero, add_zero, smul_eq_mul, map_mul, eval_C, map_sub, pderiv_C, sub_zero, linVars_grad]
  have hH : (Matrix.of fun k r => eval 0 (pderiv k (pderiv r P)) : Matrix (Fin m) (Fin m) ℝ)
      = a⁻¹ • (Q * (Matrix.of fun k r => eval 0 (pderiv k (pderiv r P'))) * Q.transpose) := by
    ext k r
    rw [Matrix.of_apply, Matrix.smul_apply, smul_eq_mul, hPP, Derivation.leibniz, pderiv_C, smul_zero, add_zero, smul_eq_mul, Derivation.leibniz,
      pderiv_C, smul_zero, add_zero, smul_eq_mul, map_mul, eval_C, map_sub, pderiv_C, sub_zero, linVars_hess, Matrix.mul_apply]
    congr 1
    refine Finset.sum_congr rfl fun l _ => ?_
    rw [Matrix.mul_apply, Finset.sum_mul]
    refine Finset.sum_congr rfl fun i _ => ?_
    simp only [Matrix.transpose_apply, Matrix.of_apply]
    ring
  have hgg := congrArg (fun g : Fin m → ℝ => (Matrix.of fun k l => g k * g l : Matrix (Fin m) (Fin m) ℝ)) hg
  beta_reduce at hgg
  rw [hform, hform, hgg, hH, rank_one_rotate _ Q.transpose a⁻¹, Matrix.transpose_transpose]
  set A := (Matrix.of fun k l => eval 0 (pderiv k P') * eval 0 (pderiv l P') : Matrix (Fin m) (Fin m) ℝ)
  set H := (Matrix.of fun k r => eval 0 (pderiv k (pderiv r P')) : Matrix (Fin m) (Fin m) ℝ)
  have hone : ∀ B : Matrix (Fin m) (Fin m) ℝ, Q.transpose * (Q * B * Q.transpose) * Q = B := by
    intro B
    calc Q.transpose * (Q * B * Q.transpose) * Q = (Q.transpose * Q) * B * (Q.transpose * Q) := by simp only [Matrix.mul_assoc]
      _ = B := by rw [hQ, Matrix.one_mul, Matrix.mul_one]
  have hHH : (a⁻¹ • (Q * H * Q.transpose)) * (a⁻¹ • (Q * H * Q.transpose)).transpose = a⁻¹ ^ 2 • (Q * (H * H.transpose) * Q.transpose) := by
    rw [Matrix.transpose_smul, Matrix.smul_mul, Matrix.mul_smul, smul_smul, ← sq]
    congr 1
    rw [Matrix.transpose_mul, Matrix.transpose_mul, Matrix.transpose_transpose]
    calc Q * H * Q.transpose * (Q * (H.transpose * Q.transpose)) = Q * H * (Q.transpose * Q) * H.transpose * Q.transpose := by
          simp only [Matrix.mul_assoc]
      _ = _ := by rw [hQ, Matrix.mul_one]; simp only [Matrix.mul_assoc]
  rw [hHH, smul_comm γ, ← smul_add, Matrix.mul_smul, Matrix.smul_mul, smul_smul, Matrix.mul_add, Matrix.add_mul, hone, Matrix.mul_smul, Matrix.smul_mul,
    hone, inv_pow, mul_inv_cancel₀ (pow_ne_zero 2 ha), one_smul]

theorem follows_one {Q : Matrix (Fin 1) (Fin 1) ℝ} {t : ℝ} {e e' : Fin 1 → ℝ} {W W' : Matrix (Fin 1) (Fin 1) ℝ} (h : Follows Q t e W e' W') :
    e' 0 = t * e 0 := h.1 0

open MvPolynomial Proofs.PolyTrain in
/-- C135 fails for `qphd_subspace`: `f = x^2` at -2, 0 and 1.  With the axis reversed, the values at 2, 0 and -1, the eigenvalue is 4
instead of 4/3. -/
theorem C135_qphd_refuted (lib : Model.Subspaces.Lib) (hl : SubLibOK lib) :
    ∃ (X : Matrix (Fin 3) (Fin 1) ℝ) (f : Fin 3 → ℝ) (Q : Matrix (Fin 1) (Fin 1) ℝ) (e : Fin 1 → ℝ) (W : Matrix (Fin 1) (Fin 1) ℝ)
      (e' : Fin 1 → ℝ) (W' : Matrix (Fin 1) (Fin 1) ℝ), QuadDesign X ∧ Q.transpose * Q = 1 ∧
      qphd_subspace lib (.mat (NpMat.of X)) (.mat (wcol f)) (wcol fun _ : Fin 3 => 1 / 3) = .ok ⟨1, e, W⟩ ∧
      qphd_subspace lib (.mat (NpMat.of (newCoords Q 0 X))) (.mat (wcol f)) (wcol fun _ : Fin 3 => 1 / 3) = .ok ⟨1, e', W'⟩ ∧
      e 0 = 4 / 3 ∧ e' 0 = 4 ∧ ¬ Follows Q 1 e W e' W' := by
  obtain ⟨-, e, W, h1, h2, -⟩ := C37_fails lib hl
  have hY : newCoords (-1) 0 (Matrix.of ![![-2], ![0], ![1]] : Matrix (Fin 3) (Fin 1) ℝ) = Matrix.of ![![2], ![0], ![-1]] := by
    ext i j
    fin_cases j
    fin_cases i <;> simp [newCoords]
  have e0 : (Matrix.of ![![2], ![0], ![-1]] : Matrix (Fin 3) (Fin 1) ℝ) 0 = ![2] := rfl
  have e1 : (Matrix.of ![![2], ![0], ![-1]] : Matrix (Fin 3) (Fin 1) ℝ) 1 = ![0] := rfl
  have e2 : (Matrix.of ![![2], ![0], ![-1]] : Matrix (Fin 3) (Fin 1) ℝ) 2 = ![-1] := rfl
  have hγ : gamma (NpMat.of (Matrix.of ![![2], ![0], ![-1]] : Matrix (Fin 3) (Fin 1) ℝ)) = .ok 1 := by
    rcases gamma_of (Matrix.of ![![2], ![0], ![-1]] : Matrix (Fin 3) (Fin 1) ℝ) (by norm_num) (by norm_num) with ⟨-, h⟩ | ⟨h, -⟩
    · exact h
    · have := h 0 0
      rw [e0] at this
      norm_num at this
  obtain ⟨P, hdeg, hmin, heq⟩ := qphd_eq lib hl.lstsq le_rfl (Matrix.of ![![2], ![0], ![-1]] : Matrix (Fin 3) (Fin 1) ℝ)
    ![4, 0, 1] (fun _ => 1 / 3) (by decide) hγ
  have hfit : ∀ i, eval ((Matrix.of ![![2], ![0], ![-1]] : Matrix (Fin 3) (Fin 1) ℝ) i) P = (![4, 0, 1] : Fin 3 → ℝ) i := by
    have h1 := hmin (X 0 ^ 2) (by
      refine (totalDegree_pow _ _).trans ?_
      rw [totalDegree_X])
    simp only [map_pow, eval_X] at h1
    rw [Fin.sum_univ_three (fun i => (1 / 3 * ((Matrix.of ![![2], ![0], ![-1]] : Matrix (Fin 3) (Fin 1) ℝ) i 0 ^ 2
      - (![4, 0, 1] : Fin 3 → ℝ) i)) ^ 2), e0, e1, e2] at h1
    norm_num [Matrix.cons_val_zero, Matrix.cons_val_one] at h1
    intro i
    have h2 : ∀ j ∈ Finset.univ, 0 ≤ (1 / 3 * (eval ((Matrix.of ![![2], ![0], ![-1]] : Matrix (Fin 3) (Fin 1) ℝ) j) P
      - (![4, 0, 1] : Fin 3 → ℝ) j)) ^ 2 := fun j _ => sq_nonneg _
    have h3 := (Finset.sum_eq_zero_iff_of_nonneg h2).mp (le_antisymm (by simpa using h1) (Finset.sum_nonneg h2)) i
      (Finset.mem_univ i)
    rw [pow_eq_zero_iff (by norm_num)] at h3
    linarith
  have hg : eval 0 (pderiv 0 P) = 0 ∧ eval 0 (pderiv 0 (pderiv 0 P)) = 2 := by
    have h0 := hfit 0
    have h1 := hfit 1
    have h2 := hfit 2
    rw [e0, taylor_two P hdeg] at h0
    rw [e1, taylor_two P hdeg] at h1
    rw [e2, taylor_two P hdeg] at h2
    simp only [Fin.sum_univ_one, Matrix.cons_val_zero, Matrix.cons_val_one, Matrix.cons_val] at h0 h1 h2
    constructor <;> linarith
  obtain ⟨e', W', h, hs⟩ := C34_posSemidef lib hl (by norm_num) _ (qphd_posSemidef (fun k => eval 0 (pderiv k P))
    (Matrix.of fun k r => eval 0 (pderiv k (pderiv r P))) (by norm_num : (0 : ℝ) ≤ 1))
  have he' : e' 0 = 4 := by
    have hv := congrFun (hs.vec 0) 0
    have ho := hs.orth 0 0
    rw [Matrix.mulVec, dotProduct, Fin.sum_univ_one, Matrix.of_apply, Fin.sum_univ_one, Matrix.of_apply, hg.1, hg.2,
      Pi.smul_apply, smul_eq_mul] at hv
    rw [Fin.sum_univ_one, if_pos rfl] at ho
    have hW : W' 0 0 ≠ 0 := fun h => by rw [h] at ho; norm_num at ho
    have := mul_right_cancel₀ hW hv
    linarith
  refine ⟨Matrix.of ![![-2], ![0], ![1]], ![4, 0, 1], -1, e, W, e', W', fun q hq hz => ?_, by simp, h1, ?_, h2, he', fun hF => ?_⟩
  · have f0 := hz 0
    have f1 := hz 1
    have f2 := hz 2
    rw [show (Matrix.of ![![-2], ![0], ![1]] : Matrix (Fin 3) (Fin 1) ℝ) 0 = ![-2] from rfl, taylor_two q hq] at f0
    rw [show (Matrix.of ![![-2], ![0], ![1]] : Matrix (Fin 3) (Fin 1) ℝ) 1 = ![0] from rfl, taylor_two q hq] at f1
    rw [show (Matrix.of ![![-2], ![0], ![1]] : Matrix (Fin 3) (Fin 1) ℝ) 2 = ![1] from rfl, taylor_two q hq] at f2
    simp only [Fin.sum_univ_one, Matrix.cons_val_zero, Matrix.cons_val_one, Matrix.cons_val] at f0 f1 f2
    refine MvPolynomial.funext fun x => ?_
    rw [taylor_two q hq x]
    simp only [Fin.sum_univ_one, map_zero]
    have g0 : eval 0 q = 0 := by linarith
    have g1 : eval 0 (pderiv 0 q) = 0 := by linarith
    have g2 : eval 0 (pderiv 0 (pderiv 0 q)) = 0 := by linarith
    rw [g0, g1, g2]
    ring
  · rw [hY]
    exact heq.trans h
  · have := follows_one hF
    rw [he', h2] at this
    norm_num at this

/-- C135 fails for `ols_subspace` when the sample does not determine affine functions: for the value 1 at the point 1 the eigenvalue is
1/4, for the value 1 at the point 0 it is 0. -/
theorem C135_origin_refuted (lib : Model.Subspaces.Lib) (hl : SubLibOK lib) :
    ∃ (e : Fin 1 → ℝ) (W : Matrix (Fin 1) (Fin 1) ℝ) (e' : Fin 1 → ℝ) (W' : Matrix (Fin 1) (Fin 1) ℝ),
      ols_subspace lib (.mat (NpMat.of (Matrix.of fun (_ : Fin 1) (_ : Fin 1) => (1 : ℝ)))) (.mat (wcol fun _ : Fin 1 => 1)) (wcol fun _ : Fin 1 => 1) = .ok ⟨1, e, W⟩ ∧
      ols_subspace lib (.mat (NpMat.of (newCoords 1 (fun _ => -1) (Matrix.of fun (_ : Fin 1) (_ : Fin 1) => (1 : ℝ))))) (.mat (wcol fun _ : Fin 1 => 1)) (wcol fun _ : Fin 1 => 1)
        = .ok ⟨1, e', W'⟩ ∧ e 0 = 1 / 4 ∧ e' 0 = 0 ∧ ¬ Follows 1 1 e W e' W' := by
  have key : ∀ (x s : ℝ), s * (1 + x ^ 2) = x → ∃ (e : Fin 1 → ℝ) (W : Matrix (Fin 1) (Fin 1) ℝ),
      ols_subspace lib (.mat (NpMat.of (Matrix.of fun (_ : Fin 1) (_ : Fin 1) => x))) (.mat (wcol fun _ : Fin 1 => 1)) (wcol fun _ : Fin 1 => 1) = .ok ⟨1, e, W⟩ ∧
        e 0 = s ^ 2 := by
    intro x s hs
    obtain ⟨u, hu, heq⟩ := ols_eq lib (Matrix.of fun (_ : Fin 1) (_ : Fin 1) => x) (fun _ : Fin 1 => (1 : ℝ)) fun _ => 1
    obtain ⟨e, W, h, hs1⟩ := C34_posSemidef lib hl (by norm_num) _ (rank_one_posSemidef fun k => u (Fin.natAdd 1 k))
    obtain ⟨h1, -, -⟩ := rank_one (by norm_num) hs1
    refine ⟨e, W, heq.trans h, ?_⟩
    rw [show e 0 = _ from h1, Fin.sum_univ_one]
    have hmin : IsMinNorm _ _ u := hu ▸ hl.lstsq _ _ _ _
    have hmul := hstack_mulVec (Matrix.of fun (_ : Fin 1) (_ : Fin 1) => x) (fun _ : Fin 1 => (1 : ℝ))
    set v : Fin (1 + 1) → ℝ := Fin.append (fun _ : Fin 1 => 1 - x * s) (fun _ : Fin 1 => s) with hv
    have hls : ∀ z : Fin (1 + 1) → ℝ, z (Fin.castAdd 1 0) + x * z (Fin.natAdd 1 0) = 1 →
        (Matrix.of fun i j => Np.hstack (Np.ones 1 1) (Matrix.of fun (_ : Fin 1) (_ : Fin 1) => x) i j * Real.sqrt ((fun _ : Fin 1 => (1 : ℝ)) i)).mulVec z
          = fun i => (fun _ : Fin 1 => (1 : ℝ)) i * Real.sqrt ((fun _ : Fin 1 => (1 : ℝ)) i) := by
      intro z hz
      funext i
      rw [hmul, Fin.sum_univ_one, Matrix.of_apply, hz]
      simp
    have hv1 := hls v (by rw [hv, Fin.append_left, Fin.append_right]; ring)
    have hu1 := Proofs.LeastSquares.exact_of_consistent hmin.1 hv1
    have hu2 : u (Fin.castAdd 1 0) + x * u (Fin.natAdd 1 0) = 1 := by
      have := congrFun hu1 0
      rw [hmul] at this
      simpa using this
    have hv2 : IsLeastSquares _ _ v := fun z => by
      rw [hv1, sub_self, Proofs.LeastSquares.sqNorm_eq_zero.mpr rfl]
      exact Proofs.LeastSquares.sqNorm_nonneg _
    have h3 := hmin.2 v hv2
    unfold sqNorm at h3
    rw [Fin.sum_univ_add, Fin.sum_univ_add] at h3
    simp only [Fin.sum_univ_one, hv, Fin.append_left, Fin.append_right] at h3
    have h4 : u (Fin.castAdd 1 0) = 1 - x * u (Fin.natAdd 1 0) := by linarith
    rw [h4] at h3
    have h5 : (u (Fin.natAdd 1 0) - s) ^ 2 * (1 + x ^ 2) ≤ 0 := by
      have e5 : (u (Fin.natAdd 1 0) - s) ^ 2 * (1 + x ^ 2) = ((1 - x * u (Fin.natAdd 1 0)) ^ 2 + u (Fin.natAdd 1 0) ^ 2)
          - ((1 - x * s) ^ 2 + s ^ 2) := by
        linear_combination (2 * s - 2 * u (Fin.natAdd 1 0)) * hs
      rw [e5]
      linarith
    have h6 : (u (Fin.natAdd 1 0) - s) ^ 2 = 0 := by
      have : 0 < 1 + x ^ 2 := by positivity
      exact le_antisymm (by nlinarith [sq_nonneg (u (Fin.natAdd 1 0) - s)]) (sq_nonneg _)
    rw [sub_eq_zero.mp (pow_eq_zero_iff (by norm_num) |>.mp h6)]
  obtain ⟨e, W, h1, h2⟩ := key 1 (1 / 2) (by norm_num)
  obtain ⟨e', W', h3, h4⟩ := key 0 0 (by norm_num)
  have hY : newCoords 1 (fun _ => -1) (Matrix.of fun (_ : Fin 1) (_ : Fin 1) => (1 : ℝ)) = Matrix.of fun (_ : Fin 1) (_ : Fin 1) => (0 : ℝ) := by
    ext i j
    simp [newCoords, Matrix.one_apply, Subsingleton.elim j 0]
  refine ⟨e, W, e', W', h1, by rw [hY]; exact h3, by rw [h2]; norm_num, by rw [h4]; norm_num, fun hF => ?_⟩
  have := follows_one hF
  rw [h2, h4] at this
  norm_num at this

/-! ## Examples -/

/-- A rotation, points that determine affine functions, and eigenvalues with a gap. -/
example : (!![3 / 5, -4 / 5; 4 / 5, 3 / 5] : Matrix (Fin 2) (Fin 2) ℝ).transpose * !![3 / 5, -4 / 5; 4 / 5, 3 / 5] = 1 ∧
    AffineDesign (!![0, 0; 1, 0; 0, 1] : Matrix (Fin 3) (Fin 2) ℝ) ∧ ∃ j k : Fin 2, (![2, 1] : Fin 2 → ℝ) j ≠ (![2, 1] : Fin 2 → ℝ) k := by
  refine ⟨?_, ?_, 0, 1, by norm_num⟩
  · ext i j
    fin_cases i <;> fin_cases j <;> norm_num [Matrix.mul_apply, Fin.sum_univ_two]
  · intro a s h
    have h0 := h 0
    have h1 := h 1
    have h2 := h 2
    simp [Fin.sum_univ_two] at h0 h1 h2
    refine ⟨h0, ?_⟩
    funext k
    fin_cases k
    · simpa [h0] using h1
    · simpa [h0] using h2

/-- The hypotheses on local models: four points, three neighbours. -/
example : ∀ k, checkP 4 2 .none = .ok k → GeneralPosition (!![0, 0; 1, 0; 0, 1; 2, 3] : Matrix (Fin 4) (Fin 2) ℝ) k := by
  intro k hk
  have : checkP 4 2 .none = .ok 3 := by
    unfold checkP
    rw [if_neg (by norm_num)]
    simp only [floor_two]
    norm_num
    rfl
  rw [this] at hk
  rw [← Except.ok.inj hk]
  exact general_position_example.2.1

end Props
