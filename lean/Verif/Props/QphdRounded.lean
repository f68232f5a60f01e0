import Verif.Model.RoundedQphd
import Verif.Props.OlsRounded
import Verif.Props.Qphd

/-!
# Property C161: `qphd_subspace` in double precision, after the fit
-/

open Py Matrix Model.Misc Model.Subspaces Spec Proofs.Rounding Proofs.FloatSum Proofs.Perturb
open scoped Matrix.Norms.L2Operator

namespace Props

variable {M m : ℕ}

/-- The average outer product of the gradient of a quadratic model with gradient `b` and Hessian `A` at the origin, for second moment `γ`. -/
def quadOuter (γ : ℝ) (b : Fin m → ℝ) (A : Matrix (Fin m) (Fin m) ℝ) : Matrix (Fin m) (Fin m) ℝ :=
  Matrix.of fun k l => b k * b l + γ * ∑ r, A k r * A l r

/-- **C161**, without rounding: the matrix that the exact model decomposes. -/
theorem C161_exact (γ : ℝ) (b : Fin m → ℝ) (A : Matrix (Fin m) (Fin m) ℝ) :
    Model.Rounded.qphdMatrix id (fun _ _ _ A B => A * B) γ b A = quadOuter γ b A := by
  ext k l
  simp [Model.Rounded.qphdMatrix, quadOuter, Matrix.mul_apply]

/-- **C161**, without rounding: `qphd_subspace` of the exact model fits a quadratic and passes its gradient and Hessian at the origin on. -/
theorem C161_exact_run (lib : Model.Subspaces.Lib) (hl : LstsqOK lib.surf) (hm : 0 < m) (X : Matrix (Fin M) (Fin m) ℝ) (f w : Fin M → ℝ) (hM : (2 + m).choose m ≤ M) :
    ∃ P : MvPolynomial (Fin m) ℝ, P.totalDegree ≤ 2 ∧
      (∀ q : MvPolynomial (Fin m) ℝ, q.totalDegree ≤ 2 →
        ∑ i, (w i * (MvPolynomial.eval (X i) P - f i)) ^ 2 ≤ ∑ i, (w i * (MvPolynomial.eval (X i) q - f i)) ^ 2) ∧
      qphd_subspace lib (.mat (NpMat.of X)) (.mat (wcol f)) (wcol w)
        = Model.Rounded.qphd_subspace id (fun _ _ _ A B => A * B) lib (NpMat.of X) (fun k => MvPolynomial.eval 0 (MvPolynomial.pderiv k P))
          (Matrix.of fun k l => MvPolynomial.eval 0 (MvPolynomial.pderiv k (MvPolynomial.pderiv l P))) := by
  have hM0 : 0 < M := lt_of_lt_of_le (Nat.choose_pos (by omega)) hM
  obtain ⟨γ, hγ⟩ : ∃ γ, gamma (NpMat.of X) = .ok γ := by
    rcases gamma_of X hM0 hm with h | h
    · exact ⟨_, h.2⟩
    · exact ⟨_, h.2⟩
  obtain ⟨P, h1, h2, h3⟩ := qphd_eq lib hl hm X f w hM hγ
  refine ⟨P, h1, h2, ?_⟩
  rw [h3]
  unfold Model.Rounded.qphd_subspace
  rw [hγ, show (Except.ok γ >>= fun gamma => sorted_eigh lib (NpMat.of (Model.Rounded.qphdMatrix id (fun _ _ _ A B => A * B) gamma
    (fun k => MvPolynomial.eval 0 (MvPolynomial.pderiv k P)) (Matrix.of fun k l => MvPolynomial.eval 0 (MvPolynomial.pderiv k (MvPolynomial.pderiv l P))))))
    = sorted_eigh lib (NpMat.of (Model.Rounded.qphdMatrix id (fun _ _ _ A B => A * B) γ
    (fun k => MvPolynomial.eval 0 (MvPolynomial.pderiv k P)) (Matrix.of fun k l => MvPolynomial.eval 0 (MvPolynomial.pderiv k (MvPolynomial.pderiv l P))))) from rfl, C161_exact]
  rfl

/-- A matrix computed with small errors relative to a sum of outer products, and its computed decomposition. -/
theorem outer_decomposed {lib : Model.Subspaces.Lib} (ha : ∀ (n : ℕ) (v : Fin n → ℝ), IsArgsort v (lib.argsort n v)) {ε : ℝ}
    (he : ∀ A : Matrix (Fin m) (Fin m) ℝ, StableEigh ε A (lib.eigh m A).1 (lib.eigh m A).2) (hε : 0 ≤ ε) (hm : 0 < m)
    (G : Matrix (Fin M) (Fin m) ℝ) (w : Fin M → ℝ) (hw : ∀ k, 0 ≤ w k) {γ δ : ℝ} (hγ0 : 0 ≤ γ) (hδ : δ = (γ + ε * (1 + γ)) * ∑ k, w k * ∑ i, G k i ^ 2)
    {C : Matrix (Fin m) (Fin m) ℝ} (hent : ∀ i j, |C i j - gradOuter G w i j| ≤ γ * ∑ k, w k * (|G k i| * |G k j|)) :
    ∃ (B : Matrix (Fin m) (Fin m) ℝ) (f e : Fin m → ℝ) (W W' : Matrix (Fin m) (Fin m) ℝ),
      sorted_eigh lib (NpMat.of C) = .ok ⟨m, e, W⟩ ∧ IsEigh B f W' ∧ (∀ j, e j = |f j|) ∧ Antitone e ∧ ‖W - W'‖ ≤ ε ∧ ‖B - gradOuter G w‖ ≤ δ := by
  have hcode : sorted_eigh lib (NpMat.of C) = .ok (sortedEighMat lib hm C) := by
    unfold sorted_eigh
    rw [dif_pos (show (NpMat.of C).cols = (NpMat.of C).rows from rfl), dif_pos (show 0 < (NpMat.of C).rows from hm)]
    rfl
  have hsy : ∀ i j, gradOuter G w i j = gradOuter G w j i := fun i j => congrFun (congrFun (Proofs.Bootstrap.gradOuter_symm G w) j) i
  have hlow : ‖lower C - gradOuter G w‖ ≤ γ * ∑ k, w k * ∑ i, G k i ^ 2 := by
    refine Rounded.norm_le_trace G w hw hγ0 fun i j => ?_
    rw [Matrix.sub_apply, lower, Matrix.of_apply]
    rcases le_total i j with hij | hij
    · rw [max_eq_right hij, min_eq_left hij, hsy i j]
      refine (hent j i).trans (le_of_eq ?_)
      congr 1
      exact Finset.sum_congr rfl fun k _ => by ring
    · rw [max_eq_left hij, min_eq_right hij]
      exact hent i j
  have hex : ‖gradOuter G w‖ ≤ 1 * ∑ k, w k * ∑ i, G k i ^ 2 := by
    refine Rounded.norm_le_trace G w hw zero_le_one fun i j => ?_
    rw [one_mul, gradOuter, Matrix.of_apply]
    refine (Finset.abs_sum_le_sum_abs _ _).trans (Finset.sum_le_sum fun k _ => le_of_eq ?_)
    rw [abs_mul, abs_mul, abs_of_nonneg (hw k)]
  obtain ⟨E, Q, hE, hEn, hQ, hVQ⟩ := he C
  obtain ⟨σ, e, W, W', h1, h2, h3, h4, h5⟩ := Rounded.sorted_near ha hm hQ hVQ
  refine ⟨lower C + E, _, e, W, W', by rw [hcode, h1], h4, h2, h3, h5, ?_⟩
  have e1 : lower C + E - gradOuter G w = (lower C - gradOuter G w) + E := by abel
  have e2 : lower C = (lower C - gradOuter G w) + gradOuter G w := by abel
  have h6 : ‖lower C‖ ≤ γ * (∑ k, w k * ∑ i, G k i ^ 2) + 1 * ∑ k, w k * ∑ i, G k i ^ 2 := by
    rw [e2]
    exact (norm_add_le _ _).trans (add_le_add hlow hex)
  have h7 := hEn.trans (mul_le_mul_of_nonneg_left h6 hε)
  rw [e1]
  refine (norm_add_le _ _).trans ((add_le_add hlow h7).trans (le_of_eq ?_))
  rw [hδ]
  ring

/-- The entries of the matrix `C`. -/
theorem qphd_entry {rd : ℝ → ℝ} (hr : Rounding rd) {d : Model.Rounded.Dot} (hd : ∀ p n q A B, FloatDot rd A B (d p n q A B)) {γ : ℝ} (hγ : 0 ≤ γ)
    (b : Fin m → ℝ) (A : Matrix (Fin m) (Fin m) ℝ) (i j : Fin m) :
    Proofs.Near.Near (m + 3) (Model.Rounded.qphdMatrix rd d γ b A i j) (b i * b j + γ * ∑ r, A i r * A j r) (|b i| * |b j| + γ * ∑ r, |A i r| * |A j r|) := by
  have h1 : Proofs.Near.Near 1 (rd (b i * b j)) (b i * b j) (|b i| * |b j|) := by
    have := (Proofs.Near.refl (le_of_eq (abs_mul (b i) (b j)))).round hr
    simpa using this
  have h2 : Proofs.Near.Near m (d m m m A A.transpose i j) (∑ r, A i r * A j r) (∑ r, |A i r| * |A j r|) := by
    refine ⟨?_, ?_⟩
    · have := dot_bound hr (hd m m m A A.transpose) i j
      simpa [abs_mul] using this
    · refine (Finset.abs_sum_le_sum_abs _ _).trans (Finset.sum_le_sum fun r _ => le_of_eq (abs_mul _ _))
  have h3 : Proofs.Near.Near 1 (rd γ) γ γ := by
    have := (Proofs.Near.refl (le_of_eq (abs_of_nonneg hγ))).round hr
    simpa using this
  have h4 : Proofs.Near.Near (m + 2) (rd (rd γ * d m m m A A.transpose i j)) (γ * ∑ r, A i r * A j r) (γ * ∑ r, |A i r| * |A j r|) :=
    ((h3.mul h2).round hr).mono (by omega)
  have h5 := h1.mono (p := m + 2) (by omega)
  have h6 : Proofs.Near.Near (m + 2) (rd (b i * b j) + rd (rd γ * d m m m A A.transpose i j)) (b i * b j + γ * ∑ r, A i r * A j r)
      (|b i| * |b j| + γ * ∑ r, |A i r| * |A j r|) := by
    refine ⟨?_, (abs_add_le _ _).trans (add_le_add h5.le h4.le)⟩
    have e : rd (b i * b j) + rd (rd γ * d m m m A A.transpose i j) - (b i * b j + γ * ∑ r, A i r * A j r)
        = (rd (b i * b j) - b i * b j) + (rd (rd γ * d m m m A A.transpose i j) - γ * ∑ r, A i r * A j r) := by ring
    rw [e, mul_add]
    exact (abs_add_le _ _).trans (add_le_add h5.err h4.err)
  exact h6.round hr

open Classical in
/-- **C161.** `qphd_subspace` in double precision for the coefficients `b` and `A` of the fitted model: the eigenvalues are near those of the exact average outer
product of the gradient of that model, and the eigenvectors are nearly orthonormal. -/
theorem C161_qphd {rd : ℝ → ℝ} (hr : Rounding rd) {d : Model.Rounded.Dot} (hd : ∀ p n q A B, FloatDot rd A B (d p n q A B))
    {lib : Model.Subspaces.Lib} (ha : ∀ (n : ℕ) (v : Fin n → ℝ), IsArgsort v (lib.argsort n v)) {ε : ℝ}
    (he : ∀ A : Matrix (Fin m) (Fin m) ℝ, StableEigh ε A (lib.eigh m A).1 (lib.eigh m A).2) (hε : 0 ≤ ε) (hm : 0 < m) (hM : 0 < M)
    (X : Matrix (Fin M) (Fin m) ℝ) (b : Fin m → ℝ) (A : Matrix (Fin m) (Fin m) ℝ) {γ γ' δ : ℝ} (hγ : γ = if ∃ i j, 1 < X i j then 1 else 1 / 3)
    (hγ' : γ' = (1 + 1 / 2 ^ 53) ^ (m + 3) - 1) (hδ : δ = (γ' + ε * (1 + γ')) * (∑ i, b i ^ 2 + γ * ∑ r, ∑ i, A i r ^ 2)) :
    ∃ (e : Fin m → ℝ) (W : Matrix (Fin m) (Fin m) ℝ), Model.Rounded.qphd_subspace rd d lib (NpMat.of X) b A = .ok ⟨m, e, W⟩ ∧ Antitone e ∧ (∀ j, 0 ≤ e j) ∧
      (∀ e' V, IsSortedEigh (Matrix.of fun k l => b k * b l + γ * ∑ r, A k r * A l r) e' V → ∀ j, |e j - e' j| ≤ δ) ∧
      ∃ W' : Matrix (Fin m) (Fin m) ℝ, W'.transpose * W' = 1 ∧ ‖W - W'‖ ≤ ε := by
  have hgam : gamma (NpMat.of X) = .ok γ := by
    rcases gamma_of X hM hm with ⟨h1, h2⟩ | ⟨h1, h2⟩
    · rw [h2, hγ, if_pos h1]
    · rw [h2, hγ, if_neg fun ⟨i, j, h⟩ => absurd h (not_lt.mpr (h1 i j))]
  have hγ0 : 0 ≤ γ := by
    rw [hγ]
    split_ifs <;> norm_num
  have hγ'0 : 0 ≤ γ' := by
    have : γ' = (1 + u) ^ (m + 3) - 1 := hγ'
    rw [this]
    linarith [one_le_pow (m + 3)]
  set G : Matrix (Fin (1 + m)) (Fin m) ℝ := Fin.append (fun _ : Fin 1 => b) (fun r i => A i r) with hG
  set w : Fin (1 + m) → ℝ := Fin.append (fun _ : Fin 1 => (1 : ℝ)) (fun _ => γ) with hw
  have hsum : ∀ F : (Fin m → ℝ) → ℝ, ∑ k, w k * F (G k) = F b + γ * ∑ r, F (fun i => A i r) := fun F => by
    rw [Fin.sum_univ_add, Fin.sum_univ_one, Finset.mul_sum]
    simp only [hw, hG, Fin.append_left, Fin.append_right, one_mul]
  have hw0 : ∀ k, 0 ≤ w k := fun k => by
    refine Fin.addCases (fun i => ?_) (fun r => ?_) k
    · rw [hw, Fin.append_left]; norm_num
    · rw [hw, Fin.append_right]; exact hγ0
  have hO : gradOuter G w = Matrix.of fun k l => b k * b l + γ * ∑ r, A k r * A l r := by
    ext k l
    rw [gradOuter, Matrix.of_apply, Matrix.of_apply]
    exact hsum fun g => g k * g l
  have hδ' : δ = (γ' + ε * (1 + γ')) * ∑ k, w k * ∑ i, G k i ^ 2 := by
    rw [hδ, hsum fun g => ∑ i, g i ^ 2]
  obtain ⟨B, f, e, W, W', h1, h2, h3, h4, h5, h6⟩ := outer_decomposed ha he hε hm G w hw0 hγ'0 hδ' (C := Model.Rounded.qphdMatrix rd d γ b A) fun i j => by
    have := (qphd_entry hr hd hγ0 b A i j).err
    rw [hO, Matrix.of_apply, hsum fun g => |g i| * |g j|, hγ']
    exact this
  rw [hO] at h6
  refine ⟨e, W, ?_, h4, fun j => by rw [h3]; exact abs_nonneg _, fun e' V hs => (Rounded.abs_eig_close h2 hs h3 h4 h6).1, W', h2.orth, h5⟩
  unfold Model.Rounded.qphd_subspace
  rw [hgam]
  exact h1

/-- Libraries that keep the contracts exist, and the exact decomposition with which the eigenvalues are compared exists. -/
example (b : Fin 2 → ℝ) (A : Matrix (Fin 2) (Fin 2) ℝ) : (∃ (rd : ℝ → ℝ) (d : Model.Rounded.Dot) (lib : Model.Subspaces.Lib), Rounding rd ∧
    (∀ p n q A B, FloatDot rd A B (d p n q A B)) ∧ (∀ (n : ℕ) (v : Fin n → ℝ), IsArgsort v (lib.argsort n v)) ∧
    ∀ A : Matrix (Fin 2) (Fin 2) ℝ, StableEigh (1 / 2 ^ 40) A (lib.eigh 2 A).1 (lib.eigh 2 A).2) ∧
    ∃ e' V, IsSortedEigh (Matrix.of fun k l => b k * b l + 1 / 3 * ∑ r, A k r * A l r) e' V := by
  obtain ⟨rd, d, lib, hr, hd, ha, he⟩ := Rounded.contracts_exist
  obtain ⟨lib', hl'⟩ := subLibOK_exists
  obtain ⟨e', V, -, hs⟩ := C34_posSemidef lib' hl' (by norm_num : 0 < 2) _ (qphd_posSemidef b A (by norm_num : (0 : ℝ) ≤ 1 / 3))
  exact ⟨⟨rd, d, lib, hr, hd, ha, he 2 _ (by positivity)⟩, e', V, hs⟩

end Props
