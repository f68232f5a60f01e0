import Verif.Props.Bootstrap
import Verif.Props.FiniteDiff
import Verif.Proofs.Perturb

/-!
# Properties C99 and C100: active subspaces from inexact gradients
-/

open Py Model.Subspaces Model.Misc Spec Matrix Proofs.Eigh Proofs.Perturb
open scoped Matrix.Norms.L2Operator

namespace Props

variable {S E W : Type} {M m : ℕ}

/-! ## The difference of the two matrices -/

theorem abs_dot_le (a b : Fin m → ℝ) : |∑ k, a k * b k| ≤ Real.sqrt (∑ k, a k ^ 2) * Real.sqrt (∑ k, b k ^ 2) := by
  rw [← Real.sqrt_mul (Finset.sum_nonneg fun k _ => sq_nonneg _), ← Real.sqrt_sq_eq_abs]
  exact Real.sqrt_le_sqrt (Finset.sum_mul_sq_le_sq_mul_sq _ _ _)

theorem sum_sq_dot (a : Fin m → ℝ) : ∑ k, a k ^ 2 = a ⬝ᵥ a := Finset.sum_congr rfl fun k _ => sq _

/-- Gradients of length at most `L`, each off by at most `ε`, change the bilinear form by at most `ε (2 L + ε)` times the sum of
the weights. -/
theorem gradOuter_diff (G G' : Matrix (Fin M) (Fin m) ℝ) (w : Fin M → ℝ) (hw : ∀ i, 0 ≤ w i) {L ε : ℝ} (hε : 0 ≤ ε)
    (hL : ∀ i, Real.sqrt (∑ k, G i k ^ 2) ≤ L) (hG : ∀ i, Real.sqrt (∑ k, (G i k - G' i k) ^ 2) ≤ ε) (u v : Fin m → ℝ) :
    |u ⬝ᵥ (gradOuter G w - gradOuter G' w).mulVec v| ≤ ε * (2 * L + ε) * (∑ i, w i) * Real.sqrt (u ⬝ᵥ u) * Real.sqrt (v ⬝ᵥ v) := by
  have h1 : u ⬝ᵥ (gradOuter G w - gradOuter G' w).mulVec v = ∑ i, w i * ((∑ k, (G i k - G' i k) * u k) * (∑ k, G i k * v k)
      + (∑ k, G' i k * u k) * ∑ k, (G i k - G' i k) * v k) := by
    rw [Matrix.sub_mulVec, dotProduct_sub, gradOuter_form, gradOuter_form, ← Finset.sum_sub_distrib]
    refine Finset.sum_congr rfl fun i _ => ?_
    simp only [sub_mul, Finset.sum_sub_distrib]
    ring
  rw [h1]
  refine (Finset.abs_sum_le_sum_abs _ _).trans ?_
  rw [← sum_sq_dot u, ← sum_sq_dot v, Finset.mul_sum, Finset.sum_mul, Finset.sum_mul]
  refine Finset.sum_le_sum fun i _ => ?_
  set U := Real.sqrt (∑ k, u k ^ 2)
  set T := Real.sqrt (∑ k, v k ^ 2)
  have hU : 0 ≤ U := Real.sqrt_nonneg _
  have hT : 0 ≤ T := Real.sqrt_nonneg _
  have h2 : ∀ x : Fin m → ℝ, |∑ k, (G i k - G' i k) * x k| ≤ ε * Real.sqrt (∑ k, x k ^ 2) := fun x =>
    (abs_dot_le _ _).trans (mul_le_mul_of_nonneg_right (hG i) (Real.sqrt_nonneg _))
  have h3 : |∑ k, G i k * v k| ≤ L * T := (abs_dot_le _ _).trans (mul_le_mul_of_nonneg_right (hL i) hT)
  have h4 : |∑ k, G' i k * u k| ≤ (L + ε) * U := by
    have h5 : ∑ k, G' i k * u k = ∑ k, G i k * u k - ∑ k, (G i k - G' i k) * u k := by
      rw [← Finset.sum_sub_distrib]
      exact Finset.sum_congr rfl fun k _ => by ring
    have h6 : |∑ k, G i k * u k| ≤ L * U := (abs_dot_le _ _).trans (mul_le_mul_of_nonneg_right (hL i) hU)
    rw [h5]
    refine (abs_sub _ _).trans ?_
    have := h2 u
    linarith
  have hL0 : 0 ≤ L := (Real.sqrt_nonneg _).trans (hL i)
  rw [abs_mul, abs_of_nonneg (hw i)]
  have h7 : |(∑ k, (G i k - G' i k) * u k) * (∑ k, G i k * v k) + (∑ k, G' i k * u k) * ∑ k, (G i k - G' i k) * v k|
      ≤ ε * (2 * L + ε) * U * T := by
    refine (abs_add_le _ _).trans ?_
    rw [abs_mul, abs_mul]
    have a1 := mul_le_mul (h2 u) h3 (abs_nonneg _) (mul_nonneg hε hU)
    have a2 := mul_le_mul h4 (h2 v) (abs_nonneg _) (mul_nonneg (add_nonneg hL0 hε) hU)
    have e1 : ε * U * (L * T) + (L + ε) * U * (ε * T) = ε * (2 * L + ε) * U * T := by ring
    exact (add_le_add a1 a2).trans e1.le
  refine (mul_le_mul_of_nonneg_left h7 (hw i)).trans (le_of_eq ?_)
  ring

/-! ## C99 -/

/-- C99: gradients of length at most `L`, each off by at most `ε`, move no eigenvalue by more than `ε (2 L + ε)` times the sum of
the weights. -/
theorem C99_eigenvalues (lib lib' : Model.Subspaces.Lib) (hl : SubLibOK lib) (hl' : SubLibOK lib') (hm : 0 < m)
    (G G' : Matrix (Fin M) (Fin m) ℝ) (w : Fin M → ℝ) (hw : ∀ i, 0 ≤ w i) {L ε : ℝ} (hε : 0 ≤ ε)
    (hL : ∀ i, Real.sqrt (∑ k, G i k ^ 2) ≤ L) (hG : ∀ i, Real.sqrt (∑ k, (G i k - G' i k) ^ 2) ≤ ε) :
    ∃ e V e' V', active_subspace lib (.mat (NpMat.of G)) (wcol w) = .ok ⟨m, e, V⟩ ∧
      active_subspace lib' (.mat (NpMat.of G')) (wcol w) = .ok ⟨m, e', V'⟩ ∧
      ∀ j, |e j - e' j| ≤ ε * (2 * L + ε) * ∑ i, w i := by
  obtain ⟨e, V, h, hs⟩ := C34_posSemidef lib hl hm _ (gradOuter_posSemidef G w hw)
  obtain ⟨e', V', h', hs'⟩ := C34_posSemidef lib' hl' hm _ (gradOuter_posSemidef G' w hw)
  refine ⟨e, V, e', V', by rw [active_subspace_eq, h], by rw [active_subspace_eq, h'], fun j => ?_⟩
  have hd : ∀ x : Fin m → ℝ, |x ⬝ᵥ (gradOuter G w).mulVec x - x ⬝ᵥ (gradOuter G' w).mulVec x|
      ≤ ε * (2 * L + ε) * (∑ i, w i) * (x ⬝ᵥ x) := by
    intro x
    have := gradOuter_diff G G' w hw hε hL hG x x
    rw [mul_assoc, Real.mul_self_sqrt (show 0 ≤ x ⬝ᵥ x from Finset.sum_nonneg fun i _ => mul_self_nonneg _), Matrix.sub_mulVec, dotProduct_sub] at this
    exact this
  rw [abs_le]
  constructor
  · have := weyl (δ := ε * (2 * L + ε) * ∑ i, w i) hs'.isEigh hs.isEigh hs'.anti hs.anti (fun x => by have := neg_le_of_abs_le (hd x); linarith) j
    linarith
  · have := weyl hs.isEigh hs'.isEigh hs.anti hs'.anti (fun x => le_of_abs_le (hd x)) j
    linarith

/-! ## C100 -/

theorem lastCols_orth {V : Matrix (Fin m) (Fin m) ℝ} (hV : V.transpose * V = 1) (n : ℕ) :
    (Np.lastCols V n).transpose * Np.lastCols V n = 1 := by
  ext a b
  have h1 := congrFun (congrFun hV ⟨n + a, by omega⟩) ⟨n + b, by omega⟩
  rw [Matrix.mul_apply] at h1 ⊢
  refine h1.trans ?_
  rw [Matrix.one_apply, Matrix.one_apply]
  simp only [Nat.add_left_cancel_iff, Fin.ext_iff]

theorem firstCols_orth' {V : Matrix (Fin m) (Fin m) ℝ} (hV : V.transpose * V = 1) (n : ℕ) (h : n ≤ m) :
    (Np.firstCols V n h).transpose * Np.firstCols V n h = 1 := by
  ext a b
  have h1 := congrFun (congrFun hV (Fin.castLE h a)) (Fin.castLE h b)
  rw [Matrix.mul_apply] at h1 ⊢
  refine h1.trans ?_
  rw [Matrix.one_apply, Matrix.one_apply]
  simp only [Fin.castLE_inj]

/-- C100: if the gap of the eigenvalues after `n` is larger than `δ = ε (2 L + ε)` times the sum of the weights, then a unit
vector that is orthogonal to the first `n` eigenvectors from the inexact gradients has a projection of length at most
`δ / (gap - δ)` on the first `n` eigenvectors from the exact ones. -/
theorem C100_subspace (lib lib' : Model.Subspaces.Lib) (hl : SubLibOK lib) (hl' : SubLibOK lib') (n : ℕ) (hn : 1 ≤ n) (hnm : n < m)
    (G G' : Matrix (Fin M) (Fin m) ℝ) (w : Fin M → ℝ) (hw : ∀ i, 0 ≤ w i) {L ε δ : ℝ} (hε : 0 ≤ ε)
    (hL : ∀ i, Real.sqrt (∑ k, G i k ^ 2) ≤ L) (hG : ∀ i, Real.sqrt (∑ k, (G i k - G' i k) ^ 2) ≤ ε)
    (hδ : δ = ε * (2 * L + ε) * ∑ i, w i) :
    ∃ e V e' V', active_subspace lib (.mat (NpMat.of G)) (wcol w) = .ok ⟨m, e, V⟩ ∧
      active_subspace lib' (.mat (NpMat.of G')) (wcol w) = .ok ⟨m, e', V'⟩ ∧
      (δ < e ⟨n - 1, by omega⟩ - e ⟨n, hnm⟩ →
        ∀ y ∈ leakage V V' n, y ≤ δ / (e ⟨n - 1, by omega⟩ - e ⟨n, hnm⟩ - δ)) := by
  have hm : 0 < m := by omega
  obtain ⟨e, V, h, hs⟩ := C34_posSemidef lib hl hm _ (gradOuter_posSemidef G w hw)
  obtain ⟨e', V', h', hs'⟩ := C34_posSemidef lib' hl' hm _ (gradOuter_posSemidef G' w hw)
  refine ⟨e, V, e', V', by rw [active_subspace_eq, h], by rw [active_subspace_eq, h'], fun hgap y hy => ?_⟩
  have hbil := gradOuter_diff G G' w hw hε hL hG
  rw [← hδ] at hbil
  have hδ0 : 0 ≤ δ := by
    rw [hδ]
    rcases Nat.eq_zero_or_pos M with h0 | h0
    · subst h0; simp
    · have hL0 : 0 ≤ L := (Real.sqrt_nonneg _).trans (hL ⟨0, h0⟩)
      exact mul_nonneg (mul_nonneg hε (by linarith)) (Finset.sum_nonneg fun i _ => hw i)
  have hE : ‖gradOuter G w - gradOuter G' w‖ ≤ δ := opNorm_le hδ0 fun u v => (le_abs_self _).trans (hbil u v)
  have hd : ∀ x : Fin m → ℝ, x ⬝ᵥ (gradOuter G' w).mulVec x - x ⬝ᵥ (gradOuter G w).mulVec x ≤ δ * (x ⬝ᵥ x) := by
    intro x
    have := hbil x x
    rw [mul_assoc, Real.mul_self_sqrt (show 0 ≤ x ⬝ᵥ x from Finset.sum_nonneg fun i _ => mul_self_nonneg _), Matrix.sub_mulVec, dotProduct_sub] at this
    have := neg_le_of_abs_le this
    linarith
  have hwe := weyl hs'.isEigh hs.isEigh hs'.anti hs.anti hd ⟨n, hnm⟩
  have hsym : (gradOuter G w).transpose = gradOuter G w := Proofs.Bootstrap.gradOuter_symm G w
  have hF : gradOuter G w * Np.firstCols V n hnm.le = Np.firstCols V n hnm.le * diagonal fun i => e (Fin.castLE hnm.le i) := by
    ext r j
    have := congrFun (hs.vec (Fin.castLE hnm.le j)) r
    rw [Matrix.mul_diagonal]
    exact this.trans (mul_comm _ _)
  have hLa : gradOuter G' w * Np.lastCols V' n = Np.lastCols V' n * diagonal fun i : Fin (m - n) => e' ⟨n + i, by omega⟩ := by
    ext r j
    have := congrFun (hs'.vec ⟨n + j, by omega⟩) r
    rw [Matrix.mul_diagonal]
    exact this.trans (mul_comm _ _)
  have hdk := davis_kahan (a := e ⟨n - 1, by omega⟩) (b := e ⟨n, hnm⟩ + δ) hsym hF hLa (firstCols_orth' hs.isEigh.orth n hnm.le)
    (lastCols_orth hs'.isEigh.orth n) (fun i => hs.anti (Fin.le_def.mpr (by simp; omega)))
    (fun i => by
      rw [abs_of_nonneg (hs'.nonneg _)]
      exact (hs'.anti (Fin.le_def.mpr (by simp))).trans hwe)
    (add_nonneg (hs.nonneg _) hδ0) (by linarith) hE
  rw [leakage_eq V hs'.isEigh.orth n hnm.le] at hy
  obtain ⟨x, hx, rfl⟩ := hy
  have h1 := l2_opNorm_mulVec ((Np.firstCols V n hnm.le).transpose * Np.lastCols V' n) (WithLp.toLp 2 x)
  change ‖WithLp.toLp 2 (((Np.firstCols V n hnm.le).transpose * Np.lastCols V' n).mulVec x)‖ ≤ _ at h1
  rw [← sqrt_dot, ← sqrt_dot] at h1
  rw [sum_sq_dot] at hx ⊢
  have h2 : Real.sqrt (x ⬝ᵥ x) ≤ 1 := Real.sqrt_le_one.mpr hx
  rw [le_div_iff₀ (by linarith)]
  have h3 := h1.trans (mul_le_of_le_one_right (norm_nonneg _) h2)
  have h4 : 0 < e ⟨n - 1, by omega⟩ - e ⟨n, hnm⟩ - δ := by linarith
  have h5 := mul_le_mul_of_nonneg_right h3 h4.le
  refine h5.trans (le_of_eq_of_le ?_ hdk)
  ring

/-! ## C101 -/

/-- C101: finite differences with step `h` of a function whose partial derivatives `D j` vary along their coordinate with Lipschitz
constant `K` give an active subspace whose eigenvalues are within `ε (2 L + ε)` times the sum of the weights of those of the exact
gradients, with `ε = K h √m / 2`; so they converge as `h` goes to zero. -/
theorem C101_finite_difference (lib lib' : Model.Subspaces.Lib) (hl : SubLibOK lib) (hl' : SubLibOK lib') (hm : 0 < m)
    (g : (m : ℕ) → (Fin m → ℝ) → ℝ) (d : Fin m → (Fin m → ℝ) → ℝ) (X : Matrix (Fin M) (Fin m) ℝ) {h K L : ℝ} (hh : 0 < h)
    (hK : 0 ≤ K) (st : W)
    (hd : ∀ i k, ∀ t ∈ Set.Icc 0 h, HasDerivAt (fun t : ℝ => g m (X i + t • Pi.single k 1)) (d k (X i + t • Pi.single k 1)) t)
    (hLip : ∀ i k, ∀ t ∈ Set.Icc 0 h, |d k (X i + t • Pi.single k 1) - d k (X i)| ≤ K * t)
    (w : Fin M → ℝ) (hw : ∀ i, 0 ≤ w i) (hL : ∀ i, Real.sqrt (∑ k, d k (X i) ^ 2) ≤ L) :
    ∃ (D : Matrix (Fin M) (Fin m) ℝ) (e : Fin m → ℝ) (V : Matrix (Fin m) (Fin m) ℝ) (e' : Fin m → ℝ) (V' : Matrix (Fin m) (Fin m) ℝ),
      (Model.Gradients.finite_difference_gradients (.mat (.of X)) (fun m x => pure (g m x)) h).run st = (.ok (.of D), st) ∧
      active_subspace lib (.mat (NpMat.of (Matrix.of fun i k => d k (X i)))) (wcol w) = .ok ⟨m, e, V⟩ ∧
      active_subspace lib' (.mat (NpMat.of D)) (wcol w) = .ok ⟨m, e', V'⟩ ∧
      ∀ j, |e j - e' j| ≤ K * h * Real.sqrt m / 2 * (2 * L + K * h * Real.sqrt m / 2) * ∑ i, w i := by
  obtain ⟨D, hD, -⟩ := C10_formula (W := W) g X h st
  have hDk : ∀ i k, |D i k - d k (X i)| ≤ K * h / 2 := by
    intro i k
    obtain ⟨D', hD', hb⟩ := C10_error_bound (W := W) g X h hh st i k (fun t => d k (X i + t • Pi.single k 1)) K (hd i k)
      (fun t ht => by
        have := hLip i k t ht
        simpa using this)
    rw [hD] at hD'
    have h1 : NpMat.of D = NpMat.of D' := by
      have := congrArg Prod.fst hD'
      exact Except.ok.inj this
    have h2 : D = D' := eq_of_heq (NpMat.mk.inj h1).2.2
    rw [h2]
    simpa using hb
  have hε : 0 ≤ K * h * Real.sqrt m / 2 := by positivity
  have hG : ∀ i, Real.sqrt (∑ k, ((Matrix.of fun i k => d k (X i)) i k - D i k) ^ 2) ≤ K * h * Real.sqrt m / 2 := by
    intro i
    rw [Real.sqrt_le_left hε]
    have h1 : ∑ k : Fin m, ((Matrix.of fun i k => d k (X i)) i k - D i k) ^ 2 ≤ ∑ _k : Fin m, (K * h / 2) ^ 2 :=
      Finset.sum_le_sum fun k _ => by
        rw [← sq_abs, abs_sub_comm]
        exact pow_le_pow_left₀ (abs_nonneg _) (hDk i k) 2
    refine h1.trans (le_of_eq ?_)
    rw [Finset.sum_const, Finset.card_univ, Fintype.card_fin, nsmul_eq_mul]
    have h2 : Real.sqrt m ^ 2 = (m : ℝ) := Real.sq_sqrt (Nat.cast_nonneg m)
    linear_combination (-(K * h / 2) ^ 2) * h2
  obtain ⟨e, V, e', V', h1, h2, h3⟩ := C99_eigenvalues lib lib' hl hl' hm (Matrix.of fun i k => d k (X i)) D w hw hε hL hG
  exact ⟨D, e, V, e', V', hD, h1, h2, h3⟩

/-! ## Examples -/

/-- One gradient `(2, 0)`, computed as `(2, 1/10)`: `L = 2`, `ε = 1/10`. -/
example : (∀ i : Fin 1, Real.sqrt (∑ k, (!![2, 0] : Matrix (Fin 1) (Fin 2) ℝ) i k ^ 2) ≤ 2) ∧
    ∀ i : Fin 1, Real.sqrt (∑ k, ((!![2, 0] : Matrix (Fin 1) (Fin 2) ℝ) i k - (!![2, 1 / 10] : Matrix (Fin 1) (Fin 2) ℝ) i k) ^ 2)
      ≤ 1 / 10 := by
  constructor <;> intro i <;> fin_cases i <;> rw [Real.sqrt_le_left (by norm_num)] <;> simp [Fin.sum_univ_two] <;> norm_num

/-- Its gap is 4, more than `δ = 41/100`; so the bound on the subspace is `41/359`. -/
example (lib lib' : Model.Subspaces.Lib) (hl : SubLibOK lib) (hl' : SubLibOK lib') :
    ∃ e V e' V', active_subspace lib (.mat (NpMat.of (!![2, 0] : Matrix (Fin 1) (Fin 2) ℝ))) (wcol fun _ : Fin 1 => 1) = .ok ⟨2, e, V⟩ ∧
      active_subspace lib' (.mat (NpMat.of (!![2, 1 / 10] : Matrix (Fin 1) (Fin 2) ℝ))) (wcol fun _ : Fin 1 => 1) = .ok ⟨2, e', V'⟩ ∧
      ∀ y ∈ leakage V V' 1, y ≤ 41 / 359 := by
  obtain ⟨e, V, e', V', h1, h2, h3⟩ := C100_subspace lib lib' hl hl' 1 le_rfl (by norm_num : 1 < 2)
    (!![2, 0] : Matrix (Fin 1) (Fin 2) ℝ) (!![2, 1 / 10] : Matrix (Fin 1) (Fin 2) ℝ) (fun _ => 1) (fun _ => zero_le_one)
    (L := 2) (ε := 1 / 10) (δ := 41 / 100) (by norm_num)
    (by intro i; fin_cases i; rw [Real.sqrt_le_left (by norm_num)]; simp [Fin.sum_univ_two]; try norm_num)
    (by intro i; fin_cases i; rw [Real.sqrt_le_left (by norm_num)]; simp [Fin.sum_univ_two]; try norm_num)
    (by simp; norm_num)
  refine ⟨e, V, e', V', h1, h2, ?_⟩
  obtain ⟨e2, V2, h4, hs⟩ := C34_posSemidef lib hl (by norm_num : 0 < 2) _
    (gradOuter_posSemidef (!![2, 0] : Matrix (Fin 1) (Fin 2) ℝ) (fun _ => 1) fun _ => zero_le_one)
  rw [active_subspace_eq, h4] at h1
  obtain ⟨rfl, rfl⟩ : e2 = e ∧ V2 = V := by
    have := Except.ok.inj h1
    injection this with _ a b
    exact ⟨a, b⟩
  have h5 : IsSortedEigh (gradOuter (!![2, 0] : Matrix (Fin 1) (Fin 2) ℝ) fun _ => 1) ![4, 0] 1 := by
    refine ⟨?_, ?_, ?_, ?_, ?_⟩
    · intro j
      ext i
      fin_cases i <;> fin_cases j <;> simp [gradOuter, Matrix.mulVec, dotProduct, Fin.sum_univ_two, Matrix.one_apply] <;> norm_num
    · intro j k
      fin_cases j <;> fin_cases k <;> simp [Fin.sum_univ_two, Matrix.one_apply]
    · intro j; fin_cases j <;> simp
    · intro i j hij
      fin_cases i <;> fin_cases j <;> simp_all
    · intro i j _
      fin_cases i <;> fin_cases j <;> simp [Matrix.one_apply]
  obtain rfl := (C34_unique hs h5).1
  intro y hy
  refine (h3 (by simp; norm_num) y hy).trans ?_
  simp
  norm_num

/-- The sum of squares, at any points of the cube: `K = 2`, `L = 2 √m`. -/
example (X : Matrix (Fin M) (Fin m) ℝ) (hX : ∀ i k, |X i k| ≤ 1) :
    (∀ (i : Fin M) (k : Fin m), ∀ t ∈ Set.Icc (0 : ℝ) (1 / 10), HasDerivAt (fun t : ℝ => ∑ l, (X i + t • Pi.single k 1 : Fin m → ℝ) l ^ 2)
      (2 * (X i + t • Pi.single k 1 : Fin m → ℝ) k) t) ∧
    (∀ (i : Fin M) (k : Fin m), ∀ t ∈ Set.Icc (0 : ℝ) (1 / 10), |2 * (X i + t • Pi.single k 1 : Fin m → ℝ) k - 2 * X i k| ≤ 2 * t) ∧
    ∀ i, Real.sqrt (∑ k, (2 * X i k) ^ 2) ≤ 2 * Real.sqrt m := by
  refine ⟨fun i k t _ => ?_, fun i k t ht => ?_, fun i => ?_⟩
  · have h : ∀ l, HasDerivAt (fun t : ℝ => (X i + t • Pi.single k 1 : Fin m → ℝ) l ^ 2)
        (2 * (X i + t • Pi.single k 1 : Fin m → ℝ) l * (Pi.single k (1 : ℝ) : Fin m → ℝ) l) t := by
      intro l
      have h1 : HasDerivAt (fun t : ℝ => X i l + t * (Pi.single k (1 : ℝ) : Fin m → ℝ) l)
          ((Pi.single k (1 : ℝ) : Fin m → ℝ) l) t := by
        simpa using ((hasDerivAt_id t).mul_const ((Pi.single k (1 : ℝ) : Fin m → ℝ) l)).const_add (X i l)
      have h2 := h1.pow 2
      refine h2.congr_deriv ?_
      simp
    refine (HasDerivAt.fun_sum fun l _ => h l).congr_deriv ?_
    rw [Finset.sum_eq_single k]
    · simp
    · intro l _ hl
      simp [hl]
    · simp
  · have : 2 * (X i + t • Pi.single k 1 : Fin m → ℝ) k - 2 * X i k = 2 * t := by simp; ring
    rw [this, abs_of_nonneg (by linarith [ht.1])]
  · rw [Real.sqrt_le_left (by positivity), mul_pow, Real.sq_sqrt (Nat.cast_nonneg m)]
    have h1 : ∑ k : Fin m, (2 * X i k) ^ 2 ≤ ∑ _k : Fin m, (4 : ℝ) := Finset.sum_le_sum fun k _ => by
      have := (sq_le_one_iff_abs_le_one _).mpr (hX i k)
      nlinarith
    refine h1.trans (le_of_eq ?_)
    simp
    ring

end Props
