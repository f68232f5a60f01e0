import Verif.Model.RoundedOls
import Verif.Props.LocalRounded
import Verif.Props.RoundedSubspace
import Verif.Props.Regression

/-!
# Property C159: `ols_subspace` in double precision
-/

open Py Matrix Model.Misc Model.Subspaces Spec Proofs.Rounding Proofs.FloatSum
open scoped Matrix.Norms.L2Operator

namespace Props

variable {M m : ℕ}

/-- The eigenvectors of the computed outer product of a vector with itself. -/
theorem rank_one_rounded {rd : ℝ → ℝ} (hr : Rounding rd) {d : Model.Rounded.Dot} (hd : ∀ p n q A B, FloatDot rd A B (d p n q A B))
    {lib : Model.Subspaces.Lib} (ha : ∀ (n : ℕ) (v : Fin n → ℝ), IsArgsort v (lib.argsort n v)) {ε : ℝ}
    (he : ∀ A : Matrix (Fin m) (Fin m) ℝ, StableEigh ε A (lib.eigh m A).1 (lib.eigh m A).2) (hε : 0 ≤ ε) (hm : 0 < m) (g : Fin m → ℝ) {δ : ℝ}
    (hδ : δ = (1 / 2 ^ 53 + ε * (1 + 1 / 2 ^ 53)) * ∑ k, g k ^ 2) :
    ∃ (B : Matrix (Fin m) (Fin m) ℝ) (f e : Fin m → ℝ) (W W' : Matrix (Fin m) (Fin m) ℝ),
      sorted_eigh lib (NpMat.of (d m 1 m (Matrix.of fun i _ => g i) (Matrix.of fun i _ => g i : Matrix (Fin m) (Fin 1) ℝ).transpose)) = .ok ⟨m, e, W⟩ ∧ IsEigh B f W' ∧
      (∀ j, e j = |f j|) ∧ Antitone e ∧ ‖W - W'‖ ≤ ε ∧ ‖B - Matrix.of fun k l => g k * g l‖ ≤ δ := by
  set C : Matrix (Fin m) (Fin m) ℝ := d m 1 m (Matrix.of fun i _ => g i) (Matrix.of fun i _ => g i : Matrix (Fin m) (Fin 1) ℝ).transpose with hC
  set O : Matrix (Fin m) (Fin m) ℝ := Matrix.of fun k l => g k * g l with hO
  have hcode : sorted_eigh lib (NpMat.of C) = .ok (sortedEighMat lib hm C) := by
    unfold sorted_eigh
    rw [dif_pos (show (NpMat.of C).cols = (NpMat.of C).rows from rfl), dif_pos (show 0 < (NpMat.of C).rows from hm)]
    rfl
  change δ = (u + ε * (1 + u)) * ∑ k, g k ^ 2 at hδ
  have hent : ∀ i j, |C i j - O i j| ≤ u * (|g i| * |g j|) := fun i j => by
    have := dot_bound hr (hd m 1 m (Matrix.of fun i _ => g i) (Matrix.of fun i _ => g i : Matrix (Fin m) (Fin 1) ℝ).transpose) i j
    rw [Fin.sum_univ_one, Fin.sum_univ_one, pow_one, add_sub_cancel_left, abs_mul] at this
    exact this
  have htr : ∀ {E : Matrix (Fin m) (Fin m) ℝ} {κ : ℝ}, 0 ≤ κ → (∀ i j, |E i j| ≤ κ * (|g i| * |g j|)) → ‖E‖ ≤ κ * ∑ k, g k ^ 2 := fun {E κ} hκ hE => by
    have := Rounded.norm_le_trace (M := 1) (Matrix.of fun _ l => g l) (fun _ => 1) (fun _ => zero_le_one) hκ (E := E) fun i j => by
      simpa using hE i j
    simpa using this
  have hlow : ‖lower C - O‖ ≤ u * ∑ k, g k ^ 2 := by
    refine htr u_pos.le fun i j => ?_
    rw [Matrix.sub_apply, lower, Matrix.of_apply]
    rcases le_total i j with hij | hij
    · rw [max_eq_right hij, min_eq_left hij, show O i j = O j i from mul_comm _ _, mul_comm |g i|]
      exact hent j i
    · rw [max_eq_left hij, min_eq_right hij]
      exact hent i j
  have hex : ‖O‖ ≤ 1 * ∑ k, g k ^ 2 := htr zero_le_one fun i j => by
    rw [one_mul, hO, Matrix.of_apply, abs_mul]
  obtain ⟨E, Q, hE, hEn, hQ, hVQ⟩ := he C
  obtain ⟨σ, e, W, W', h1, h2, h3, h4, h5⟩ := Rounded.sorted_near ha hm hQ hVQ
  refine ⟨lower C + E, _, e, W, W', by rw [hcode, h1], h4, h2, h3, h5, ?_⟩
  have e1 : lower C + E - O = (lower C - O) + E := by abel
  have e2 : lower C = (lower C - O) + O := by abel
  have h6 : ‖lower C‖ ≤ u * (∑ k, g k ^ 2) + 1 * ∑ k, g k ^ 2 := by
    rw [e2]
    exact (norm_add_le _ _).trans (add_le_add hlow hex)
  have h7 := hEn.trans (mul_le_mul_of_nonneg_left h6 hε)
  rw [e1]
  refine (norm_add_le _ _).trans ((add_le_add hlow h7).trans (le_of_eq ?_))
  rw [hδ]
  ring

/-- The slope that `ols_subspace` computes. -/
theorem olsFit_close {rd : ℝ → ℝ} (hr : Rounding rd) {lstsq : Model.Rounded.Lstsq} {η : ℝ} (hsol : ∀ r c A b, StableLstsq η A b (lstsq r c A b))
    (X : Matrix (Fin M) (Fin m) ℝ) (f w : Fin M → ℝ) {σ ξ φ ρ γ a : ℝ} (v : Fin m → ℝ)
    (hγ : γ = (1 + η) * (1 + 1 / 2 ^ 53) ^ 2 - 1) (hσ : 0 < σ)
    (hcond : ∀ (b : ℝ) (z : Fin m → ℝ), σ * (|b| + ∑ j, |z j|) ≤ Real.sqrt (∑ i, (Real.sqrt (w i) * (b + ∑ j, X i j * z j)) ^ 2))
    (hξ1 : ∀ i, Real.sqrt (w i) ≤ ξ) (hξ : ∀ i j, Real.sqrt (w i) * |X i j| ≤ ξ) (hφ : ∀ i, Real.sqrt (w i) * |f i| ≤ φ)
    (hρ : ∀ i, Real.sqrt (w i) * |a + ∑ j, X i j * v j - f i| ≤ ρ) (hsmall : Real.sqrt M * (γ * ξ) ≤ σ / 2) :
    ∑ j, |Model.Rounded.olsFit rd lstsq X f w (Fin.natAdd 1 j) - v j| ≤ 2 * Real.sqrt M / σ * (ρ + γ * (ξ * (|a| + ∑ j, |v j|) + φ)) := by
  unfold Model.Rounded.olsFit
  set A : Matrix (Fin M) (Fin (1 + m)) ℝ := Matrix.of fun i j => rd (Np.hstack (Np.ones M 1) X i j * rd (Real.sqrt (w i))) with hA
  set b : Fin M → ℝ := fun i => rd (f i * rd (Real.sqrt (w i))) with hb
  set x := lstsq M (1 + m) A b with hx
  change γ = (1 + η) * (1 + u) ^ 2 - 1 at hγ
  set H : Matrix (Fin M) (Fin (1 + m)) ℝ := Np.hstack (Np.ones M 1) X with hH
  have hHl : ∀ k, H k (Fin.castAdd m 0) = 1 := fun k => by rw [hH, Np.hstack_castAdd]; rfl
  have hHr : ∀ k j, H k (Fin.natAdd 1 j) = X k j := fun k j => by rw [hH, Np.hstack_natAdd]
  have hq0 : ∀ i, 0 ≤ Real.sqrt (w i) := fun i => Real.sqrt_nonneg _
  have hqn : ∀ i, Proofs.Near.Near 1 (rd (Real.sqrt (w i))) (Real.sqrt (w i)) (Real.sqrt (w i)) := fun i => by
    have := (Proofs.Near.refl (le_of_eq (abs_of_nonneg (hq0 i)))).round hr
    simpa using this
  have hAe : ∀ k t, Proofs.Near.Near 2 (A k t) (H k t * Real.sqrt (w k)) (|H k t| * Real.sqrt (w k)) := fun k t => by
    have := ((Proofs.Near.refl (le_refl |H k t|)).mul (hqn k)).round hr
    rw [zero_add] at this
    exact this
  have hHξ : ∀ k t, |H k t| * Real.sqrt (w k) ≤ ξ := fun k t => by
    refine Fin.addCases (fun i => ?_) (fun j => ?_) t
    · rw [Subsingleton.elim i 0, hHl, abs_one, one_mul]; exact hξ1 k
    · rw [hHr, mul_comm]; exact hξ k j
  have hbe : ∀ k, Proofs.Near.Near 2 (b k) (f k * Real.sqrt (w k)) (|f k| * Real.sqrt (w k)) := fun k => by
    have := ((Proofs.Near.refl (le_refl |f k|)).mul (hqn k)).round hr
    rw [zero_add] at this
    exact this
  have hfφ : ∀ k, |f k| * Real.sqrt (w k) ≤ φ := fun k => by rw [mul_comm]; exact hφ k
  have hu2 := one_le_pow 2
  obtain ⟨E, d, hE, hd, hmin⟩ := hsol M (1 + m) A b
  have hE' := hE ((1 + u) ^ 2 * ξ) fun k t => (hAe k t).abs_le.trans (mul_le_mul_of_nonneg_left (hHξ k t) (by linarith))
  have hd' := hd ((1 + u) ^ 2 * φ) fun k => (hbe k).abs_le.trans (mul_le_mul_of_nonneg_left (hfφ k) (by linarith))
  have hA' : ∀ k t, |(Matrix.of fun k t => H k t * Real.sqrt (w k) : Matrix (Fin M) (Fin (1 + m)) ℝ) k t - (A + E) k t| ≤ γ * ξ := fun k t => by
    have e : (Matrix.of fun k t => H k t * Real.sqrt (w k) : Matrix (Fin M) (Fin (1 + m)) ℝ) k t - (A + E) k t = -((A k t - H k t * Real.sqrt (w k)) + E k t) := by
      rw [Matrix.add_apply, Matrix.of_apply]
      ring
    rw [e, abs_neg, hγ]
    refine (abs_add_le _ _).trans ((add_le_add ((hAe k t).err.trans (mul_le_mul_of_nonneg_left (hHξ k t) (by linarith))) (hE' k t)).trans (le_of_eq ?_))
    ring
  have hb' : ∀ k, |f k * Real.sqrt (w k) - (b + d) k| ≤ γ * φ := fun k => by
    have e : f k * Real.sqrt (w k) - (b + d) k = -((b k - f k * Real.sqrt (w k)) + d k) := by
      rw [Pi.add_apply]
      ring
    rw [e, abs_neg, hγ]
    refine (abs_add_le _ _).trans ((add_le_add ((hbe k).err.trans (mul_le_mul_of_nonneg_left (hfφ k) (by linarith))) (hd' k)).trans (le_of_eq ?_))
    ring
  have hrow : ∀ (z : Fin (1 + m) → ℝ) k, ∑ t, (Matrix.of fun k t => H k t * Real.sqrt (w k) : Matrix (Fin M) (Fin (1 + m)) ℝ) k t * z t
      = Real.sqrt (w k) * (z (Fin.castAdd m 0) + ∑ j, X k j * z (Fin.natAdd 1 j)) := fun z k => by
    rw [Fin.sum_univ_add, Fin.sum_univ_one, mul_add, Finset.mul_sum]
    simp only [Matrix.of_apply, hHl, hHr, one_mul]
    congr 1
    exact Finset.sum_congr rfl fun j _ => by ring
  have hone : ∀ z : Fin (1 + m) → ℝ, ∑ t, |z t| = |z (Fin.castAdd m 0)| + ∑ j, |z (Fin.natAdd 1 j)| := fun z => by
    rw [Fin.sum_univ_add, Fin.sum_univ_one]
  have hmain := lstsq_close hmin (b := fun k => f k * Real.sqrt (w k)) hA' hb' hσ (fun z => by
    simp only [hrow]
    rw [hone]
    exact hcond _ _) hsmall (Fin.append (fun _ : Fin 1 => a) v)
  have e2 : ∀ k, ∑ t, (Matrix.of fun k t => H k t * Real.sqrt (w k) : Matrix (Fin M) (Fin (1 + m)) ℝ) k t * (Fin.append (fun _ : Fin 1 => a) v) t - f k * Real.sqrt (w k)
      = Real.sqrt (w k) * (a + ∑ j, X k j * v j - f k) := fun k => by
    rw [hrow]
    simp only [Fin.append_left, Fin.append_right]
    ring
  simp only [e2] at hmain
  rw [hone, hone] at hmain
  simp only [Fin.append_left, Fin.append_right] at hmain
  have hres : Real.sqrt (∑ k, (Real.sqrt (w k) * (a + ∑ j, X k j * v j - f k)) ^ 2) ≤ Real.sqrt M * ρ := by
    have := length_near (a := fun k => Real.sqrt (w k) * (a + ∑ j, X k j * v j - f k)) (b := fun _ => 0) (t := ρ) fun k => by
      rw [sub_zero, abs_mul, abs_of_nonneg (hq0 k)]
      exact hρ k
    simpa using this
  have h5 := le_trans (by linarith [abs_nonneg (x (Fin.castAdd m 0) - a)] : ∑ j, |x (Fin.natAdd 1 j) - v j| ≤ _) hmain
  refine h5.trans ?_
  have e3 : 2 * Real.sqrt M / σ * (ρ + γ * (ξ * (|a| + ∑ j, |v j|) + φ))
      = 2 / σ * (Real.sqrt M * ρ + Real.sqrt M * (γ * ξ * (|a| + ∑ j, |v j|) + γ * φ)) := by
    field_simp
  rw [e3]
  exact mul_le_mul_of_nonneg_left (by linarith) (by positivity)

theorem length_close {n : ℕ} {g v : Fin n → ℝ} {κ : ℝ} (h : ∑ j, |g j - v j| ≤ κ) :
    Real.sqrt (∑ j, (g j - v j) ^ 2) ≤ κ ∧ |Real.sqrt (∑ j, g j ^ 2) - Real.sqrt (∑ j, v j ^ 2)| ≤ κ := by
  have h0 : 0 ≤ ∑ j, |g j - v j| := Finset.sum_nonneg fun _ _ => abs_nonneg _
  have h1 : Real.sqrt (∑ j, (g j - v j) ^ 2) ≤ κ := by
    refine (Real.sqrt_le_left (h0.trans h)).mpr ?_
    calc ∑ j, (g j - v j) ^ 2 = ∑ j, |g j - v j| ^ 2 := Finset.sum_congr rfl fun j _ => (sq_abs _).symm
      _ ≤ (∑ j, |g j - v j|) ^ 2 := Finset.sum_sq_le_sq_sum_of_nonneg fun j _ => abs_nonneg _
      _ ≤ κ ^ 2 := pow_le_pow_left₀ h0 h 2
  refine ⟨h1, ?_⟩
  have key : ∀ x : Fin n → ℝ, Real.sqrt (∑ i, x i ^ 2) = ‖WithLp.toLp 2 x‖ := fun x => by
    rw [EuclideanSpace.norm_eq]
    simp
  rw [key] at h1
  rw [key, key]
  refine (abs_norm_sub_norm_le _ _).trans (le_trans (le_of_eq ?_) h1)
  rfl

/-- **C159.** `ols_subspace` in double precision with backward stable solvers.  For every affine function `a + v x` near the data, the first eigenvalue is near the
squared length of `v`, the others are small, and the first eigenvector is nearly parallel to `v`. -/
theorem C159_ols {rd : ℝ → ℝ} (hr : Rounding rd) {d : Model.Rounded.Dot} (hd : ∀ p n q A B, FloatDot rd A B (d p n q A B))
    {lib : Model.Subspaces.Lib} (ha : ∀ (n : ℕ) (v : Fin n → ℝ), IsArgsort v (lib.argsort n v)) {ε η : ℝ}
    (he : ∀ A : Matrix (Fin m) (Fin m) ℝ, StableEigh ε A (lib.eigh m A).1 (lib.eigh m A).2) (hε : 0 ≤ ε)
    {lstsq : Model.Rounded.Lstsq} (hsol : ∀ r c A b, StableLstsq η A b (lstsq r c A b)) (hm : 0 < m) (X : Matrix (Fin M) (Fin m) ℝ) (f w : Fin M → ℝ) :
    ∃ (e : Fin m → ℝ) (W : Matrix (Fin m) (Fin m) ℝ), Model.Rounded.ols_subspace rd d lstsq lib X f w = .ok ⟨m, e, W⟩ ∧ Antitone e ∧ (∀ j, 0 ≤ e j) ∧
      ∀ (σ ξ φ ρ γ a κ L δ : ℝ) (v : Fin m → ℝ), γ = (1 + η) * (1 + 1 / 2 ^ 53) ^ 2 - 1 → 0 < σ →
        (∀ (b : ℝ) (z : Fin m → ℝ), σ * (|b| + ∑ j, |z j|) ≤ Real.sqrt (∑ i, (Real.sqrt (w i) * (b + ∑ j, X i j * z j)) ^ 2)) →
        (∀ i, Real.sqrt (w i) ≤ ξ) → (∀ i j, Real.sqrt (w i) * |X i j| ≤ ξ) → (∀ i, Real.sqrt (w i) * |f i| ≤ φ) →
        (∀ i, Real.sqrt (w i) * |a + ∑ j, X i j * v j - f i| ≤ ρ) → Real.sqrt M * (γ * ξ) ≤ σ / 2 →
        κ = 2 * Real.sqrt M / σ * (ρ + γ * (ξ * (|a| + ∑ j, |v j|) + φ)) → L = Real.sqrt (∑ j, v j ^ 2) →
        δ = (1 / 2 ^ 53 + ε * (1 + 1 / 2 ^ 53)) * (L + κ) ^ 2 →
        |e ⟨0, hm⟩ - L ^ 2| ≤ δ + κ * (2 * L + κ) ∧ (∀ j : Fin m, (j : ℕ) ≠ 0 → e j ≤ δ) ∧
        ∀ z : Fin m → ℝ, ∑ i, z i * v i = 0 →
          e ⟨0, hm⟩ * |∑ i, z i * W i ⟨0, hm⟩| ≤ (δ + κ * (L + κ) + ε * e ⟨0, hm⟩) * Real.sqrt (∑ i, z i ^ 2) := by
  set g : Fin m → ℝ := fun j => Model.Rounded.olsFit rd lstsq X f w (Fin.natAdd 1 j) with hg
  obtain ⟨B, lam, e, W, W', hrun, hB, habs, hanti, hWW, hBO⟩ := rank_one_rounded hr hd ha he hε hm g rfl
  obtain ⟨lib', hl'⟩ := subLibOK_exists
  obtain ⟨e', V, -, hs⟩ := C34_posSemidef lib' hl' hm _ (rank_one_posSemidef g)
  obtain ⟨r1, r2, -⟩ := rank_one hm hs
  have hclose := (Rounded.abs_eig_close hB hs habs hanti hBO).1
  refine ⟨e, W, hrun, hanti, fun j => by rw [habs]; exact abs_nonneg _, fun σ ξ φ ρ γ a κ L δ v hγ hσ hcond hξ1 hξ hφ hρ hsmall hκ hL hδ => ?_⟩
  have hgv : ∑ j, |g j - v j| ≤ κ := hκ ▸ olsFit_close hr hsol X f w v hγ hσ hcond hξ1 hξ hφ hρ hsmall
  obtain ⟨l1, l2⟩ := length_close hgv
  have hκ0 : 0 ≤ κ := (Finset.sum_nonneg fun _ _ => abs_nonneg _).trans hgv
  have hL0 : 0 ≤ L := hL ▸ Real.sqrt_nonneg _
  set G := Real.sqrt (∑ j, g j ^ 2) with hG
  have hG0 : 0 ≤ G := Real.sqrt_nonneg _
  have hG2 : G ^ 2 = ∑ j, g j ^ 2 := Real.sq_sqrt (Finset.sum_nonneg fun _ _ => sq_nonneg _)
  rw [← hL] at l2
  have hGL : G ≤ L + κ := by linarith [(abs_le.mp l2).2]
  set δ' := (1 / 2 ^ 53 + ε * (1 + 1 / 2 ^ 53)) * ∑ k, g k ^ 2 with hδ'
  have hδδ : δ' ≤ δ := by
    rw [hδ', hδ, ← hG2]
    exact mul_le_mul_of_nonneg_left (pow_le_pow_left₀ hG0 hGL 2) (by positivity)
  refine ⟨?_, fun j hj => ?_, fun z hz => ?_⟩
  · have h1 := hclose ⟨0, hm⟩
    rw [r1, ← hG2] at h1
    have h2 : |G ^ 2 - L ^ 2| ≤ κ * (2 * L + κ) := by
      have : G ^ 2 - L ^ 2 = (G - L) * (G + L) := by ring
      rw [this, abs_mul, abs_of_nonneg (by linarith : 0 ≤ G + L)]
      exact mul_le_mul l2 (by linarith) (by linarith) hκ0
    have : e ⟨0, hm⟩ - L ^ 2 = (e ⟨0, hm⟩ - G ^ 2) + (G ^ 2 - L ^ 2) := by ring
    rw [this]
    exact (abs_add_le _ _).trans (add_le_add (h1.trans hδδ) h2)
  · have h1 := hclose j
    rw [r2 j hj, sub_zero] at h1
    exact (le_abs_self _).trans (h1.trans hδδ)
  · set o : Fin m := ⟨0, hm⟩ with ho
    set Z := Real.sqrt (∑ i, z i ^ 2) with hZ
    have hZ0 : 0 ≤ Z := Real.sqrt_nonneg _
    have hunit : ∑ i, W' i o ^ 2 = 1 := by
      have := congrFun (congrFun hB.orth o) o
      rw [Matrix.mul_apply, Matrix.one_apply_eq] at this
      rw [← this]
      exact Finset.sum_congr rfl fun i _ => by rw [transpose_apply, sq]
    have hvec : ∀ i, ∑ j, B i j * W' j o = lam o * W' i o := fun i => by
      have := congrFun (congrFun hB.vecs i) o
      rw [Matrix.mul_apply, Matrix.mul_diagonal] at this
      rw [this, mul_comm]
    have n1 := Rounded.norm_apply hBO (c := fun i => W' i o) hunit.le
    have c1 := (abs_dot_le z fun i => ∑ j, (B - Matrix.of fun k l => g k * g l) i j * W' j o).trans (mul_le_mul_of_nonneg_left n1 hZ0)
    have c2 : |∑ i, z i * g i| ≤ Z * κ := by
      have : ∑ i, z i * g i = ∑ i, z i * (g i - v i) := by
        simp only [mul_sub, Finset.sum_sub_distrib, hz, sub_zero]
      rw [this]
      exact (abs_dot_le _ _).trans (mul_le_mul_of_nonneg_left l1 hZ0)
    have c3 : |∑ j, g j * W' j o| ≤ L + κ := by
      have := abs_dot_le g fun j => W' j o
      rw [hunit, Real.sqrt_one, mul_one] at this
      exact this.trans hGL
    have e1 : lam o * ∑ i, z i * W' i o = ∑ i, z i * (∑ j, (B - Matrix.of fun k l => g k * g l) i j * W' j o) + (∑ i, z i * g i) * ∑ j, g j * W' j o := by
      rw [Finset.mul_sum, Finset.sum_mul, ← Finset.sum_add_distrib]
      refine Finset.sum_congr rfl fun i _ => ?_
      have : ∑ j, (B - Matrix.of fun k l => g k * g l) i j * W' j o = lam o * W' i o - g i * ∑ j, g j * W' j o := by
        rw [← hvec, Finset.mul_sum, ← Finset.sum_sub_distrib]
        refine Finset.sum_congr rfl fun j _ => ?_
        rw [Matrix.sub_apply, Matrix.of_apply]
        ring
      rw [this]
      ring
    have h1 : e o * |∑ i, z i * W' i o| ≤ Z * δ + Z * κ * (L + κ) := by
      rw [habs, ← abs_mul, e1]
      refine (abs_add_le _ _).trans (add_le_add (c1.trans (mul_le_mul_of_nonneg_left hδδ hZ0)) ?_)
      rw [abs_mul]
      exact mul_le_mul c2 c3 (abs_nonneg _) (mul_nonneg hZ0 hκ0)
    have h2 : |∑ i, z i * W i o - ∑ i, z i * W' i o| ≤ Z * ε := by
      have n2 := Rounded.norm_apply hWW (c := Pi.single o 1) (by
        rw [Finset.sum_eq_single o (fun i _ hi => by rw [Pi.single_eq_of_ne hi]; norm_num) (fun h => absurd (Finset.mem_univ _) h), Pi.single_eq_same]
        norm_num)
      have e2 : ∀ j, ∑ i, (W - W') j i * (Pi.single o 1 : Fin m → ℝ) i = W j o - W' j o := fun j => by
        rw [Finset.sum_eq_single o (fun i _ hi => by rw [Pi.single_eq_of_ne hi, mul_zero]) (fun h => absurd (Finset.mem_univ _) h), Pi.single_eq_same, mul_one, Matrix.sub_apply]
      simp only [e2] at n2
      have := (abs_dot_le z fun j => W j o - W' j o).trans (mul_le_mul_of_nonneg_left n2 hZ0)
      rwa [show ∑ i, z i * (W i o - W' i o) = ∑ i, z i * W i o - ∑ i, z i * W' i o by simp only [mul_sub, Finset.sum_sub_distrib]] at this
    have h3 : |∑ i, z i * W i o| ≤ |∑ i, z i * W' i o| + Z * ε := by
      have := abs_sub_abs_le_abs_sub (∑ i, z i * W i o) (∑ i, z i * W' i o)
      linarith
    have he0 : 0 ≤ e o := by rw [habs]; exact abs_nonneg _
    calc e o * |∑ i, z i * W i o| ≤ e o * (|∑ i, z i * W' i o| + Z * ε) := mul_le_mul_of_nonneg_left h3 he0
      _ = e o * |∑ i, z i * W' i o| + ε * e o * Z := by ring
      _ ≤ (Z * δ + Z * κ * (L + κ)) + ε * e o * Z := by linarith
      _ = _ := by ring

/-- Libraries that keep the contracts. -/
example : ∃ (rd : ℝ → ℝ) (d : Model.Rounded.Dot) (lib : Model.Subspaces.Lib) (lstsq : Model.Rounded.Lstsq), Rounding rd ∧ (∀ p n q A B, FloatDot rd A B (d p n q A B)) ∧
    (∀ (n : ℕ) (v : Fin n → ℝ), IsArgsort v (lib.argsort n v)) ∧
    (∀ A : Matrix (Fin 2) (Fin 2) ℝ, StableEigh (1 / 2 ^ 40) A (lib.eigh 2 A).1 (lib.eigh 2 A).2) ∧ ∀ r c A b, StableLstsq (1 / 2 ^ 40) A b (lstsq r c A b) := by
  obtain ⟨rd, d, lib, hr, hd, ha, he⟩ := Rounded.contracts_exist
  obtain ⟨lstsq, hl⟩ := Proofs.LeastSquares.lstsqContract_satisfiable
  refine ⟨rd, d, lib, fun r c A b => lstsq A b, hr, hd, ha, he 2 _ (by positivity), fun r c A b => ⟨0, 0, fun Λ hΛ i j => ?_, fun Λ hΛ i => ?_, ?_⟩⟩
  · rw [Matrix.zero_apply, abs_zero]
    exact mul_nonneg (by positivity) ((abs_nonneg _).trans (hΛ i j))
  · rw [Pi.zero_apply, abs_zero]
    exact mul_nonneg (by positivity) ((abs_nonneg _).trans (hΛ i))
  · rw [add_zero, add_zero]
    exact (hl A b).1

/-- Two points with weights one: the values -1 and 1 at -1 and 1 are those of `x`, and the first eigenvalue is one to ten digits. -/
example {rd : ℝ → ℝ} (hr : Rounding rd) {d : Model.Rounded.Dot} (hd : ∀ p n q A B, FloatDot rd A B (d p n q A B))
    {lib : Model.Subspaces.Lib} (ha : ∀ (n : ℕ) (v : Fin n → ℝ), IsArgsort v (lib.argsort n v))
    (he : ∀ A : Matrix (Fin 1) (Fin 1) ℝ, StableEigh (1 / 2 ^ 40) A (lib.eigh 1 A).1 (lib.eigh 1 A).2)
    {lstsq : Model.Rounded.Lstsq} (hsol : ∀ r c A b, StableLstsq (1 / 2 ^ 40) A b (lstsq r c A b)) :
    ∃ e W, Model.Rounded.ols_subspace rd d lstsq lib (Matrix.of ![![-1], ![1]] : Matrix (Fin 2) (Fin 1) ℝ) ![-1, 1] (fun _ => 1) = .ok ⟨1, e, W⟩ ∧ |e 0 - 1| ≤ 1 / 10 ^ 10 := by
  obtain ⟨e, W, h, -, -, H⟩ := C159_ols hr hd ha he (by positivity) hsol (by norm_num : 0 < 1) (Matrix.of ![![-1], ![1]] : Matrix (Fin 2) (Fin 1) ℝ) ![-1, 1] (fun _ => 1)
  refine ⟨e, W, h, ?_⟩
  have h2 : Real.sqrt (2 : ℕ) ≤ 2 := by
    rw [Real.sqrt_le_left (by norm_num)]
    norm_num
  have h20 : 0 ≤ Real.sqrt (2 : ℕ) := Real.sqrt_nonneg _
  set γ : ℝ := (1 + 1 / 2 ^ 40) * (1 + 1 / 2 ^ 53) ^ 2 - 1 with hγ
  have hγ0 : 0 ≤ γ := by rw [hγ]; norm_num
  have hγ1 : γ ≤ 1 / 2 ^ 39 := by rw [hγ]; norm_num
  have hsγ : Real.sqrt (2 : ℕ) * γ ≤ 2 * (1 / 2 ^ 39) := mul_le_mul h2 hγ1 hγ0 (by norm_num)
  obtain ⟨h1, -⟩ := H 1 1 1 0 γ 0 (2 * Real.sqrt (2 : ℕ) / 1 * (0 + γ * (1 * (|0| + ∑ j : Fin 1, |(1 : ℝ)|) + 1))) 1 _ (fun _ => 1) rfl one_pos
    (fun b z => by
      refine Real.le_sqrt_of_sq_le ?_
      simp [Fin.sum_univ_two]
      have h1 := sq_abs b
      have h2 := sq_abs (z 0)
      nlinarith [sq_nonneg (|b| - |z 0|)])
    (fun i => by simp) (fun i j => by fin_cases i <;> fin_cases j <;> simp) (fun i => by fin_cases i <;> simp)
    (fun i => by fin_cases i <;> simp) (by rw [mul_one]; exact hsγ.trans (by norm_num)) rfl (by simp) rfl
  simp only [Finset.univ_unique, Finset.sum_singleton, abs_one, abs_zero, zero_add, one_mul, div_one] at h1
  set κ := 2 * Real.sqrt (2 : ℕ) * (γ * (1 + 1)) with hκ
  have hκ0 : 0 ≤ κ := by positivity
  have hκ1 : κ ≤ 8 / 2 ^ 39 := by
    calc κ = 4 * (Real.sqrt (2 : ℕ) * γ) := by rw [hκ]; ring
      _ ≤ 4 * (2 * (1 / 2 ^ 39)) := mul_le_mul_of_nonneg_left hsγ (by norm_num)
      _ = 8 / 2 ^ 39 := by norm_num
  have e1 : (⟨0, by norm_num⟩ : Fin 1) = 0 := rfl
  rw [e1, one_pow] at h1
  refine h1.trans ?_
  have h3 : (1 + κ) ^ 2 ≤ 2 := by nlinarith
  have h4 : κ * (2 * 1 + κ) ≤ 8 / 2 ^ 39 * 3 := mul_le_mul hκ1 (by linarith) (by linarith) (by positivity)
  have h5 := mul_le_mul_of_nonneg_left h3 (by positivity : (0 : ℝ) ≤ 1 / 2 ^ 53 + 1 / 2 ^ 40 * (1 + 1 / 2 ^ 53))
  refine (add_le_add h5 h4).trans ?_
  norm_num

end Props
