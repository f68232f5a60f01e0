import Verif.Props.ActiveSubspace

/-!
# Property C36: the subspace of a global linear model
-/

open Py Model.Subspaces Model.Misc Spec Matrix Proofs.Eigh

namespace Props

variable {M m : ℕ}

theorem rank_one (hm : 0 < m) {s e : Fin m → ℝ} {W : Matrix (Fin m) (Fin m) ℝ}
    (h : IsSortedEigh (Matrix.of fun k l => s k * s l) e W) :
    e ⟨0, hm⟩ = ∑ k, s k ^ 2 ∧ (∀ j : Fin m, (j : ℕ) ≠ 0 → e j = 0) ∧
      ∃ c : ℝ, c ^ 2 = ∑ k, s k ^ 2 ∧ ∀ i, s i = c * W i ⟨0, hm⟩ := by
  set c : Fin m → ℝ := fun j => ∑ i, s i * W i j with hc
  have hv : ∀ j i, s i * c j = e j * W i j := by
    intro j i
    have := congrFun (h.vec j) i
    rw [Pi.smul_apply, smul_eq_mul] at this
    rw [← this, Matrix.mulVec, dotProduct, hc, Finset.mul_sum]
    exact Finset.sum_congr rfl fun l _ => by rw [Matrix.of_apply, mul_assoc]
  have hsq : ∀ j, c j ^ 2 = e j := by
    intro j
    have h1 : ∑ i, s i * c j * W i j = ∑ i, e j * W i j * W i j := Finset.sum_congr rfl fun i _ => by rw [hv j i]
    have h2 : ∑ i, s i * c j * W i j = c j ^ 2 := by
      rw [sq, hc, Finset.mul_sum]
      exact Finset.sum_congr rfl fun i _ => by ring
    have h3 : ∑ i, e j * W i j * W i j = e j := by
      have := h.orth j j
      rw [if_pos rfl] at this
      rw [Finset.sum_congr rfl fun i _ => mul_assoc (e j) (W i j) (W i j), ← Finset.mul_sum, this, mul_one]
    rw [← h2, h1, h3]
  have hz : ∀ j : Fin m, (j : ℕ) ≠ 0 → e j = 0 := by
    intro j hj
    by_contra hne
    have hpos : 0 < e j := lt_of_le_of_ne (h.nonneg j) (Ne.symm hne)
    have hpos0 : 0 < e ⟨0, hm⟩ := lt_of_lt_of_le hpos (h.anti (Fin.le_def.mpr (Nat.zero_le _)))
    have hc0 : c ⟨0, hm⟩ ≠ 0 := fun h0 => by
      have := hsq ⟨0, hm⟩
      rw [h0] at this
      norm_num at this
      exact hpos0.ne this
    have hcj : c j ≠ 0 := fun h0 => by
      have := hsq j
      rw [h0] at this
      norm_num at this
      exact hpos.ne this
    have h1 : ∑ i, (s i * c ⟨0, hm⟩) * W i j = 0 := by
      have := h.orth ⟨0, hm⟩ j
      rw [if_neg (fun hh => hj (congrArg Fin.val hh).symm)] at this
      rw [Finset.sum_congr rfl fun i _ => by rw [hv, mul_assoc], ← Finset.mul_sum, this, mul_zero]
    have h2 : ∑ i, (s i * c ⟨0, hm⟩) * W i j = c ⟨0, hm⟩ * c j := by
      rw [show c j = ∑ i, s i * W i j from rfl, Finset.mul_sum]
      exact Finset.sum_congr rfl fun i _ => by ring
    rw [h1] at h2
    rcases mul_eq_zero.mp h2.symm with h | h
    · exact hc0 h
    · exact hcj h
  have hWW : W * W.transpose = 1 := mul_eq_one_comm.mp (orth_of_entry h.orth)
  have hexp : ∀ i, s i = c ⟨0, hm⟩ * W i ⟨0, hm⟩ := by
    intro i
    have h1 : (W * W.transpose).mulVec s i = s i := by rw [hWW, Matrix.one_mulVec]
    rw [← Matrix.mulVec_mulVec] at h1
    have h2 : W.transpose.mulVec s = c := by
      funext j
      rw [Matrix.mulVec, dotProduct]
      exact Finset.sum_congr rfl fun i _ => by rw [Matrix.transpose_apply, mul_comm]
    rw [h2] at h1
    rw [← h1, Matrix.mulVec, dotProduct, Finset.sum_eq_single ⟨0, hm⟩ ?_ (fun h => absurd (Finset.mem_univ _) h), mul_comm]
    intro j _ hj
    have : c j ^ 2 = 0 := (hsq j).trans (hz j fun h => hj (Fin.ext h))
    rw [pow_eq_zero_iff (by norm_num)] at this
    rw [this, mul_zero]
  have hsum : c ⟨0, hm⟩ ^ 2 = ∑ k, s k ^ 2 := by
    have := h.orth ⟨0, hm⟩ ⟨0, hm⟩
    rw [if_pos rfl] at this
    calc c ⟨0, hm⟩ ^ 2 = c ⟨0, hm⟩ ^ 2 * ∑ i, W i ⟨0, hm⟩ * W i ⟨0, hm⟩ := by rw [this, mul_one]
      _ = ∑ k, s k ^ 2 := by
          rw [Finset.mul_sum]
          exact Finset.sum_congr rfl fun k _ => by rw [hexp k]; ring
  exact ⟨by rw [← hsq, hsum], hz, _, hsum, hexp⟩

theorem rank_one_posSemidef (s : Fin m → ℝ) : (Matrix.of fun k l => s k * s l : Matrix (Fin m) (Fin m) ℝ).PosSemidef := by
  have := gradOuter_posSemidef (M := 1) (Matrix.of fun _ => s) (fun _ => 1) fun _ => zero_le_one
  convert this using 1
  ext k l
  simp [gradOuter]

theorem process_col (X : Matrix (Fin M) (Fin m) ℝ) (f : Fin M → ℝ) :
    process_inputs_outputs (.mat (NpMat.of X)) (.mat (wcol f)) = .ok ⟨NpMat.of X, wcol f⟩ := by
  unfold process_inputs_outputs process_inputs
  simp [wcol]

theorem ols_eq (lib : Model.Subspaces.Lib) (X : Matrix (Fin M) (Fin m) ℝ) (f w : Fin M → ℝ) :
    ∃ u : Fin (1 + m) → ℝ, u = lib.surf.lstsq M (1 + m)
        (Matrix.of fun i j => Np.hstack (Np.ones M 1) X i j * Real.sqrt (w i)) (fun i => f i * Real.sqrt (w i)) ∧
      ols_subspace lib (.mat (NpMat.of X)) (.mat (wcol f)) (wcol w)
        = sorted_eigh lib (NpMat.of (Matrix.of fun k l => u (Fin.natAdd 1 k) * u (Fin.natAdd 1 l))) := by
  refine ⟨_, rfl, ?_⟩
  unfold ols_subspace
  rw [process_col]
  change (do
    let A ← NpMat.zipB (· * ·) (NpMat.of (Np.hstack (Np.ones M 1) X)) (wcol fun i => Real.sqrt (w i))
    let b ← NpMat.zipB (· * ·) (wcol f) (wcol fun i => Real.sqrt (w i))
    if h : A.cols = 1 + m ∧ b.cols = 1 then
      let u ← lstsqCol lib A b
      let w : Matrix (Fin m) (Fin 1) ℝ := Matrix.of fun i _ => u (Fin.cast h.1.symm (Fin.natAdd 1 i))
      sorted_eigh lib (NpMat.of (w * w.transpose))
    else .error .valueError) = _
  rw [zipB_wcol]
  have hb : NpMat.zipB (· * ·) (wcol f) (wcol fun i => Real.sqrt (w i)) = .ok (wcol fun i => f i * Real.sqrt (w i)) := by
    rw [wcol, zipB_wcol]
    rfl
  rw [hb]
  change (if h : 1 + m = 1 + m ∧ 1 = 1 then
      (do
        let u ← lstsqCol lib (NpMat.of (Matrix.of fun i j => Np.hstack (Np.ones M 1) X i j * Real.sqrt (w i)))
          (wcol fun i => f i * Real.sqrt (w i))
        let w : Matrix (Fin m) (Fin 1) ℝ := Matrix.of fun i _ => u (Fin.cast h.1.symm (Fin.natAdd 1 i))
        sorted_eigh lib (NpMat.of (w * w.transpose)))
    else .error .valueError) = _
  rw [dif_pos ⟨rfl, rfl⟩]
  have hls : lstsqCol lib (NpMat.of (Matrix.of fun i j => Np.hstack (Np.ones M 1) X i j * Real.sqrt (w i)))
      (wcol fun i => f i * Real.sqrt (w i)) = .ok (lib.surf.lstsq M (1 + m)
        (Matrix.of fun i j => Np.hstack (Np.ones M 1) X i j * Real.sqrt (w i)) (fun i => f i * Real.sqrt (w i))) := by
    unfold lstsqCol
    refine (dif_pos rfl).trans ?_
    congr 2
    funext i
    exact NpMat.get_of (Matrix.of fun i (_ : Fin 1) => f i * Real.sqrt (w i)) i 0
  rw [hls]
  change sorted_eigh lib _ = _
  congr 2
  ext k l
  rw [Matrix.mul_apply, Fin.sum_univ_one]
  rfl

theorem hstack_mulVec (X : Matrix (Fin M) (Fin m) ℝ) (w : Fin M → ℝ) (v : Fin (1 + m) → ℝ) (i : Fin M) :
    (Matrix.of fun i j => Np.hstack (Np.ones M 1) X i j * Real.sqrt (w i)).mulVec v i
      = Real.sqrt (w i) * (v (Fin.castAdd m 0) + ∑ k, X i k * v (Fin.natAdd 1 k)) := by
  rw [Matrix.mulVec, dotProduct, Fin.sum_univ_add, Fin.sum_univ_one]
  simp only [Matrix.of_apply, Np.hstack_castAdd, Np.hstack_natAdd, Np.ones]
  rw [mul_add, Finset.mul_sum]
  congr 1
  · ring
  · exact Finset.sum_congr rfl fun k _ => by ring

/-- C36: the eigenvalues are the squared length of the slope of a weighted least-squares fit and zeros; the slope is a
multiple of the first eigenvector. -/
theorem C36_ols (lib : Model.Subspaces.Lib) (hl : SubLibOK lib) (hm : 0 < m) (X : Matrix (Fin M) (Fin m) ℝ) (f w : Fin M → ℝ)
    (hw : ∀ i, 0 ≤ w i) :
    ∃ (e : Fin m → ℝ) (W : Matrix (Fin m) (Fin m) ℝ) (a : ℝ) (s : Fin m → ℝ),
      ols_subspace lib (.mat (NpMat.of X)) (.mat (wcol f)) (wcol w) = .ok ⟨m, e, W⟩ ∧
      (∀ (a' : ℝ) (s' : Fin m → ℝ), ∑ i, w i * (a + ∑ k, X i k * s k - f i) ^ 2
        ≤ ∑ i, w i * (a' + ∑ k, X i k * s' k - f i) ^ 2) ∧
      e ⟨0, hm⟩ = ∑ k, s k ^ 2 ∧ (∀ j : Fin m, (j : ℕ) ≠ 0 → e j = 0) ∧
      (∃ c : ℝ, c ^ 2 = ∑ k, s k ^ 2 ∧ ∀ i, s i = c * W i ⟨0, hm⟩) ∧
      (∀ j k, ∑ i, W i j * W i k = if j = k then 1 else 0) ∧ ∀ i j : Fin m, (i : ℕ) = 0 → 0 ≤ W i j := by
  obtain ⟨u, hu, heq⟩ := ols_eq lib X f w
  obtain ⟨e, W, h, hs⟩ := C34_posSemidef lib hl hm _ (rank_one_posSemidef fun k => u (Fin.natAdd 1 k))
  obtain ⟨h1, h2, h3⟩ := rank_one hm hs
  refine ⟨e, W, u (Fin.castAdd m 0), fun k => u (Fin.natAdd 1 k), heq.trans h, ?_, h1, h2, h3, hs.orth, hs.first⟩
  intro a' s'
  have hmin := (hl.lstsq M (1 + m) (Matrix.of fun i j => Np.hstack (Np.ones M 1) X i j * Real.sqrt (w i))
    (fun i => f i * Real.sqrt (w i))).1 (Fin.append (fun _ : Fin 1 => a') s')
  rw [← hu] at hmin
  have hval : ∀ v : Fin (1 + m) → ℝ,
      sqNorm ((Matrix.of fun i j => Np.hstack (Np.ones M 1) X i j * Real.sqrt (w i)).mulVec v - fun i => f i * Real.sqrt (w i))
        = ∑ i, w i * (v (Fin.castAdd m 0) + ∑ k, X i k * v (Fin.natAdd 1 k) - f i) ^ 2 := by
    intro v
    unfold sqNorm
    refine Finset.sum_congr rfl fun i _ => ?_
    rw [Pi.sub_apply, hstack_mulVec]
    have := Real.mul_self_sqrt (hw i)
    calc _ = (Real.sqrt (w i) * Real.sqrt (w i)) * (v (Fin.castAdd m 0) + ∑ k, X i k * v (Fin.natAdd 1 k) - f i) ^ 2 := by ring
      _ = _ := by rw [this]
  rw [hval, hval] at hmin
  simpa only [Fin.append_left, Fin.append_right] using hmin

/-- C36: on affine data over a sample that determines affine functions the slope is recovered exactly. -/
theorem C36_affine (lib : Model.Subspaces.Lib) (hl : SubLibOK lib) (hm : 0 < m) (X : Matrix (Fin M) (Fin m) ℝ) (w : Fin M → ℝ)
    (hw : ∀ i, 0 < w i) (hX : ∀ (a : ℝ) (s : Fin m → ℝ), (∀ i, a + ∑ k, X i k * s k = 0) → a = 0 ∧ s = 0)
    (a : ℝ) (s : Fin m → ℝ) :
    ∃ (e : Fin m → ℝ) (W : Matrix (Fin m) (Fin m) ℝ),
      ols_subspace lib (.mat (NpMat.of X)) (.mat (wcol fun i => a + ∑ k, X i k * s k)) (wcol w) = .ok ⟨m, e, W⟩ ∧
      e ⟨0, hm⟩ = ∑ k, s k ^ 2 ∧ (∀ j : Fin m, (j : ℕ) ≠ 0 → e j = 0) ∧
      ∃ c : ℝ, c ^ 2 = ∑ k, s k ^ 2 ∧ ∀ i, s i = c * W i ⟨0, hm⟩ := by
  obtain ⟨e, W, a', s', h, hmin, h1, h2, h3, -⟩ :=
    C36_ols lib hl hm X (fun i => a + ∑ k, X i k * s k) w fun i => (hw i).le
  have h0 := hmin a s
  simp only [sub_self, ne_eq, OfNat.ofNat_ne_zero, not_false_eq_true, zero_pow, mul_zero, Finset.sum_const_zero] at h0
  have hz : ∀ i, (a' - a) + ∑ k, X i k * (s' - s) k = 0 := by
    intro i
    have hnn : ∀ i ∈ Finset.univ, 0 ≤ w i * (a' + ∑ k, X i k * s' k - (a + ∑ k, X i k * s k)) ^ 2 :=
      fun i _ => mul_nonneg (hw i).le (sq_nonneg _)
    have := (Finset.sum_eq_zero_iff_of_nonneg hnn).mp (le_antisymm h0 (Finset.sum_nonneg hnn)) i (Finset.mem_univ i)
    have h4 := (mul_eq_zero.mp this).resolve_left (hw i).ne'
    rw [pow_eq_zero_iff (by norm_num)] at h4
    simp only [Pi.sub_apply, mul_sub, Finset.sum_sub_distrib]
    linear_combination h4
  have hss : s' = s := sub_eq_zero.mp (hX _ _ hz).2
  subst hss
  exact ⟨e, W, h, h1, h2, h3⟩

/-- The hypotheses are met: three points in the plane that are not on a line. -/
example : (∀ i, 0 < (![1, 2, 3] : Fin 3 → ℝ) i) ∧ ∀ (a : ℝ) (s : Fin 2 → ℝ),
    (∀ i, a + ∑ k, (!![0, 0; 1, 0; 0, 1] : Matrix (Fin 3) (Fin 2) ℝ) i k * s k = 0) → a = 0 ∧ s = 0 := by
  refine ⟨fun i => by fin_cases i <;> norm_num, fun a s h => ?_⟩
  have h0 := h 0
  have h1 := h 1
  have h2 := h 2
  simp [Fin.sum_univ_two] at h0 h1 h2
  refine ⟨h0, ?_⟩
  funext k
  fin_cases k
  · simpa [h0] using h1
  · simpa [h0] using h2

end Props
