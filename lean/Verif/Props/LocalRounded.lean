import Verif.Model.RoundedLocal
import Verif.Props.PolyTrainingRounded
import Verif.Props.LocalAccuracy

/-!
# Property C158: local linear models in double precision
-/

open Py Model.Misc Model.Rounded Spec Proofs.Rounding Proofs.FloatSum Proofs.Near

namespace Props

variable {M m p : ℕ}

/-- The error of the solution of a nearby least squares problem with a well-conditioned matrix. -/
theorem lstsq_close {r c : ℕ} {A A' : Matrix (Fin r) (Fin c) ℝ} {b b' : Fin r → ℝ} {x : Fin c → ℝ} (hx : IsLeastSquares A' b' x) {δ τ σ : ℝ}
    (hA : ∀ i t, |A i t - A' i t| ≤ δ) (hb : ∀ i, |b i - b' i| ≤ τ) (hσ : 0 < σ) (hcond : ∀ z : Fin c → ℝ, σ * ∑ t, |z t| ≤ Real.sqrt (∑ i, (∑ t, A i t * z t) ^ 2))
    (hsmall : Real.sqrt r * δ ≤ σ / 2) (y : Fin c → ℝ) :
    ∑ t, |x t - y t| ≤ 2 / σ * (Real.sqrt (∑ i, (∑ t, A i t * y t - b i) ^ 2) + Real.sqrt r * (δ * ∑ t, |y t| + τ)) := by
  have h1 := Real.sqrt_le_sqrt (ls_close hx y)
  have h2 : Real.sqrt (∑ i, (∑ t, A i t * (x t - y t)) ^ 2) ≤ Real.sqrt (∑ i, (∑ t, A' i t * (x t - y t)) ^ 2) + Real.sqrt r * (δ * ∑ t, |x t - y t|) :=
    length_near fun i => by
      have := residual_near (b := fun _ => 0) (b' := fun _ => 0) (τ := 0) hA (fun i => by simp) (fun t => x t - y t) i
      simpa using this
  have h3 : Real.sqrt (∑ i, (∑ t, A' i t * y t - b' i) ^ 2) ≤ Real.sqrt (∑ i, (∑ t, A i t * y t - b i) ^ 2) + Real.sqrt r * (δ * ∑ t, |y t| + τ) :=
    length_near fun i => (abs_sub_comm _ _).trans_le (residual_near hA hb y i)
  have h4 := hcond fun t => x t - y t
  change Real.sqrt (∑ i, (∑ t, A' i t * (x t - y t)) ^ 2) ≤ Real.sqrt (∑ i, (∑ t, A' i t * y t - b' i) ^ 2) at h1
  have h5 : Real.sqrt r * (δ * ∑ t, |x t - y t|) ≤ σ / 2 * ∑ t, |x t - y t| := by
    rw [← mul_assoc]
    exact mul_le_mul_of_nonneg_right hsmall (Finset.sum_nonneg fun _ _ => abs_nonneg _)
  rw [div_mul_eq_mul_div, le_div_iff₀ hσ]
  linarith

/-- **C158.** The slope of a local model in double precision with a backward stable solver.  The model is fitted to `p` different points; for every affine function
`a + v x` that is within `ρ` of the data at these points, the slope is within a multiple of `ρ` plus rounding errors of `v`. -/
theorem C158_slope {rd : ℝ → ℝ} (hr : Rounding rd) {argsort : (Fin M → ℝ) → (Fin M → Fin M)} (hs : ∀ v, IsArgsort v (argsort v)) {lstsq : Lstsq} {η : ℝ}
    (hsol : ∀ r c A b, StableLstsq η A b (lstsq r c A b)) (D2 : Fin M → ℝ) (X : Matrix (Fin M) (Fin m) ℝ) (f : Fin M → ℝ) {w : ℝ} (hw : 0 < w) {g : Fin m → ℝ}
    (hrun : Model.Rounded.localModel rd argsort lstsq D2 X f w p = .ok g) :
    ∃ s : Fin p → Fin M, Function.Injective s ∧
      ∀ (σ ξ φ ρ γ a : ℝ) (v : Fin m → ℝ), γ = (1 + η) * (1 + 1 / 2 ^ 53) ^ 2 - 1 → 0 < σ →
        (∀ (b : ℝ) (z : Fin m → ℝ), σ * (|b| + ∑ j, |z j|) ≤ Real.sqrt (∑ k, (b + ∑ j, X (s k) j * z j) ^ 2)) →
        1 ≤ ξ → (∀ k j, |X (s k) j| ≤ ξ) → (∀ k, |f (s k)| ≤ φ) → (∀ k, |a + ∑ j, X (s k) j * v j - f (s k)| ≤ ρ) → Real.sqrt p * (γ * ξ) ≤ σ / 2 →
        ∑ j, |g j - v j| ≤ 2 * Real.sqrt p / σ * (ρ + γ * (ξ * (|a| + ∑ j, |v j|) + φ)) := by
  unfold Model.Rounded.localModel at hrun
  by_cases hlen : (Model.Rounded.neighbours argsort D2 p).length = p
  swap
  · simp only [hlen, dif_neg, not_false_eq_true] at hrun
    cases hrun
  simp only [hlen, dif_pos] at hrun
  have hnd : (Model.Rounded.neighbours argsort D2 p).Nodup := by
    refine List.Nodup.sublist (List.take_sublist _ _) ?_
    exact (List.nodup_map_iff (hs D2).bij.injective).mpr ((List.nodup_finRange M).filter _)
  set s : Fin p → Fin M := fun k => (Model.Rounded.neighbours argsort D2 p).get (k.cast hlen.symm) with hsdef
  refine ⟨s, fun k k' hk => ?_, fun σ ξ φ ρ γ a v hγ hσ hcond hξ hX hf hρ hsmall => ?_⟩
  · have := (List.nodup_iff_injective_get.mp hnd) hk
    simpa [Fin.ext_iff] using this
  set q := Real.sqrt w with hq
  have hq0 : 0 < q := Real.sqrt_pos.mpr hw
  set A : Matrix (Fin p) (Fin (1 + m)) ℝ := Matrix.of fun k j => rd (Np.hstack (Np.ones p 1) (X.submatrix s id) k j * rd q) with hA
  set b : Fin p → ℝ := fun k => rd (f (s k) * rd q) with hb
  set x := lstsq p (1 + m) A b with hx
  obtain rfl := Except.ok.inj hrun
  change γ = (1 + η) * (1 + u) ^ 2 - 1 at hγ
  have hqn : Proofs.Near.Near 1 (rd q) q q := by
    have := (Proofs.Near.refl (le_of_eq (abs_of_pos hq0))).round hr
    simpa using this
  set H : Matrix (Fin p) (Fin (1 + m)) ℝ := Np.hstack (Np.ones p 1) (X.submatrix s id) with hH
  have hHl : ∀ k, H k (Fin.castAdd m 0) = 1 := fun k => by rw [hH, Np.hstack_castAdd]; rfl
  have hHr : ∀ k j, H k (Fin.natAdd 1 j) = X (s k) j := fun k j => by rw [hH, Np.hstack_natAdd]; rfl
  have hHξ : ∀ k t, |H k t| ≤ ξ := fun k t => by
    refine Fin.addCases (fun i => ?_) (fun j => ?_) t
    · rw [Subsingleton.elim i 0, hHl, abs_one]; exact hξ
    · rw [hHr]; exact hX k j
  have hAe : ∀ k t, Proofs.Near.Near 2 (A k t) (H k t * q) (ξ * q) := fun k t => by
    have := ((Proofs.Near.refl (hHξ k t)).mul hqn).round hr
    rw [zero_add] at this
    exact this
  have hbe : ∀ k, Proofs.Near.Near 2 (b k) (f (s k) * q) (φ * q) := fun k => by
    have := ((Proofs.Near.refl (hf k)).mul hqn).round hr
    rw [zero_add] at this
    exact this
  obtain ⟨E, d, hE, hd, hmin⟩ := hsol p (1 + m) A b
  have hE' := hE _ fun k t => (hAe k t).abs_le
  have hd' := hd _ fun k => (hbe k).abs_le
  have hA' : ∀ k t, |(Matrix.of fun k t => H k t * q : Matrix (Fin p) (Fin (1 + m)) ℝ) k t - (A + E) k t| ≤ γ * ξ * q := fun k t => by
    have e : (Matrix.of fun k t => H k t * q : Matrix (Fin p) (Fin (1 + m)) ℝ) k t - (A + E) k t = -((A k t - H k t * q) + E k t) := by
      rw [Matrix.add_apply, Matrix.of_apply]
      ring
    rw [e, abs_neg, hγ]
    refine (abs_add_le _ _).trans ((add_le_add (hAe k t).err (hE' k t)).trans (le_of_eq ?_))
    ring
  have hb' : ∀ k, |f (s k) * q - (b + d) k| ≤ γ * φ * q := fun k => by
    have e : f (s k) * q - (b + d) k = -((b k - f (s k) * q) + d k) := by
      rw [Pi.add_apply]
      ring
    rw [e, abs_neg, hγ]
    refine (abs_add_le _ _).trans ((add_le_add (hbe k).err (hd' k)).trans (le_of_eq ?_))
    ring
  have hrow : ∀ (z : Fin (1 + m) → ℝ) k, ∑ t, (Matrix.of fun k t => H k t * q : Matrix (Fin p) (Fin (1 + m)) ℝ) k t * z t
      = q * (z (Fin.castAdd m 0) + ∑ j, X (s k) j * z (Fin.natAdd 1 j)) := fun z k => by
    rw [Fin.sum_univ_add, Fin.sum_univ_one, mul_add, Finset.mul_sum]
    simp only [Matrix.of_apply, hHl, hHr, one_mul]
    congr 1
    exact Finset.sum_congr rfl fun j _ => by ring
  have hsc : ∀ y : Fin p → ℝ, Real.sqrt (∑ k, (q * y k) ^ 2) = q * Real.sqrt (∑ k, y k ^ 2) := fun y => by
    simp only [mul_pow]
    rw [← Finset.mul_sum, Real.sqrt_mul (sq_nonneg q), Real.sqrt_sq hq0.le]
  have hone : ∀ z : Fin (1 + m) → ℝ, ∑ t, |z t| = |z (Fin.castAdd m 0)| + ∑ j, |z (Fin.natAdd 1 j)| := fun z => by
    rw [Fin.sum_univ_add, Fin.sum_univ_one]
  have hmain := lstsq_close hmin (b := fun k => f (s k) * q) hA' hb' (mul_pos hσ hq0) (fun z => by
    simp only [hrow]
    rw [hsc, hone, mul_comm σ q, mul_assoc]
    exact mul_le_mul_of_nonneg_left (hcond _ _) hq0.le) (by
      have := mul_le_mul_of_nonneg_right hsmall hq0.le
      calc Real.sqrt p * (γ * ξ * q) = Real.sqrt p * (γ * ξ) * q := by ring
        _ ≤ σ / 2 * q := this
        _ = σ * q / 2 := by ring) (Fin.append (fun _ : Fin 1 => a) v)
  have e2 : ∀ k, ∑ t, (Matrix.of fun k t => H k t * q : Matrix (Fin p) (Fin (1 + m)) ℝ) k t * (Fin.append (fun _ : Fin 1 => a) v) t - f (s k) * q
      = q * (a + ∑ j, X (s k) j * v j - f (s k)) := fun k => by
    rw [hrow]
    simp only [Fin.append_left, Fin.append_right]
    ring
  simp only [e2] at hmain
  rw [hsc, hone, hone] at hmain
  simp only [Fin.append_left, Fin.append_right] at hmain
  have hres : Real.sqrt (∑ k, (a + ∑ j, X (s k) j * v j - f (s k)) ^ 2) ≤ Real.sqrt p * ρ := by
    have := length_near (a := fun k => a + ∑ j, X (s k) j * v j - f (s k)) (b := fun _ => 0) (t := ρ) fun k => by rw [sub_zero]; exact hρ k
    simpa using this
  have h5 : ∑ j, |x (Fin.natAdd 1 j) - v j| ≤ 2 / (σ * q) * (q * Real.sqrt (∑ k, (a + ∑ j, X (s k) j * v j - f (s k)) ^ 2)
      + Real.sqrt p * (γ * ξ * q * (|a| + ∑ j, |v j|) + γ * φ * q)) := le_trans (by linarith [abs_nonneg (x (Fin.castAdd m 0) - a)]) hmain
  refine h5.trans ?_
  have e3 : 2 * Real.sqrt p / σ * (ρ + γ * (ξ * (|a| + ∑ j, |v j|) + φ))
      = 2 / (σ * q) * (q * (Real.sqrt p * ρ) + Real.sqrt p * (γ * ξ * q * (|a| + ∑ j, |v j|) + γ * φ * q)) := by
    field_simp
  rw [e3]
  refine mul_le_mul_of_nonneg_left ?_ (by positivity)
  linarith [mul_le_mul_of_nonneg_left hres hq0.le]

/-- A library that keeps the contracts, with which the model around the middle of three points succeeds; any two of the points are well spread. -/
example : ∃ (rd : ℝ → ℝ) (argsort : (Fin 3 → ℝ) → (Fin 3 → Fin 3)) (lstsq : Lstsq) (g : Fin 1 → ℝ), Rounding rd ∧ (∀ v, IsArgsort v (argsort v)) ∧
    (∀ r c A b, StableLstsq (1 / 2 ^ 40) A b (lstsq r c A b)) ∧
    Model.Rounded.localModel rd argsort lstsq ![1, 0, 1] (Matrix.of ![![-1], ![0], ![1]]) ![1, 2, 3] (1 / 3) 2 = .ok g := by
  obtain ⟨fl, hfl⟩ := fl_exists
  obtain ⟨lstsq, hl⟩ := Proofs.LeastSquares.lstsqContract_satisfiable
  have hlen : (Model.Rounded.neighbours (fun v => (Tuple.sort v : Equiv.Perm _)) ![(1 : ℝ), 0, 1] 2).length = 2 := by
    simp [Model.Rounded.neighbours, List.finRange_succ]
  have hex : ∃ g, Model.Rounded.localModel fl.rd (fun v => (Tuple.sort v : Equiv.Perm _)) (fun r c A b => lstsq A b) ![1, 0, 1] (Matrix.of ![![-1], ![0], ![1]])
      ![1, 2, 3] (1 / 3) 2 = .ok g := by
    unfold Model.Rounded.localModel
    simp only [hlen, dif_pos]
    exact ⟨_, rfl⟩
  obtain ⟨g, hg⟩ := hex
  refine ⟨fl.rd, fun v => (Tuple.sort v : Equiv.Perm _), fun r c A b => lstsq A b, g, hfl.rd, fun v => argsortContract_sort v,
    fun r c A b => ⟨0, 0, fun Λ hΛ i j => ?_, fun Λ hΛ i => ?_, ?_⟩, hg⟩
  · rw [Matrix.zero_apply, abs_zero]
    exact mul_nonneg (by positivity) ((abs_nonneg _).trans (hΛ i j))
  · rw [Pi.zero_apply, abs_zero]
    exact mul_nonneg (by positivity) ((abs_nonneg _).trans (hΛ i))
  · rw [add_zero, add_zero]
    exact (hl A b).1

/-- Any two of the points -1, 0 and 1 are spread out. -/
theorem spread_three (s : Fin 2 → Fin 3) (hs : Function.Injective s) (b : ℝ) (z : Fin 1 → ℝ) :
    (1 / 5 : ℝ) * (|b| + ∑ j, |z j|) ≤ Real.sqrt (∑ k, (b + ∑ j, (Matrix.of ![![-1], ![0], ![1]] : Matrix (Fin 3) (Fin 1) ℝ) (s k) j * z j) ^ 2) := by
  refine Real.le_sqrt_of_sq_le ?_
  simp only [Fin.sum_univ_two, Finset.univ_unique, Fin.default_eq_zero, Finset.sum_singleton]
  have hne : s 0 ≠ s 1 := fun h => by simpa using hs h
  have hab : (|b| + |z 0|) ^ 2 ≤ 2 * (b ^ 2 + z 0 ^ 2) := by
    have := sq_nonneg (|b| - |z 0|)
    have h1 := sq_abs b
    have h2 := sq_abs (z 0)
    nlinarith
  have : b ^ 2 + z 0 ^ 2 ≤ 5 * ((b + (Matrix.of ![![-1], ![0], ![1]] : Matrix (Fin 3) (Fin 1) ℝ) (s 0) 0 * z 0) ^ 2
      + (b + (Matrix.of ![![-1], ![0], ![1]] : Matrix (Fin 3) (Fin 1) ℝ) (s 1) 0 * z 0) ^ 2) := by
    generalize s 0 = i at hne
    generalize s 1 = j at hne
    fin_cases i <;> fin_cases j <;> first | exact absurd rfl hne | (simp; nlinarith [sq_nonneg (b + z 0), sq_nonneg (b - z 0), sq_nonneg b, sq_nonneg (z 0), sq_nonneg (2 * b + z 0), sq_nonneg (2 * b - z 0)])
  nlinarith

/-- Any two of the three points meet the conditions of the bound, with `σ = 1/5`. -/
example (s : Fin 2 → Fin 3) (hs : Function.Injective s) :
    (∀ (b : ℝ) (z : Fin 1 → ℝ), (1 / 5 : ℝ) * (|b| + ∑ j, |z j|) ≤ Real.sqrt (∑ k, (b + ∑ j, (Matrix.of ![![-1], ![0], ![1]] : Matrix (Fin 3) (Fin 1) ℝ) (s k) j * z j) ^ 2)) ∧
    Real.sqrt (2 : ℕ) * (((1 + 1 / 2 ^ 40) * (1 + 1 / 2 ^ 53) ^ 2 - 1) * 1) ≤ (1 / 5 : ℝ) / 2 := by
  constructor
  · exact spread_three s hs
  · have h2 : Real.sqrt (2 : ℕ) ≤ 2 := by
      rw [Real.sqrt_le_left (by norm_num)]
      norm_num
    have h3 : (0 : ℝ) ≤ ((1 + 1 / 2 ^ 40) * (1 + 1 / 2 ^ 53) ^ 2 - 1) * 1 := by norm_num
    refine (mul_le_mul_of_nonneg_right h2 h3).trans ?_
    norm_num

end Props
