import Mathlib.RingTheory.MvPolynomial.Basic
import Verif.Props.LocalAccuracy
import Verif.Props.MinMap
import Verif.Props.Qphd
import Verif.Props.Regression

/-!
# Property C141: errors of the outputs
-/

open Py Model.ResponseSurfaces Model.Subspaces Proofs.LeastSquares Proofs.PolyApprox Spec MvPolynomial

namespace Props

variable {W : Type} {M m N : ℕ}

/-! ## What is to be shown -/

/-- The weighted length of the difference between two vectors of outputs. -/
noncomputable def outputError (v f f' : Fin M → ℝ) : ℝ := Real.sqrt (∑ i, (v i * (f i - f' i)) ^ 2)

/-- `ℓ` of a polynomial of degree at most `N` is at most `Λ` times its weighted length on the sample. -/
def Norming (N : ℕ) (X : Matrix (Fin M) (Fin m) ℝ) (v : Fin M → ℝ) (ℓ : MvPolynomial (Fin m) ℝ → ℝ) (Λ : ℝ) : Prop :=
  0 ≤ Λ ∧ ∀ q : MvPolynomial (Fin m) ℝ, q.totalDegree ≤ N → |ℓ q| ≤ Λ * Real.sqrt (∑ i, (v i * eval (X i) q) ^ 2)

/-! ## Least squares -/

theorem orth_of_min {n : ℕ} {r d : Fin n → ℝ} (h : ∀ t : ℝ, sqNorm r ≤ sqNorm (r + t • d)) : r ⬝ᵥ d = 0 := by
  have h1 : ∀ t : ℝ, 0 ≤ 2 * t * (r ⬝ᵥ d) + t ^ 2 * sqNorm d := by
    intro t
    have := h t
    rw [sqNorm_add, sqNorm_smul, dotProduct_smul, smul_eq_mul] at this
    linarith
  by_contra hne
  have hd := sqNorm_nonneg d
  have h2 := h1 (-(r ⬝ᵥ d) / (sqNorm d + 1))
  have h3 : 2 * (-(r ⬝ᵥ d) / (sqNorm d + 1)) * (r ⬝ᵥ d) + (-(r ⬝ᵥ d) / (sqNorm d + 1)) ^ 2 * sqNorm d
      = -((r ⬝ᵥ d) ^ 2 * (sqNorm d + 2) / (sqNorm d + 1) ^ 2) := by
    field_simp
    ring
  rw [h3] at h2
  have h4 : 0 < (r ⬝ᵥ d) ^ 2 * (sqNorm d + 2) / (sqNorm d + 1) ^ 2 := by positivity
  linarith

/-- The best approximations of two vectors are not farther apart than the vectors. -/
theorem contract {n : ℕ} {a a' f f' : Fin n → ℝ} (h : ∀ t : ℝ, sqNorm (a - f) ≤ sqNorm (a - f + t • (a - a')))
    (h' : ∀ t : ℝ, sqNorm (a' - f') ≤ sqNorm (a' - f' + t • (a - a'))) : sqNorm (a - a') ≤ sqNorm (f - f') := by
  have h1 := orth_of_min h
  have h2 := orth_of_min h'
  have h3 : ((f - f') - (a - a')) ⬝ᵥ (a - a') = 0 := by
    have : (f - f') - (a - a') = (a' - f') - (a - f) := by abel
    rw [this, sub_dotProduct, h1, h2, sub_zero]
  have h4 : f - f' = ((f - f') - (a - a')) + (a - a') := by abel
  rw [h4, sqNorm_add, h3]
  have := sqNorm_nonneg ((f - f') - (a - a'))
  linarith

/-! ## Polynomials -/

theorem poly_contract {X : Matrix (Fin M) (Fin m) ℝ} {v f f' : Fin M → ℝ} {P P' : MvPolynomial (Fin m) ℝ} (hP : P.totalDegree ≤ N)
    (hP' : P'.totalDegree ≤ N)
    (h : ∀ q : MvPolynomial (Fin m) ℝ, q.totalDegree ≤ N → ∑ i, (v i * (eval (X i) P - f i)) ^ 2 ≤ ∑ i, (v i * (eval (X i) q - f i)) ^ 2)
    (h' : ∀ q : MvPolynomial (Fin m) ℝ, q.totalDegree ≤ N → ∑ i, (v i * (eval (X i) P' - f' i)) ^ 2 ≤ ∑ i, (v i * (eval (X i) q - f' i)) ^ 2) :
    Real.sqrt (∑ i, (v i * eval (X i) (P - P')) ^ 2) ≤ outputError v f f' := by
  refine Real.sqrt_le_sqrt ?_
  have hdeg : ∀ (Q : MvPolynomial (Fin m) ℝ), Q.totalDegree ≤ N → ∀ t : ℝ, (Q + C t * (P - P')).totalDegree ≤ N := by
    intro Q hQ t
    refine (totalDegree_add _ _).trans (max_le hQ ((totalDegree_mul _ _).trans ?_))
    rw [totalDegree_C, zero_add]
    exact (totalDegree_sub _ _).trans (max_le hP hP')
  have key := contract (a := fun i => v i * eval (X i) P) (a' := fun i => v i * eval (X i) P') (f := fun i => v i * f i)
    (f' := fun i => v i * f' i) (fun t => by
      have := h _ (hdeg P hP t)
      simp only [sqNorm, Pi.sub_apply, Pi.add_apply, Pi.smul_apply, smul_eq_mul]
      simp only [map_add, map_mul, map_sub, eval_C] at this
      convert this using 3 with i <;> ring)
    (fun t => by
      have := h' _ (hdeg P' hP' t)
      simp only [sqNorm, Pi.sub_apply, Pi.add_apply, Pi.smul_apply, smul_eq_mul]
      simp only [map_add, map_mul, map_sub, eval_C] at this
      convert this using 3 with i <;> ring)
  simp only [sqNorm, Pi.sub_apply, ← mul_sub] at key
  simpa only [map_sub] using key

/-- C141: the predictions of the surfaces trained on two vectors of outputs differ by at most `Λ` times the distance of the outputs, and so
do their gradients. -/
theorem C141_polynomial (lib : Model.ResponseSurfaces.Lib) (hl : LstsqOK lib) (w : PolyApprox) (hm : 1 ≤ m) (hN : 1 ≤ w.N)
    (X : Matrix (Fin M) (Fin m) ℝ) (f f' : Fin M → ℝ) (weights : Option (Fin M → ℝ)) (hM : (w.N + m).choose m ≤ M) :
    ∃ (w1 w2 : PolyApprox) (P P' : MvPolynomial (Fin m) ℝ), (fit lib X f weights).run w = (.ok (), w1) ∧
      (fit lib X f' weights).run w = (.ok (), w2) ∧
      (∀ (M' : ℕ) (Y : Matrix (Fin M') (Fin m) ℝ),
        w1.predict (.mat (NpMat.of Y)) true = .ok (NpVec.of fun i => eval (Y i) P, some (NpMat.of (Matrix.of fun i k => eval (Y i) (pderiv k P)))) ∧
        w2.predict (.mat (NpMat.of Y)) true = .ok (NpVec.of fun i => eval (Y i) P', some (NpMat.of (Matrix.of fun i k => eval (Y i) (pderiv k P'))))) ∧
      (∀ y Λ, Norming w.N X (weights.getD fun _ => 1) (eval y) Λ →
        |eval y P - eval y P'| ≤ Λ * outputError (weights.getD fun _ => 1) f f') ∧
      (∀ y k Λ, Norming w.N X (weights.getD fun _ => 1) (fun q => eval y (pderiv k q)) Λ →
        |eval y (pderiv k P) - eval y (pderiv k P')| ≤ Λ * outputError (weights.getD fun _ => 1) f f') := by
  obtain ⟨w1, P, r1, d1, -, -, -, p1, -, -, m1, -⟩ := fit_ok lib hl w hm hN X f weights hM
  obtain ⟨w2, P', r2, d2, -, -, -, p2, -, -, m2, -⟩ := fit_ok lib hl w hm hN X f' weights hM
  have hc := poly_contract d1 d2 m1 m2
  have hdeg : (P - P').totalDegree ≤ w.N := (totalDegree_sub _ _).trans (max_le d1 d2)
  have hΛ : ∀ {ℓ : MvPolynomial (Fin m) ℝ → ℝ} {Λ : ℝ}, Norming w.N X (weights.getD fun _ => 1) ℓ Λ →
      |ℓ (P - P')| ≤ Λ * outputError (weights.getD fun _ => 1) f f' := by
    intro ℓ Λ hn
    exact (hn.2 _ hdeg).trans (mul_le_mul_of_nonneg_left hc hn.1)
  refine ⟨w1, w2, P, P', r1, r2, fun M' Y => ⟨(p1 M' Y).2, (p2 M' Y).2⟩, fun y Λ hn => ?_, fun y k Λ hn => ?_⟩
  · have := hΛ hn
    rwa [map_sub] at this
  · have := hΛ hn
    simp only [map_sub] at this
    exact this

/-- C141: at every point the surface trained on the values of `F` is nearly as good as any polynomial `q` of its degree. -/
theorem C141_best (lib : Model.ResponseSurfaces.Lib) (hl : LstsqOK lib) (w : PolyApprox) (hm : 1 ≤ m) (hN : 1 ≤ w.N)
    (X : Matrix (Fin M) (Fin m) ℝ) (F : (Fin m → ℝ) → ℝ) (weights : Option (Fin M → ℝ)) (hM : (w.N + m).choose m ≤ M) :
    ∃ (w1 : PolyApprox) (φ : (Fin m → ℝ) → ℝ), (fit lib X (fun i => F (X i)) weights).run w = (.ok (), w1) ∧
      (∀ (M' : ℕ) (Y : Matrix (Fin M') (Fin m) ℝ), w1.predict (.mat (NpMat.of Y)) false = .ok (NpVec.of fun i => φ (Y i), none)) ∧
      ∀ y Λ, Norming w.N X (weights.getD fun _ => 1) (eval y) Λ → ∀ q : MvPolynomial (Fin m) ℝ, q.totalDegree ≤ w.N →
        |φ y - F y| ≤ |eval y q - F y| + Λ * outputError (weights.getD fun _ => 1) (fun i => F (X i)) fun i => eval (X i) q := by
  obtain ⟨w1, P, r1, d1, -, -, -, p1, -, -, m1, -⟩ := fit_ok lib hl w hm hN X (fun i => F (X i)) weights hM
  refine ⟨w1, fun y => eval y P, r1, fun M' Y => (p1 M' Y).1, fun y Λ hn q hq => ?_⟩
  have hc := poly_contract d1 hq m1 (f' := fun i => eval (X i) q) (P' := q) fun q' _ => by
    simp only [sub_self, mul_zero, ne_eq, OfNat.ofNat_ne_zero, not_false_eq_true, zero_pow, Finset.sum_const_zero]
    exact Finset.sum_nonneg fun _ _ => sq_nonneg _
  have h1 := (hn.2 (P - q) ((totalDegree_sub _ _).trans (max_le d1 hq))).trans (mul_le_mul_of_nonneg_left hc hn.1)
  rw [map_sub] at h1
  calc |eval y P - F y| = |(eval y q - F y) + (eval y P - eval y q)| := by congr 1; ring
    _ ≤ |eval y q - F y| + |eval y P - eval y q| := abs_add_le _ _
    _ ≤ _ := by gcongr

/-- There is such a `Λ` when the sample determines the polynomials and no weight is zero. -/
theorem norming_exists {X : Matrix (Fin M) (Fin m) ℝ} (hX : Unisolvent N X) {v : Fin M → ℝ} (hv : ∀ i, v i ≠ 0)
    (ℓ : MvPolynomial (Fin m) ℝ →ₗ[ℝ] ℝ) : ∃ Λ, Norming N X v ℓ Λ := by
  let T : restrictTotalDegree (Fin m) ℝ N →ₗ[ℝ] (Fin M → ℝ) :=
    LinearMap.pi fun i => v i • ((aeval (X i)).toLinearMap.comp (restrictTotalDegree (Fin m) ℝ N).subtype)
  have hT : ∀ q i, T q i = v i * eval (X i) (q : MvPolynomial (Fin m) ℝ) := by
    intro q i
    simp [T, aeval_eq_eval]
  have hinj : LinearMap.ker T = ⊥ := by
    rw [LinearMap.ker_eq_bot']
    intro q hq
    have h0 := hX q ((mem_restrictTotalDegree _ _ _).mp q.2) fun i => by
      have := congrFun hq i
      rw [hT] at this
      exact (mul_eq_zero.mp this).resolve_left (hv i)
    exact Subtype.ext h0
  obtain ⟨g, hg⟩ := T.exists_leftInverse_of_injective hinj
  let c : Fin M → ℝ := fun i => ℓ (g (Pi.single i 1))
  refine ⟨Real.sqrt (∑ i, c i ^ 2), Real.sqrt_nonneg _, fun q hq => ?_⟩
  have hq' : q ∈ restrictTotalDegree (Fin m) ℝ N := (mem_restrictTotalDegree _ _ _).mpr hq
  have h1 : ℓ q = ∑ i, c i * (v i * eval (X i) q) := by
    have h2 : g (T ⟨q, hq'⟩) = ⟨q, hq'⟩ := LinearMap.congr_fun hg _
    have h3 : T ⟨q, hq'⟩ = ∑ i, (v i * eval (X i) q) • (Pi.single i 1 : Fin M → ℝ) := by
      ext i
      simp [hT, Finset.sum_apply, Pi.single_apply]
    have h4 : ℓ q = ℓ (g (T ⟨q, hq'⟩)) := by rw [h2]
    rw [h4, h3, map_sum, Submodule.coe_sum, map_sum]
    refine Finset.sum_congr rfl fun i _ => ?_
    rw [map_smul, Submodule.coe_smul, map_smul, smul_eq_mul, mul_comm]
  rw [h1]
  exact abs_dot_le _ _

/-- One `Λ` for finitely many functionals. -/
theorem norming_all {X : Matrix (Fin M) (Fin m) ℝ} (hX : Unisolvent N X) {v : Fin M → ℝ} (hv : ∀ i, v i ≠ 0) {ι : Type} [Fintype ι]
    (ℓ : ι → MvPolynomial (Fin m) ℝ →ₗ[ℝ] ℝ) : ∃ Λ, ∀ i, Norming N X v (ℓ i) Λ := by
  by_cases hι : Nonempty ι
  · choose Λ hΛ using fun i => norming_exists hX hv (ℓ i)
    have hle : ∀ i, Λ i ≤ ∑ i, Λ i := fun i => Finset.single_le_sum (fun j _ => (hΛ j).1) (Finset.mem_univ i)
    exact ⟨∑ i, Λ i, fun i => ⟨Finset.sum_nonneg fun j _ => (hΛ j).1, fun q hq => ((hΛ i).2 q hq).trans
      (mul_le_mul_of_nonneg_right (hle i) (Real.sqrt_nonneg _))⟩⟩
  · exact ⟨0, fun i => absurd ⟨i⟩ hι⟩

/-- A line through two points: values and slopes. -/
example : ∃ Λ, (∀ y ∈ ({![1 / 2], ![3]} : Finset (Fin 1 → ℝ)), Norming 1 (Matrix.of ![![0], ![1]] : Matrix (Fin 2) (Fin 1) ℝ) (fun _ => 1) (eval y) Λ) ∧
    Norming 1 (Matrix.of ![![0], ![1]] : Matrix (Fin 2) (Fin 1) ℝ) (fun _ => 1) (fun q => eval ![1 / 2] (pderiv 0 q)) Λ := by
  obtain ⟨Λ, h⟩ := norming_all unisolvent_line (v := fun _ => 1) (fun _ => one_ne_zero)
    (![(aeval ![1 / 2]).toLinearMap, (aeval ![3]).toLinearMap, (aeval ![1 / 2]).toLinearMap.comp (pderiv (0 : Fin 1)).toLinearMap])
  refine ⟨Λ, fun y hy => ?_, ?_⟩
  · rcases Finset.mem_insert.mp hy with rfl | hy
    · exact h 0
    · rw [Finset.mem_singleton.mp hy]
      exact h 1
  · exact h 2

/-! ## The subspace of a linear model -/

/-- C141: the slopes of `ols_subspace` move by at most the change of the outputs over `κ`, and so does the square root of its
eigenvalue. -/
theorem C141_linear {lib lib' : Model.Subspaces.Lib} (hl : SubLibOK lib) (hl' : SubLibOK lib') (hm : 0 < m) (X : Matrix (Fin M) (Fin m) ℝ)
    (f f' w : Fin M → ℝ) (hw : ∀ i, 0 ≤ w i) {κ : ℝ} (hκ : 0 < κ)
    (hX : ∀ (a : ℝ) (s : Fin m → ℝ), κ ^ 2 * ∑ k, s k ^ 2 ≤ ∑ i, w i * (a + ∑ k, X i k * s k) ^ 2) :
    ∃ (e e' : Fin m → ℝ) (V V' : Matrix (Fin m) (Fin m) ℝ) (s s' : Fin m → ℝ),
      Model.Subspaces.ols_subspace lib (.mat (NpMat.of X)) (.mat (wcol f)) (wcol w) = .ok ⟨m, e, V⟩ ∧
      Model.Subspaces.ols_subspace lib' (.mat (NpMat.of X)) (.mat (wcol f')) (wcol w) = .ok ⟨m, e', V'⟩ ∧
      (∃ c, ∀ i, s i = c * V i ⟨0, hm⟩) ∧ (∃ c, ∀ i, s' i = c * V' i ⟨0, hm⟩) ∧
      Real.sqrt (e ⟨0, hm⟩) = Real.sqrt (∑ k, s k ^ 2) ∧ Real.sqrt (e' ⟨0, hm⟩) = Real.sqrt (∑ k, s' k ^ 2) ∧
      Real.sqrt (∑ k, (s k - s' k) ^ 2) ≤ outputError (fun i => Real.sqrt (w i)) f f' / κ ∧
      |Real.sqrt (e ⟨0, hm⟩) - Real.sqrt (e' ⟨0, hm⟩)| ≤ outputError (fun i => Real.sqrt (w i)) f f' / κ := by
  obtain ⟨e, V, a, s, h1, h2, h3, -, ⟨c, -, h4⟩, -⟩ := C36_ols lib hl hm X f w hw
  obtain ⟨e', V', a', s', h1', h2', h3', -, ⟨c', -, h4'⟩, -⟩ := C36_ols lib' hl' hm X f' w hw
  have key := contract (a := fun i => Real.sqrt (w i) * (a + ∑ k, X i k * s k)) (a' := fun i => Real.sqrt (w i) * (a' + ∑ k, X i k * s' k))
    (f := fun i => Real.sqrt (w i) * f i) (f' := fun i => Real.sqrt (w i) * f' i) (fun t => by
      have := h2 (a + t * (a - a')) (s + t • (s - s'))
      simp only [sqNorm, Pi.sub_apply, Pi.add_apply, Pi.smul_apply, smul_eq_mul]
      refine le_of_eq_of_le ?_ (this.trans_eq ?_) <;> refine Finset.sum_congr rfl fun i _ => ?_
      · rw [← mul_sub, mul_pow, Real.sq_sqrt (hw i)]
      · simp only [Pi.add_apply, Pi.smul_apply, Pi.sub_apply, smul_eq_mul, mul_add, Finset.sum_add_distrib, mul_sub, Finset.sum_sub_distrib,
          mul_left_comm _ t, ← Finset.mul_sum]
        nth_rw 1 [← Real.sq_sqrt (hw i)]
        ring)
    (fun t => by
      have := h2' (a' + t * (a - a')) (s' + t • (s - s'))
      simp only [sqNorm, Pi.sub_apply, Pi.add_apply, Pi.smul_apply, smul_eq_mul]
      refine le_of_eq_of_le ?_ (this.trans_eq ?_) <;> refine Finset.sum_congr rfl fun i _ => ?_
      · rw [← mul_sub, mul_pow, Real.sq_sqrt (hw i)]
      · simp only [Pi.add_apply, Pi.smul_apply, Pi.sub_apply, smul_eq_mul, mul_add, Finset.sum_add_distrib, mul_sub, Finset.sum_sub_distrib,
          mul_left_comm _ t, ← Finset.mul_sum]
        nth_rw 1 [← Real.sq_sqrt (hw i)]
        ring)
  have h5 := hX (a - a') (s - s')
  have h6 : ∑ i, w i * (a - a' + ∑ k, X i k * (s - s') k) ^ 2 = sqNorm ((fun i => Real.sqrt (w i) * (a + ∑ k, X i k * s k))
      - fun i => Real.sqrt (w i) * (a' + ∑ k, X i k * s' k)) := by
    simp only [sqNorm, Pi.sub_apply]
    refine Finset.sum_congr rfl fun i _ => ?_
    simp only [mul_sub, Finset.sum_sub_distrib]
    nth_rw 1 [← Real.sq_sqrt (hw i)]
    ring
  have h7 : sqNorm ((fun i => Real.sqrt (w i) * f i) - fun i => Real.sqrt (w i) * f' i) = outputError (fun i => Real.sqrt (w i)) f f' ^ 2 := by
    unfold outputError
    rw [Real.sq_sqrt (Finset.sum_nonneg fun _ _ => sq_nonneg _)]
    simp only [sqNorm, Pi.sub_apply, mul_sub]
  have h8 : Real.sqrt (∑ k, (s k - s' k) ^ 2) ≤ outputError (fun i => Real.sqrt (w i)) f f' / κ := by
    rw [le_div_iff₀ hκ]
    refine (pow_le_pow_iff_left₀ (by positivity) (Real.sqrt_nonneg _) two_ne_zero).mp ?_
    rw [mul_pow, Real.sq_sqrt (Finset.sum_nonneg fun _ _ => sq_nonneg _)]
    calc (∑ k, (s k - s' k) ^ 2) * κ ^ 2 = κ ^ 2 * ∑ k, (s - s') k ^ 2 := mul_comm _ _
      _ ≤ _ := h5
      _ ≤ _ := h6.trans_le (key.trans_eq h7)
  refine ⟨e, e', V, V', s, s', h1, h1', ⟨c, h4⟩, ⟨c', h4'⟩, by rw [h3], by rw [h3'], h8, ?_⟩
  rw [h3, h3']
  refine le_trans ?_ h8
  have hn : ∀ x : Fin m → ℝ, Real.sqrt (∑ k, x k ^ 2) = ‖WithLp.toLp 2 x‖ := fun x => by
    rw [EuclideanSpace.norm_eq]
    simp
  rw [hn s, hn s', show (∑ k, (s k - s' k) ^ 2) = ∑ k, (s - s') k ^ 2 from rfl, hn (s - s')]
  exact abs_norm_sub_norm_le _ _

/-- Two points, each of weight one half: `κ = 1`. -/
example : ∀ (a : ℝ) (s : Fin 1 → ℝ), (1 : ℝ) ^ 2 * ∑ k, s k ^ 2
    ≤ ∑ i, (1 / 2 : ℝ) * (a + ∑ k, (Matrix.of ![![-1], ![1]] : Matrix (Fin 2) (Fin 1) ℝ) i k * s k) ^ 2 := by
  intro a s
  simp [Fin.sum_univ_two]
  nlinarith [sq_nonneg a]

/-! ## The subspace of a quadratic model -/

/-- C141: the eigenvalues of `qphd_subspace`, when the first and second derivatives at the origin of quadratic polynomials are at most `Λ`
times their length on the sample and those of the model are at most `L`. -/
theorem C141_quadratic {lib lib' : Model.Subspaces.Lib} (hl : SubLibOK lib) (hl' : SubLibOK lib') (hm : 0 < m) (X : Matrix (Fin M) (Fin m) ℝ)
    (f f' w : Fin M → ℝ) (hM : (2 + m).choose m ≤ M) {Λ ε : ℝ} (h1 : ∀ k, Norming 2 X w (fun q => eval 0 (pderiv k q)) Λ)
    (h2 : ∀ k r, Norming 2 X w (fun q => eval 0 (pderiv k (pderiv r q))) Λ) (hε : ε = Real.sqrt m * (Λ * outputError w f f')) :
    ∃ (e e' : Fin m → ℝ) (V V' : Matrix (Fin m) (Fin m) ℝ) (P : MvPolynomial (Fin m) ℝ),
      Model.Subspaces.qphd_subspace lib (.mat (NpMat.of X)) (.mat (wcol f)) (wcol w) = .ok ⟨m, e, V⟩ ∧
      Model.Subspaces.qphd_subspace lib' (.mat (NpMat.of X)) (.mat (wcol f')) (wcol w) = .ok ⟨m, e', V'⟩ ∧
      P.totalDegree ≤ 2 ∧ (∀ q : MvPolynomial (Fin m) ℝ, q.totalDegree ≤ 2 →
        ∑ i, (w i * (eval (X i) P - f i)) ^ 2 ≤ ∑ i, (w i * (eval (X i) q - f i)) ^ 2) ∧
      ∀ L, Real.sqrt (∑ k, eval 0 (pderiv k P) ^ 2) ≤ L → (∀ r, Real.sqrt (∑ k, eval 0 (pderiv k (pderiv r P)) ^ 2) ≤ L) →
        ∀ j, |e j - e' j| ≤ ε * (2 * L + ε) * (1 + m) := by
  have hM0 : 0 < M := lt_of_lt_of_le (Nat.choose_pos (by omega)) hM
  obtain ⟨γ, hγ, hγ0, hγ1⟩ : ∃ γ, Model.Subspaces.gamma (NpMat.of X) = .ok γ ∧ 0 ≤ γ ∧ γ ≤ 1 := by
    rcases gamma_of X hM0 hm with ⟨-, h⟩ | ⟨-, h⟩
    · exact ⟨_, h, by norm_num, by norm_num⟩
    · exact ⟨_, h, by norm_num, by norm_num⟩
  obtain ⟨P, d1, m1, q1⟩ := qphd_eq lib hl.lstsq hm X f w hM hγ
  obtain ⟨P', d1', m1', q1'⟩ := qphd_eq lib' hl'.lstsq hm X f' w hM hγ
  have hc := poly_contract d1 d1' m1 m1'
  have hdeg : (P - P').totalDegree ≤ 2 := (totalDegree_sub _ _).trans (max_le d1 d1')
  let G : MvPolynomial (Fin m) ℝ → Matrix (Fin (1 + m)) (Fin m) ℝ := fun P =>
    Matrix.of fun i k => Fin.append (fun _ : Fin 1 => eval 0 (pderiv k P)) (fun r => eval 0 (pderiv k (pderiv r P))) i
  let v : Fin (1 + m) → ℝ := Fin.append (fun _ : Fin 1 => 1) fun _ => γ
  have hv : ∀ i, 0 ≤ v i := fun i => by
    induction i using Fin.addCases <;> simp [v, hγ0]
  have hsum : ∑ i, v i ≤ 1 + m := by
    rw [Fin.sum_univ_add]
    simp only [v, Fin.append_left, Fin.append_right, Finset.sum_const, Finset.card_univ, Fintype.card_fin, nsmul_eq_mul]
    have : (m : ℝ) * γ ≤ m * 1 := by gcongr
    push_cast
    linarith
  have hG : ∀ P : MvPolynomial (Fin m) ℝ, (Matrix.of fun k l => eval 0 (pderiv k P) * eval 0 (pderiv l P)
          + γ * ∑ r, eval 0 (pderiv k (pderiv r P)) * eval 0 (pderiv l (pderiv r P))) = gradOuter (G P) v := by
    intro P
    ext k l
    simp only [gradOuter, Matrix.of_apply]
    rw [Fin.sum_univ_add]
    simp [G, v, Finset.mul_sum]
  have hΛ0 : 0 ≤ Λ := (h1 ⟨0, hm⟩).1
  have hη : 0 ≤ outputError w f f' := Real.sqrt_nonneg _
  have hε0 : 0 ≤ ε := by rw [hε]; positivity
  have hent : ∀ i k, |G P i k - G P' i k| ≤ Λ * outputError w f f' := by
    intro i k
    induction i using Fin.addCases with
    | left i =>
      have := ((h1 k).2 _ hdeg).trans (mul_le_mul_of_nonneg_left hc hΛ0)
      simpa [G] using this
    | right r =>
      have := ((h2 k r).2 _ hdeg).trans (mul_le_mul_of_nonneg_left hc hΛ0)
      simpa [G] using this
  have hrow : ∀ i, Real.sqrt (∑ k, (G P i k - G P' i k) ^ 2) ≤ ε := by
    intro i
    rw [Real.sqrt_le_left hε0, hε, mul_pow, Real.sq_sqrt (Nat.cast_nonneg m)]
    calc ∑ k, (G P i k - G P' i k) ^ 2 ≤ ∑ _k : Fin m, (Λ * outputError w f f') ^ 2 := Finset.sum_le_sum fun k _ => by
          rw [← sq_abs]
          exact pow_le_pow_left₀ (abs_nonneg _) (hent i k) 2
      _ = _ := by simp
  obtain ⟨e, V, e1, -⟩ := C34_posSemidef lib hl hm _ (gradOuter_posSemidef (G P) v hv)
  obtain ⟨e', V', e1', -⟩ := C34_posSemidef lib' hl' hm _ (gradOuter_posSemidef (G P') v hv)
  refine ⟨e, e', V, V', P, ?_, ?_, d1, m1, fun L hL hL' j => ?_⟩
  · rw [q1, hG, e1]
  · rw [q1', hG, e1']
  obtain ⟨e2, V2, e2', V2', b1, b2, b3⟩ := C99_eigenvalues lib lib' hl hl' hm (G P) (G P') v hv (L := L) hε0 (fun i => by
    induction i using Fin.addCases with
    | left i => simpa [G] using hL
    | right r => simpa [G] using hL' r) hrow
  rw [active_subspace_eq, e1] at b1
  rw [active_subspace_eq, e1'] at b2
  injection b1 with b1
  injection b1 with _ b1 _
  injection b2 with b2
  injection b2 with _ b2 _
  have hb := b3 j
  rw [← b1, ← b2] at hb
  have hL0 : 0 ≤ L := (Real.sqrt_nonneg _).trans hL
  exact hb.trans (mul_le_mul_of_nonneg_left hsum (by positivity))

/-- Six points of the plane. -/
example : ∃ Λ, (∀ k, Norming 2 sixPoints (fun _ => 1) (fun q => eval 0 (pderiv k q)) Λ) ∧
    ∀ k r, Norming 2 sixPoints (fun _ => 1) (fun q => eval 0 (pderiv k (pderiv r q))) Λ := by
  obtain ⟨Λ, h⟩ := norming_all sixPoints_unisolvent (v := fun _ => 1) (fun _ => one_ne_zero) (ι := Fin 2 ⊕ Fin 2 × Fin 2)
    (Sum.elim (fun k => (aeval (0 : Fin 2 → ℝ)).toLinearMap.comp (pderiv k).toLinearMap)
      fun p => (aeval (0 : Fin 2 → ℝ)).toLinearMap.comp ((pderiv p.1).toLinearMap.comp (pderiv p.2).toLinearMap))
  exact ⟨Λ, fun k => h (.inl k), fun k r => h (.inr (k, r))⟩

/-! ## Finite differences -/

/-- C141: finite differences of a simulation that is off by at most `η` from a smooth function. -/
theorem C141_differences {lib lib' : Model.Subspaces.Lib} (hl : SubLibOK lib) (hl' : SubLibOK lib') (hm : 0 < m)
    (g : (m : ℕ) → (Fin m → ℝ) → ℝ) (X : Matrix (Fin M) (Fin m) ℝ) {h K L η ε : ℝ} (hh : 0 < h) (hK : 0 ≤ K) (hη : 0 ≤ η) (st : W)
    {D : Set (Fin m → ℝ)} {F : (Fin m → ℝ) → ℝ} {d : (Fin m → ℝ) → Fin m → ℝ} (hF : SmoothOn D F d K) (hXD : ∀ i, X i ∈ D)
    (hXD' : ∀ i k, X i + h • Pi.single k 1 ∈ D) (hg : ∀ x ∈ D, |g m x - F x| ≤ η) (hL : ∀ i, Real.sqrt (∑ j, d (X i) j ^ 2) ≤ L)
    (w : Fin M → ℝ) (hw : ∀ i, 0 ≤ w i) (hε : ε = Real.sqrt m * (K * h / 2 + 2 * η / h)) :
    ∃ (G : Matrix (Fin M) (Fin m) ℝ) (e e' : Fin m → ℝ) (V V' : Matrix (Fin m) (Fin m) ℝ),
      (Model.Gradients.finite_difference_gradients (.mat (.of X)) (fun m x => pure (g m x)) h).run st = (.ok (.of G), st) ∧
      (∀ i k, |d (X i) k - G i k| ≤ K * h / 2 + 2 * η / h) ∧
      Model.Subspaces.active_subspace lib (.mat (NpMat.of (Matrix.of fun i k => d (X i) k))) (wcol w) = .ok ⟨m, e, V⟩ ∧
      Model.Subspaces.active_subspace lib' (.mat (NpMat.of G)) (wcol w) = .ok ⟨m, e', V'⟩ ∧
      ∀ j, |e j - e' j| ≤ ε * (2 * L + ε) * ∑ i, w i := by
  obtain ⟨G, r, hG⟩ := C10_formula (W := W) g X h st
  have hent : ∀ i k, |d (X i) k - G i k| ≤ K * h / 2 + 2 * η / h := by
    intro i k
    have t := taylor_one hF (hXD i) (hXD' i k)
    have t1 : ∑ j, d (X i) j * ((X i + h • Pi.single k 1 : Fin m → ℝ) j - X i j) = d (X i) k * h := by
      simp [Pi.single_apply]
    have t2 : ∑ j, ((X i + h • Pi.single k 1 : Fin m → ℝ) j - X i j) ^ 2 = h ^ 2 := by
      simp [Pi.single_apply]
    rw [t1, t2] at t
    have a1 := hg _ (hXD i)
    have a2 := hg _ (hXD' i k)
    rw [hG]
    have e1 : d (X i) k - (g m (X i + h • Pi.single k 1) - g m (X i)) / h
        = (d (X i) k * h - (g m (X i + h • Pi.single k 1) - g m (X i))) / h := by field_simp
    rw [e1, abs_div, abs_of_pos hh, div_le_iff₀ hh]
    have e2 : (K * h / 2 + 2 * η / h) * h = K / 2 * h ^ 2 + 2 * η := by field_simp
    rw [e2]
    rw [abs_le] at *
    constructor <;> linarith [t.1, t.2, a1.1, a1.2, a2.1, a2.2]
  have hε0 : 0 ≤ ε := by rw [hε]; positivity
  have hrow : ∀ i, Real.sqrt (∑ k, ((Matrix.of fun i k => d (X i) k) i k - G i k) ^ 2) ≤ ε := by
    intro i
    rw [Real.sqrt_le_left hε0, hε, mul_pow, Real.sq_sqrt (Nat.cast_nonneg m)]
    calc ∑ k, ((Matrix.of fun i k => d (X i) k) i k - G i k) ^ 2 ≤ ∑ _k : Fin m, (K * h / 2 + 2 * η / h) ^ 2 := Finset.sum_le_sum fun k _ => by
          rw [← sq_abs]
          exact pow_le_pow_left₀ (abs_nonneg _) (hent i k) 2
      _ = _ := by simp
  obtain ⟨e, V, e', V', h1, h2, h3⟩ := C99_eigenvalues lib lib' hl hl' hm (Matrix.of fun i k => d (X i) k) G w hw hε0 hL hrow
  exact ⟨G, e, e', V, V', r, hent, h1, h2, h3⟩

/-- The cosine of ten times the first input as error, `η = 1/100`; the function and its domain are those of the example for C140. -/
example : ∀ x ∈ (Set.univ : Set (Fin 2 → ℝ)), |(x 0 ^ 2 + Real.cos (10 * x 0) / 100) - x 0 ^ 2| ≤ 1 / 100 := by
  intro x _
  rw [add_sub_cancel_left, abs_div, abs_of_pos (by norm_num : (0 : ℝ) < 100)]
  have := Real.abs_cos_le_one (10 * x 0)
  linarith

/-- With the step `2 √(η / K)` the error of each derivative is at most `2 √(η K)`; no step gives a smaller bound. -/
theorem C141_step {K η : ℝ} (hK : 0 < K) (hη : 0 < η) :
    K * (2 * Real.sqrt (η / K)) / 2 + 2 * η / (2 * Real.sqrt (η / K)) = 2 * Real.sqrt (η * K) ∧
      ∀ h : ℝ, 0 < h → 2 * Real.sqrt (η * K) ≤ K * h / 2 + 2 * η / h := by
  constructor
  · rw [Real.sqrt_div hη.le, Real.sqrt_mul hη.le]
    have h1 := Real.sqrt_pos.mpr hK
    have h2 := Real.sqrt_pos.mpr hη
    have h3 := Real.sq_sqrt hK.le
    have h4 := Real.sq_sqrt hη.le
    field_simp
    nlinarith
  · intro h hh
    rw [show 2 * Real.sqrt (η * K) = Real.sqrt (η * K) * 2 from mul_comm _ _, ← le_div_iff₀ two_pos,
      Real.sqrt_le_left (by positivity)]
    have : ((K * h / 2 + 2 * η / h) / 2) ^ 2 - η * K = ((K * h / 2 - 2 * η / h) / 2) ^ 2 := by
      field_simp
      ring
    nlinarith [sq_nonneg ((K * h / 2 - 2 * η / h) / 2)]

/-- C141: the errors of the simulation do come out divided by the step: a simulation of the zero function that is off by at most `η` has
the difference `2 η / h`. -/
theorem C141_noise (X : Matrix (Fin M) (Fin m) ℝ) {h η : ℝ} (hh : 0 < h) (hη : 0 ≤ η) (st : W) (i : Fin M) (k : Fin m) :
    ∃ (g : (m : ℕ) → (Fin m → ℝ) → ℝ) (G : Matrix (Fin M) (Fin m) ℝ), (∀ x, |g m x| ≤ η) ∧
      (Model.Gradients.finite_difference_gradients (.mat (.of X)) (fun m x => pure (g m x)) h).run st = (.ok (.of G), st) ∧
      G i k = 2 * η / h := by
  classical
  let g : (m : ℕ) → (Fin m → ℝ) → ℝ := fun m' x => if ∃ hm : m' = m, ∀ j, x (Fin.cast hm.symm j) = X i j then -η else η
  obtain ⟨G, r, hG⟩ := C10_formula (W := W) g X h st
  refine ⟨g, G, fun x => ?_, r, ?_⟩
  · simp only [g]
    split_ifs
    · rw [abs_neg, abs_of_nonneg hη]
    · rw [abs_of_nonneg hη]
  · have h1 : g m (X i) = -η := if_pos ⟨rfl, fun j => rfl⟩
    have h2 : g m (X i + h • Pi.single k 1) = η := by
      refine if_neg ?_
      rintro ⟨hm', hx⟩
      have := hx k
      simp at this
      exact hh.ne' this
    rw [hG, h1, h2]
    ring

end Props
