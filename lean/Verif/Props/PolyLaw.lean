import Verif.Props.OlsLaw
import Verif.Props.PolyApprox
import Verif.Proofs.MomentConv
import Mathlib.MeasureTheory.Measure.OpenPos
import Mathlib.Topology.Algebra.MvPolynomial
import Mathlib.Algebra.MvPolynomial.Funext

/-!
# Property C122: polynomial fits to random samples converge to the best approximation in the mean square
-/

open Py Model.ResponseSurfaces Spec Matrix Proofs.LsqLaw Proofs.PolyApprox Proofs.PolyTrain Proofs.Rotation MeasureTheory ProbabilityTheory Filter MvPolynomial
open scoped Topology

namespace Props

variable {Ω : Type} [MeasurableSpace Ω] {μ : Measure Ω} {m : ℕ}

/-- Polynomials of degree at most `N` have finite second moments, and only zero vanishes almost surely. -/
structure PolyMoments (ν : Measure (Fin m → ℝ)) (N : ℕ) : Prop where
  sq : ∀ q : MvPolynomial (Fin m) ℝ, q.totalDegree ≤ N → MemLp (fun y => eval y q) 2 ν
  det : ∀ q : MvPolynomial (Fin m) ℝ, q.totalDegree ≤ N → ∫ y, eval y q ^ 2 ∂ν = 0 → q = 0

/-- `P` is a best approximation of `F` among the polynomials of degree at most `N`. -/
structure IsBest (ν : Measure (Fin m → ℝ)) (N : ℕ) (F : (Fin m → ℝ) → ℝ) (P : MvPolynomial (Fin m) ℝ) : Prop where
  deg : P.totalDegree ≤ N
  best : ∀ q : MvPolynomial (Fin m) ℝ, q.totalDegree ≤ N → ∫ y, (eval y P - F y) ^ 2 ∂ν ≤ ∫ y, (eval y q - F y) ^ 2 ∂ν

theorem measurable_eval (q : MvPolynomial (Fin m) ℝ) : Measurable fun y : Fin m → ℝ => eval y q := (MvPolynomial.continuous_eval q).measurable

theorem fitted_nodup {N : ℕ} {I : List (Fin m → ℕ)} (hmem : ∀ α, α ∈ I ↔ ∑ k, α k ≤ N) (c : Fin I.length → ℝ) : (fitted I c).totalDegree ≤ N :=
  totalDegree_fitted I c fun α hα => (hmem α).mp hα

theorem IsBest.exists {ν : Measure (Fin m → ℝ)} {N : ℕ} (hν : PolyMoments ν N) (hm : 1 ≤ m) {F : (Fin m → ℝ) → ℝ} (hF : MemLp F 2 ν) : ∃ P, IsBest ν N F P := by
  obtain ⟨I, -, hnd, hmem, -, -⟩ := C25_enumerates N m hm
  have hmon : ∀ j : Fin I.length, (fun y : Fin m → ℝ => ∏ k, y k ^ I.get j k) = fun y => eval y (monomial (fin (I.get j)) 1) := fun j => by
    funext y
    rw [eval_monomial', one_mul]
  have hdeg : ∀ j : Fin I.length, (monomial (fin (I.get j)) (1 : ℝ)).totalDegree ≤ N := fun j => by
    refine (totalDegree_monomial_le _ _).trans ?_
    rw [Finsupp.sum_fintype _ _ (fun _ => rfl)]
    exact (hmem _).mp (List.get_mem I j)
  obtain ⟨u, hu⟩ := exists_best (ν := ν) (φ := fun (j : Fin I.length) (y : Fin m → ℝ) => ∏ k, y k ^ I.get j k) (fun j => by rw [hmon]; exact hν.sq _ (hdeg j)) hF
    (fun v hv => by
      simp only [← eval_fitted] at hv
      have := hν.det _ (fitted_nodup hmem v) hv
      funext j
      rw [← coeff_fitted I hnd v j, this]
      rfl)
  refine ⟨fitted I u, fitted_nodup hmem u, fun q hq => ?_⟩
  have h := hu fun j => coeff (fin (I.get j)) q
  simp only [← eval_fitted] at h
  rwa [← eq_fitted I hnd (fun α hα => (hmem α).mpr hα) q hq] at h

/-- Linear functionals of polynomials whose coefficients converge. -/
theorem fitted_tendsto {I : List (Fin m → ℕ)} {c : ℕ → Fin I.length → ℝ} {u : Fin I.length → ℝ} (h : ∀ j, Tendsto (fun M => c M j) atTop (𝓝 (u j)))
    (l : MvPolynomial (Fin m) ℝ →ₗ[ℝ] ℝ) : Tendsto (fun M => l (fitted I (c M))) atTop (𝓝 (l (fitted I u))) := by
  have e : ∀ c : Fin I.length → ℝ, l (fitted I c) = ∑ j, c j * l (monomial (fin (I.get j)) 1) := fun c => by
    rw [fitted, map_sum]
    refine Finset.sum_congr rfl fun j _ => ?_
    rw [← smul_eq_mul, ← map_smul, smul_monomial, smul_eq_mul, mul_one]
  simp only [e]
  exact tendsto_finsetSum _ fun j _ => (h j).mul_const _

/-- The variance of a sample. -/
theorem npVar_eq {M : ℕ} (hM : 0 < M) (f : Fin M → ℝ) : npVar f = (∑ i, f i ^ 2) / M - ((∑ i, f i) / M) ^ 2 := by
  have hM' : (M : ℝ) ≠ 0 := by exact_mod_cast hM.ne'
  have e : ∀ i, (f i - (∑ j, f j) / M) ^ 2 = f i ^ 2 - 2 * ((∑ j, f j) / M) * f i + ((∑ j, f j) / M) ^ 2 := fun i => by ring
  unfold npVar
  simp only [e, Finset.sum_add_distrib, Finset.sum_sub_distrib, ← Finset.mul_sum, Finset.sum_const, Finset.card_univ, Fintype.card_fin, nsmul_eq_mul]
  field_simp
  ring

/-- C122: for independent inputs with distribution `ν` and outputs `F` of finite second moment, almost surely every fit with enough points succeeds and as
the number of points grows the predictions and gradients at every point, the attributes `g` and `H`, and the mean square error on new inputs converge to those
of the best approximation `P` in the mean square; `Rsqr` converges to one minus the mean square error of `P` divided by the variance of the output. -/
theorem C122_fit (lib : Lib) (hl : LstsqOK lib) (w : PolyApprox) (hm : 1 ≤ m) (hN : 1 ≤ w.N) {ν : Measure (Fin m → ℝ)} [IsProbabilityMeasure ν] (hν : PolyMoments ν w.N)
    {x : ℕ → Ω → Fin m → ℝ} (hx : ∀ i, MeasurePreserving (x i) μ ν) (hind : Pairwise fun i j => IndepFun (x i) (x j) μ) {F : (Fin m → ℝ) → ℝ} (hFm : Measurable F)
    (hF : MemLp F 2 ν) {P : MvPolynomial (Fin m) ℝ} (hP : IsBest ν w.N F P) :
    ∀ᵐ ω ∂μ, ∃ (w' : ℕ → PolyApprox) (Q : ℕ → MvPolynomial (Fin m) ℝ) (r : ℕ → ℝ),
      (∀ M : ℕ, (w.N + m).choose m ≤ M → (fit lib (rowsOf x M ω) (fun i => F (x i ω)) none).run w = (.ok (), w' M) ∧
        (∀ (M' : ℕ) (Y : Matrix (Fin M') (Fin m) ℝ), (w' M).predict (.mat (NpMat.of Y)) true
          = .ok (NpVec.of fun i => eval (Y i) (Q M), some (NpMat.of (Matrix.of fun i k => eval (Y i) (pderiv k (Q M)))))) ∧
        (w' M).g = some (NpVec.of fun k => eval 0 (pderiv k (Q M))) ∧
        (1 < w.N → (w' M).H = some (NpMat.of (Matrix.of fun k l => eval 0 (pderiv k (pderiv l (Q M)))))) ∧ (w' M).Rsqr = some (r M)) ∧
      (∀ y, Tendsto (fun M => eval y (Q M)) atTop (𝓝 (eval y P))) ∧
      (∀ y k, Tendsto (fun M => eval y (pderiv k (Q M))) atTop (𝓝 (eval y (pderiv k P)))) ∧
      (∀ y k l, Tendsto (fun M => eval y (pderiv k (pderiv l (Q M)))) atTop (𝓝 (eval y (pderiv k (pderiv l P))))) ∧
      Tendsto (fun M => ∫ y, (eval y (Q M) - F y) ^ 2 ∂ν) atTop (𝓝 (∫ y, (eval y P - F y) ^ 2 ∂ν)) ∧
      ((∫ y, F y ^ 2 ∂ν) - (∫ y, F y ∂ν) ^ 2 ≠ 0 →
        Tendsto r atTop (𝓝 (1 - (∫ y, (eval y P - F y) ^ 2 ∂ν) / ((∫ y, F y ^ 2 ∂ν) - (∫ y, F y ∂ν) ^ 2)))) := by
  obtain ⟨I, -, hnd, hmem, -, -⟩ := C25_enumerates w.N m hm
  have hPf := eq_fitted I hnd (fun α hα => (hmem α).mpr hα) P hP.deg
  set u : Fin I.length → ℝ := fun j => coeff (fin (I.get j)) P with hud
  have hmon : ∀ j : Fin I.length, (fun y : Fin m → ℝ => ∏ k, y k ^ I.get j k) = fun y => eval y (monomial (fin (I.get j)) 1) := fun j => by
    funext y
    rw [eval_monomial', one_mul]
  have hdeg : ∀ j : Fin I.length, (monomial (fin (I.get j)) (1 : ℝ)).totalDegree ≤ w.N := fun j => by
    refine (totalDegree_monomial_le _ _).trans ?_
    rw [Finsupp.sum_fintype _ _ (fun _ => rfl)]
    exact (hmem _).mp (List.get_mem I j)
  have hφm : ∀ j : Fin I.length, Measurable fun y : Fin m → ℝ => ∏ k, y k ^ I.get j k := fun j => by
    rw [hmon]
    exact measurable_eval _
  have hφ : ∀ j : Fin I.length, MemLp (fun y : Fin m → ℝ => ∏ k, y k ^ I.get j k) 2 ν := fun j => by
    rw [hmon]
    exact hν.sq _ (hdeg j)
  have h1 := lsq_law_of (φ := fun (j : Fin I.length) (y : Fin m → ℝ) => ∏ k, y k ^ I.get j k) (u := u) hx hind hφm hFm hφ hF
    (fun v hv => by
      simp only [← eval_fitted] at hv
      have := hν.det _ (fitted_nodup hmem v) hv
      funext j
      rw [← coeff_fitted I hnd v j, this]
      rfl) (fun v => by
      simp only [← eval_fitted]
      rw [← hPf]
      exact hP.best _ (fitted_nodup hmem v))
  have h2 := residual_law (φ := fun (j : Fin I.length) (y : Fin m → ℝ) => ∏ k, y k ^ I.get j k) hx hind hφm hFm hφ hF
  have h3 := avg_law hx hind hFm (hF.integrable (by norm_num))
  have h4 := avg_law hx hind (hFm.pow_const 2) hF.integrable_sq
  filter_upwards [h1, h2, h3, h4] with ω g1 g2 g3 g4
  have hrun : ∀ M : ℕ, ∃ (w' : PolyApprox) (Q : MvPolynomial (Fin m) ℝ), Q.totalDegree ≤ w.N ∧ ((w.N + m).choose m ≤ M →
      (fit lib (rowsOf x M ω) (fun i => F (x i ω)) none).run w = (.ok (), w') ∧
        (∀ (M' : ℕ) (Y : Matrix (Fin M') (Fin m) ℝ), w'.predict (.mat (NpMat.of Y)) true
          = .ok (NpVec.of fun i => eval (Y i) Q, some (NpMat.of (Matrix.of fun i k => eval (Y i) (pderiv k Q))))) ∧
        w'.g = some (NpVec.of fun k => eval 0 (pderiv k Q)) ∧
        (1 < w.N → w'.H = some (NpMat.of (Matrix.of fun k l => eval 0 (pderiv k (pderiv l Q))))) ∧
        w'.Rsqr = some (1 - (∑ i : Fin M, (eval (x i ω) Q - F (x i ω)) ^ 2) / (M * npVar fun i : Fin M => F (x i ω))) ∧
        ∀ q : MvPolynomial (Fin m) ℝ, q.totalDegree ≤ w.N → ∑ i : Fin M, (eval (x i ω) Q - F (x i ω)) ^ 2 ≤ ∑ i : Fin M, (eval (x i ω) q - F (x i ω)) ^ 2) := by
    intro M
    by_cases hM : (w.N + m).choose m ≤ M
    swap
    · exact ⟨w, 0, by simp, fun h => absurd h hM⟩
    obtain ⟨w', Q, q1, q2, -, -, -, q3, q4, q5, q6, q7⟩ := fit_ok lib hl w hm hN (rowsOf x M ω) (fun i => F (x i ω)) none hM
    simp only [Option.getD_none, one_mul] at q6 q7
    exact ⟨w', Q, q2, fun _ => ⟨q1, fun M' Y => (q3 M' Y).2, q4, q5, q7, q6⟩⟩
  choose w' Q hQ hr using hrun
  have hQf : ∀ M, Q M = fitted I fun j => coeff (fin (I.get j)) (Q M) := fun M => eq_fitted I hnd (fun α hα => (hmem α).mpr hα) (Q M) (hQ M)
  have g5 := g1 (fun M j => coeff (fin (I.get j)) (Q M)) (by
    filter_upwards [eventually_ge_atTop ((w.N + m).choose m)] with M hM v
    obtain ⟨-, -, -, -, -, q⟩ := hr M hM
    simp only [← eval_fitted]
    rw [← hQf]
    exact q _ (fitted_nodup hmem v))
  have g6 : ∀ l : MvPolynomial (Fin m) ℝ →ₗ[ℝ] ℝ, Tendsto (fun M => l (Q M)) atTop (𝓝 (l P)) := fun l => by
    have := fitted_tendsto (I := I) g5 l
    simp only [← hQf] at this
    rwa [← hPf] at this
  have g7 := error_tendsto hφ hF g5
  simp only [← eval_fitted, ← hQf] at g7
  rw [← hPf] at g7
  have g8 := g2 _ _ g5
  simp only [← eval_fitted, ← hQf] at g8
  rw [← hPf] at g8
  refine ⟨w', Q, fun M => 1 - (∑ i : Fin M, (eval (x i ω) (Q M) - F (x i ω)) ^ 2) / (M * npVar fun i : Fin M => F (x i ω)), fun M hM => ?_,
    fun y => g6 (MvPolynomial.aeval y).toLinearMap, fun y k => g6 ((MvPolynomial.aeval y).toLinearMap ∘ₗ (pderiv k).toLinearMap),
    fun y k l => g6 ((MvPolynomial.aeval y).toLinearMap ∘ₗ (pderiv k).toLinearMap ∘ₗ (pderiv l).toLinearMap), g7, fun hv => ?_⟩
  · obtain ⟨q1, q2, q3, q4, q5, -⟩ := hr M hM
    exact ⟨q1, q2, q3, q4, q5⟩
  · refine Tendsto.const_sub 1 ?_
    refine (g8.div (g4.sub (g3.pow 2)) hv).congr' ?_
    filter_upwards [eventually_gt_atTop 0] with M hM
    rw [npVar_eq hM, ← div_div]
    rfl

/-! ## Distributions -/

/-- Independent components with moments of all orders and a distribution that charges the neighbourhoods of infinitely many points. -/
theorem polyMoments_pi {ρ : Measure ℝ} [IsProbabilityMeasure ρ] (hmom : ∀ k : ℕ, Integrable (fun t : ℝ => t ^ k) ρ) {S : Set ℝ} (hS : S.Infinite)
    (hρ : ∀ t ∈ S, ∀ δ > 0, ρ (Metric.ball t δ) ≠ 0) (N : ℕ) : PolyMoments (Measure.pi fun _ : Fin m => ρ) N := by
  have hint : ∀ q : MvPolynomial (Fin m) ℝ, Integrable (fun y => eval y q) (Measure.pi fun _ : Fin m => ρ) := fun q =>
    (Proofs.MomentConv.integral_poly _ (fun _ k => hmom k) q).1
  have hsq : ∀ q : MvPolynomial (Fin m) ℝ, Integrable (fun y => eval y q ^ 2) (Measure.pi fun _ : Fin m => ρ) := fun q => by
    have := hint (q ^ 2)
    simp only [map_pow] at this
    exact this
  refine ⟨fun q _ => (memLp_two_iff_integrable_sq (measurable_eval q).aestronglyMeasurable).mpr (hsq q), fun q _ h0 => ?_⟩
  have hae := (integral_eq_zero_iff_of_nonneg (fun y => sq_nonneg _) (hsq q)).mp h0
  refine MvPolynomial.funext_set (fun _ => S) (fun _ => hS) fun y hy => ?_
  rw [map_zero]
  by_contra hne
  have hopen : IsOpen {z : Fin m → ℝ | eval z q ≠ 0} := isOpen_ne_fun (MvPolynomial.continuous_eval q) continuous_const
  obtain ⟨δ, hδ, hball⟩ := Metric.isOpen_iff.mp hopen y hne
  have h1 : (Measure.pi fun _ : Fin m => ρ) (Metric.ball y δ) = 0 := by
    refine measure_mono_null (fun z hz => ?_) (ae_iff.mp hae)
    have := hball hz
    simpa using this
  rw [ball_pi y hδ, Measure.pi_pi, Finset.prod_eq_zero_iff] at h1
  obtain ⟨i, -, hi⟩ := h1
  exact hρ (y i) (hy i (Set.mem_univ i)) δ hδ hi

/-- Standard normal inputs. -/
theorem polyMoments_normal (N : ℕ) : PolyMoments (normal m) N := by
  refine polyMoments_pi (fun k => by simpa using Proofs.HermitePoly.integrable_poly (Polynomial.X ^ k)) Set.infinite_univ (fun t _ δ hδ h => ?_) N
  have h1 := gaussianReal_absolutelyContinuous' 0 (one_ne_zero (α := NNReal)) h
  rw [Real.volume_ball] at h1
  simp only [ENNReal.ofReal_eq_zero] at h1
  linarith

/-- Inputs uniform on the cube. -/
theorem polyMoments_unif (N : ℕ) : PolyMoments (Measure.pi fun _ : Fin m => unifMeasure) N := by
  refine polyMoments_pi (fun k => (unifMeasure_pow k).1) (Set.Ioo_infinite (by norm_num : (-1 : ℝ) < 1)) (fun t ht δ hδ h => ?_) N
  have h1 : volume (Metric.ball t δ ∩ Set.Ioo (-1) 1) = 0 := by
    rw [unifMeasure, Measure.smul_apply, ENNReal.smul_def, smul_eq_mul, mul_eq_zero, Measure.restrict_apply Metric.isOpen_ball.measurableSet] at h
    rcases h with h | h
    · norm_num at h
    · exact measure_mono_null (Set.inter_subset_inter_right _ Set.Ioo_subset_Ioc_self) h
  exact ((Metric.isOpen_ball.inter isOpen_Ioo).measure_pos volume ⟨t, Metric.mem_ball_self hδ, ht⟩).ne' h1

/-! ## The hypotheses can be met -/

/-- Quadratic fits to `|x_1|` with inputs uniform on the square. -/
example (lib : Lib) (hl : LstsqOK lib) {P : MvPolynomial (Fin 2) ℝ} (hP : IsBest (Measure.pi fun _ : Fin 2 => unifMeasure) 2 (fun y => |y 0|) P) :=
  C122_fit lib hl { N := 2 } (by norm_num) (by norm_num) (polyMoments_unif 2) (inputs_exist (Measure.pi fun _ : Fin 2 => unifMeasure)).1
    (inputs_exist _).2 (F := fun y => |y 0|) (by fun_prop) (white_unif.sq 0).abs hP

/-- The best approximation exists. -/
example : ∃ P, IsBest (Measure.pi fun _ : Fin 2 => unifMeasure) 2 (fun y => |y 0|) P := IsBest.exists (polyMoments_unif 2) (by norm_num) (white_unif.sq 0).abs

/-- Linear fits with standard normal inputs. -/
example (lib : Lib) (hl : LstsqOK lib) {F : (Fin 3 → ℝ) → ℝ} (hFm : Measurable F) (hF : MemLp F 2 (normal 3)) {P : MvPolynomial (Fin 3) ℝ} (hP : IsBest (normal 3) 1 F P) :=
  C122_fit lib hl { N := 1 } (by norm_num) le_rfl (polyMoments_normal 1) (inputs_exist (normal 3)).1 (inputs_exist _).2 hFm hF hP

end Props
