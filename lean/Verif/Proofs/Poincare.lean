import Mathlib.Probability.Distributions.Gaussian.Fernique
import Mathlib.Probability.Distributions.Gaussian.HasGaussianLaw.Independence
import Mathlib.Analysis.Calculus.ParametricIntegral
import Mathlib.Analysis.Calculus.MeanValue
import Mathlib.Analysis.Calculus.Deriv.MeanValue
import Mathlib.Analysis.SpecialFunctions.Trigonometric.Deriv
import Verif.Proofs.Rotation
import Verif.Spec.RidgeError

/-!
# The Poincaré inequality of the standard normal distribution

For a continuously differentiable function whose derivatives grow at most like a power, the variance is at most the mean of the squared length
of the gradient.  The proof interpolates between `f (x) f (x)` and `f (x) f (y)` by the rotation of two independent copies.
-/

open MeasureTheory ProbabilityTheory Proofs.Rotation Spec

namespace Proofs.Poincare

section Growth

variable {E F : Type*} [NormedAddCommGroup E] [NormedAddCommGroup F]

theorem one_le_base (x : E) : 1 ≤ 1 + ‖x‖ := by linarith [norm_nonneg x]

theorem _root_.Spec.PolyGrowth.bound {f : E → ℝ} (h : PolyGrowth f) : ∃ (K : ℝ) (p : ℕ), 0 ≤ K ∧ ∀ x, |f x| ≤ K * (1 + ‖x‖) ^ p := by
  obtain ⟨K, p, h⟩ := h
  refine ⟨K, p, ?_, h⟩
  have := (abs_nonneg _).trans (h 0)
  simpa using this

theorem _root_.Spec.PolyGrowth.mul {f g : E → ℝ} (hf : PolyGrowth f) (hg : PolyGrowth g) : PolyGrowth fun x => f x * g x := by
  obtain ⟨K, p, hK, h1⟩ := hf.bound
  obtain ⟨L, q, -, h2⟩ := hg.bound
  refine ⟨K * L, p + q, fun x => ?_⟩
  rw [abs_mul, pow_add]
  calc |f x| * |g x| ≤ K * (1 + ‖x‖) ^ p * (L * (1 + ‖x‖) ^ q) :=
        mul_le_mul (h1 x) (h2 x) (abs_nonneg _) (mul_nonneg hK (pow_nonneg (zero_le_one.trans (one_le_base x)) _))
    _ = _ := by ring

theorem _root_.Spec.PolyGrowth.add {f g : E → ℝ} (hf : PolyGrowth f) (hg : PolyGrowth g) : PolyGrowth fun x => f x + g x := by
  obtain ⟨K, p, hK, h1⟩ := hf.bound
  obtain ⟨L, q, hL, h2⟩ := hg.bound
  refine ⟨K + L, max p q, fun x => (abs_add_le _ _).trans ?_⟩
  rw [add_mul]
  exact add_le_add ((h1 x).trans (mul_le_mul_of_nonneg_left (pow_le_pow_right₀ (one_le_base x) (le_max_left _ _)) hK))
    ((h2 x).trans (mul_le_mul_of_nonneg_left (pow_le_pow_right₀ (one_le_base x) (le_max_right _ _)) hL))

theorem _root_.Spec.PolyGrowth.const (c : ℝ) : PolyGrowth fun _ : E => c := ⟨|c|, 0, fun x => by simp⟩

theorem _root_.Spec.PolyGrowth.sum {ι : Type*} (s : Finset ι) {f : ι → E → ℝ} (h : ∀ i, PolyGrowth (f i)) : PolyGrowth fun x => ∑ i ∈ s, f i x := by
  classical
  induction s using Finset.induction_on with
  | empty => simpa using PolyGrowth.const 0
  | insert a s ha ih => simpa [Finset.sum_insert ha] using (h a).add ih

/-- Composition with a function of at most linear growth. -/
theorem _root_.Spec.PolyGrowth.comp {f : E → ℝ} (hf : PolyGrowth f) (g : F → E) (C : ℝ) (hg : ∀ x, ‖g x‖ ≤ C * (1 + ‖x‖)) : PolyGrowth fun x => f (g x) := by
  obtain ⟨K, p, hK, h1⟩ := hf.bound
  refine ⟨K * (1 + C) ^ p, p, fun x => (h1 _).trans ?_⟩
  rw [mul_assoc, ← mul_pow]
  refine mul_le_mul_of_nonneg_left (pow_le_pow_left₀ (zero_le_one.trans (one_le_base _)) ?_ _) hK
  nlinarith [hg x, norm_nonneg x]

end Growth

section Integrable

variable {E : Type*} [NormedAddCommGroup E] [NormedSpace ℝ E] [SecondCountableTopology E] [CompleteSpace E] [MeasurableSpace E] [BorelSpace E]

/-- Measurable functions of polynomial growth are integrable. -/
theorem _root_.Spec.PolyGrowth.integrable' {f : E → ℝ} (hf : PolyGrowth f) (μ : Measure E) [IsGaussian μ] (hc : AEStronglyMeasurable f μ) :
    Integrable f μ := by
  obtain ⟨K, p, h⟩ := hf
  have h0 : MemLp (fun x : E => ‖x‖) (p : ENNReal) μ := (IsGaussian.memLp_id μ p (ENNReal.natCast_ne_top p)).norm
  have h1 : MemLp (fun x : E => 1 + ‖x‖) (p : ENNReal) μ := (memLp_const (1 : ℝ)).add h0
  have h2 : Integrable (fun x : E => ‖1 + ‖x‖‖ ^ p) μ := h1.integrable_norm_pow'
  refine Integrable.mono' (h2.const_mul K) hc (ae_of_all _ fun x => ?_)
  rw [Real.norm_eq_abs]
  refine (h x).trans_eq ?_
  rw [Real.norm_of_nonneg (zero_le_one.trans (one_le_base x))]

/-- Continuous functions of polynomial growth are integrable. -/
theorem _root_.Spec.PolyGrowth.integrable {f : E → ℝ} (hf : PolyGrowth f) (hc : Continuous f) (μ : Measure E) [IsGaussian μ] : Integrable f μ :=
  hf.integrable' μ hc.aestronglyMeasurable

end Integrable

instance isGaussian_normal (k : ℕ) : IsGaussian (normal k) := by
  have h := (iIndepFun_pi (μ := fun _ : Fin k => gaussianReal 0 1) (X := fun _ => id) fun _ => aemeasurable_id).hasGaussianLaw
    (fun i => by
      have : MeasurePreserving (fun x : Fin k → ℝ => x i) (normal k) (gaussianReal 0 1) := measurePreserving_eval _ i
      exact ⟨by simpa [Function.comp_def, this.map_eq] using isGaussian_gaussianReal 0 1⟩)
  have h2 := h.isGaussian_map
  have e : (fun ω : Fin k → ℝ => fun i => id (ω i)) = id := rfl
  have h3 : IsGaussian ((normal k).map id) := h2
  rwa [Measure.map_id] at h3

/-- The linear functional with the given coefficients. -/
noncomputable abbrev lin {k : ℕ} (a : Fin k → ℝ) : (Fin k → ℝ) →L[ℝ] ℝ := ∑ j, a j • ContinuousLinearMap.proj j

variable {k : ℕ}

theorem _root_.Spec.Smooth.continuous {f : (Fin k → ℝ) → ℝ} {df : (Fin k → ℝ) → Fin k → ℝ} (h : Smooth f df) : Continuous f :=
  continuous_iff_continuousAt.mpr fun x => (h.deriv x).continuousAt

/-- The function itself has polynomial growth. -/
theorem _root_.Spec.Smooth.polyGrowth {f : (Fin k → ℝ) → ℝ} {df : (Fin k → ℝ) → Fin k → ℝ} (h : Smooth f df) : PolyGrowth f := by
  have hs : PolyGrowth fun x => ∑ j, |df x j| := PolyGrowth.sum _ fun j => by
    obtain ⟨K, p, h⟩ := h.growth j
    exact ⟨K, p, fun x => by rw [abs_abs]; exact h x⟩
  obtain ⟨K, p, hK, hb⟩ := hs.bound
  have hn : ∀ x, ‖lin (df x)‖ ≤ ∑ j, |df x j| := fun x =>
    ContinuousLinearMap.opNorm_le_bound _ (Finset.sum_nonneg fun _ _ => abs_nonneg _) fun y => by
      simp only [lin, sum_apply, smul_apply, ContinuousLinearMap.proj_apply, smul_eq_mul]
      refine (norm_sum_le _ _).trans ?_
      rw [Finset.sum_mul]
      refine Finset.sum_le_sum fun j _ => ?_
      rw [norm_mul, Real.norm_eq_abs]
      exact mul_le_mul_of_nonneg_left (norm_le_pi_norm y j) (abs_nonneg _)
  refine ⟨|f 0| + K, p + 1, fun x => ?_⟩
  have h1 : ‖f x - f 0‖ ≤ K * (1 + ‖x‖) ^ p * ‖x - 0‖ :=
    Convex.norm_image_sub_le_of_norm_hasFDerivWithin_le (s := Metric.closedBall 0 ‖x‖) (f' := fun y => lin (df y)) (fun y _ => (h.deriv y).hasFDerivWithinAt)
      (fun y hy => by
        have hy' : ‖y‖ ≤ ‖x‖ := by simpa using hy
        refine (hn y).trans ((le_abs_self _).trans ((hb y).trans ?_))
        exact mul_le_mul_of_nonneg_left (pow_le_pow_left₀ (zero_le_one.trans (one_le_base y)) (by linarith) _) hK)
      (convex_closedBall _ _) (by simp) (by simp)
  rw [Real.norm_eq_abs, sub_zero] at h1
  have h2 : 1 ≤ (1 + ‖x‖) ^ (p + 1) := one_le_pow₀ (one_le_base x)
  have h3 : K * (1 + ‖x‖) ^ p * ‖x‖ ≤ K * (1 + ‖x‖) ^ (p + 1) := by
    rw [pow_succ, mul_assoc]
    refine mul_le_mul_of_nonneg_left (mul_le_mul_of_nonneg_left (by linarith) (pow_nonneg (zero_le_one.trans (one_le_base x)) _)) hK
  calc |f x| = |f x - f 0 + f 0| := by rw [sub_add_cancel]
    _ ≤ |f x - f 0| + |f 0| := abs_add_le _ _
    _ ≤ K * (1 + ‖x‖) ^ (p + 1) + |f 0| * (1 + ‖x‖) ^ (p + 1) :=
        add_le_add (h1.trans h3) (le_mul_of_one_le_right (abs_nonneg _) h2)
    _ = _ := by ring

/-- Integration by parts in one variable. -/
theorem stein_one {h h' : ℝ → ℝ} (hd : ∀ t, HasDerivAt h (h' t) t) (hi : Integrable h (gaussianReal 0 1))
    (hi' : Integrable h' (gaussianReal 0 1)) (hit : Integrable (fun t => t * h t) (gaussianReal 0 1)) :
    ∫ t, t * h t ∂gaussianReal 0 1 = ∫ t, h' t ∂gaussianReal 0 1 := by
  have conv : ∀ {u : ℝ → ℝ}, Integrable u (gaussianReal 0 1) → Integrable fun t => gaussianPDFReal 0 1 t * u t := by
    intro u hu
    rw [gaussianReal_of_var_ne_zero _ one_ne_zero,
      integrable_withDensity_iff_integrable_smul' (measurable_gaussianPDF _ _) (ae_of_all _ fun _ => gaussianPDF_lt_top)] at hu
    simpa [toReal_gaussianPDF] using hu
  have h0 : ∫ t, (t * h t - h' t) ∂gaussianReal 0 1 = 0 := by
    rw [integral_gaussianReal_eq_integral_smul one_ne_zero]
    refine integral_eq_zero_of_hasDerivAt_of_integrable (f := fun t => gaussianPDFReal 0 1 t * -h t) (fun t => ?_) ?_ ?_
    · refine ((Proofs.HermitePoly.hasDerivAt_pdf t).mul (hd t).neg).congr_deriv ?_
      simp only [smul_eq_mul, Pi.neg_apply]
      ring
    · exact conv (hit.sub hi')
    · exact conv hi.neg
  rw [integral_sub hit hi'] at h0
  linarith

theorem norm_insertNth_le (i : Fin (k + 1)) (t : ℝ) (x : Fin k → ℝ) : ‖(i.insertNth t x : Fin (k + 1) → ℝ)‖ ≤ 1 * (1 + ‖x‖) * (1 + |t|) := by
  refine (pi_norm_le_iff_of_nonneg (by positivity)).mpr fun j => ?_
  rcases Fin.eq_self_or_eq_succAbove i j with rfl | ⟨l, rfl⟩
  · rw [Fin.insertNth_apply_same, Real.norm_eq_abs]
    nlinarith [abs_nonneg t, norm_nonneg x]
  · rw [Fin.insertNth_apply_succAbove]
    nlinarith [abs_nonneg t, norm_nonneg x, norm_le_pi_norm x l]

/-- Integration by parts in several variables. -/
theorem stein {f : (Fin k → ℝ) → ℝ} {df : (Fin k → ℝ) → Fin k → ℝ} (h : Smooth f df) (i : Fin k) :
    ∫ x, x i * f x ∂normal k = ∫ x, df x i ∂normal k := by
  cases k with
  | zero => exact i.elim0
  | succ k =>
    have hx : PolyGrowth fun x : Fin (k + 1) → ℝ => x i := ⟨1, 1, fun x => by
      have := norm_le_pi_norm x i
      rw [Real.norm_eq_abs] at this
      linarith⟩
    have i1 : Integrable (fun x => x i * f x) (normal (k + 1)) := (hx.mul h.polyGrowth).integrable (by have := h.continuous; fun_prop) _
    have i2 : Integrable (fun x => df x i) (normal (k + 1)) := (h.growth i).integrable (h.cont i) _
    have mp : MeasurePreserving (MeasurableEquiv.piFinSuccAbove (fun _ => ℝ) i).symm ((gaussianReal 0 1).prod (normal k)) (normal (k + 1)) :=
      (measurePreserving_piFinSuccAbove (fun _ : Fin (k + 1) => gaussianReal 0 1) i).symm
    rw [← mp.integral_comp', ← mp.integral_comp']
    have j1 := mp.integrable_comp_of_integrable i1
    have j2 := mp.integrable_comp_of_integrable i2
    refine (integral_prod_symm _ j1).trans (Eq.trans (integral_congr_ae (ae_of_all _ fun y => ?_)) (integral_prod_symm _ j2).symm)
    have hlin : ∀ t : ℝ, ‖(i.insertNth t y : Fin (k + 1) → ℝ)‖ ≤ (1 + ‖y‖) * (1 + ‖t‖) := fun t => by
      rw [Real.norm_eq_abs]
      simpa using norm_insertNth_le i t y
    have hins : ∀ t : ℝ, (i.insertNth t y : Fin (k + 1) → ℝ) = i.insertNth 0 y + t • Pi.single i 1 := by
      intro t
      funext j
      rcases Fin.eq_self_or_eq_succAbove i j with rfl | ⟨l, rfl⟩
      · simp
      · simp
    have hcont : Continuous fun t : ℝ => (i.insertNth t y : Fin (k + 1) → ℝ) := by
      rw [funext hins]
      fun_prop
    have hderiv : ∀ t, HasDerivAt (fun t : ℝ => f (i.insertNth t y)) (df (i.insertNth t y) i) t := by
      intro t
      have d1 : HasDerivAt (fun t : ℝ => (i.insertNth t y : Fin (k + 1) → ℝ)) (Pi.single i 1) t := by
        rw [funext hins]
        simpa using ((hasDerivAt_id t).smul_const (Pi.single i 1 : Fin (k + 1) → ℝ)).const_add (i.insertNth 0 y)
      refine ((h.deriv _).comp_hasDerivAt t d1).congr_deriv ?_
      simp [lin, Pi.single_apply]
    have g1 := h.polyGrowth.comp (fun t : ℝ => (i.insertNth t y : Fin (k + 1) → ℝ)) (1 + ‖y‖) hlin
    have g2 := (h.growth i).comp (fun t : ℝ => (i.insertNth t y : Fin (k + 1) → ℝ)) (1 + ‖y‖) hlin
    have g3 : PolyGrowth fun t : ℝ => t := ⟨1, 1, fun t => by rw [Real.norm_eq_abs]; linarith⟩
    have c1 : Continuous fun t : ℝ => f (i.insertNth t y) := h.continuous.comp hcont
    have key := stein_one hderiv (g1.integrable c1 _) (g2.integrable ((h.cont i).comp hcont) _) ((g3.mul g1).integrable (continuous_id.mul c1) _)
    simpa [MeasurableEquiv.piFinSuccAbove_symm_apply, Fin.insertNthEquiv] using key

/-- The norm of the derivative grows at most like a power. -/
theorem _root_.Spec.Smooth.norm_bound {f : (Fin k → ℝ) → ℝ} {df : (Fin k → ℝ) → Fin k → ℝ} (h : Smooth f df) :
    ∃ (K : ℝ) (p : ℕ), 0 ≤ K ∧ ∀ x, ‖lin (df x)‖ ≤ K * (1 + ‖x‖) ^ p := by
  have hs : PolyGrowth fun x => ∑ j, |df x j| := PolyGrowth.sum _ fun j => by
    obtain ⟨K, p, h⟩ := h.growth j
    exact ⟨K, p, fun x => by rw [abs_abs]; exact h x⟩
  obtain ⟨K, p, hK, hb⟩ := hs.bound
  refine ⟨K, p, hK, fun x => le_trans ?_ ((le_abs_self _).trans (hb x))⟩
  refine ContinuousLinearMap.opNorm_le_bound _ (Finset.sum_nonneg fun _ _ => abs_nonneg _) fun y => ?_
  simp only [lin, sum_apply, smul_apply, ContinuousLinearMap.proj_apply, smul_eq_mul]
  refine (norm_sum_le _ _).trans ?_
  rw [Finset.sum_mul]
  refine Finset.sum_le_sum fun j _ => ?_
  rw [norm_mul, Real.norm_eq_abs]
  exact mul_le_mul_of_nonneg_left (norm_le_pi_norm y j) (abs_nonneg _)

/-- Two independent copies. -/
noncomputable abbrev pair (k : ℕ) : Measure ((Fin k → ℝ) × (Fin k → ℝ)) := (normal k).prod (normal k)

/-- Rotation of the two copies. -/
noncomputable abbrev rot (k : ℕ) (θ : ℝ) : (Fin k → ℝ) × (Fin k → ℝ) →L[ℝ] (Fin k → ℝ) × (Fin k → ℝ) := ContinuousLinearMap.rotation θ

theorem integral_eval (i : Fin k) : ∫ x, x i ∂normal k = 0 := by
  have : MeasurePreserving (fun x : Fin k → ℝ => x i) (normal k) (gaussianReal 0 1) := measurePreserving_eval _ i
  have h := integral_map (f := fun t : ℝ => t) this.aemeasurable aestronglyMeasurable_id
  rw [this.map_eq] at h
  rw [← h]
  simp

theorem rot_preserving (θ : ℝ) : MeasurePreserving (rot k θ) (pair k) (pair k) := by
  refine ⟨by fun_prop, IsGaussian.map_rotation_eq_self ?_ θ⟩
  have hi : Integrable (id : (Fin k → ℝ) → _) (normal k) := IsGaussian.integrable_id
  funext i
  have := (ContinuousLinearMap.proj (R := ℝ) (φ := fun _ : Fin k => ℝ) i).integral_comp_comm hi
  simp only [ContinuousLinearMap.proj_apply, id] at this
  rw [Pi.zero_apply, ← integral_eval (k := k) i]
  exact this.symm

theorem rot_fst (θ : ℝ) (p : (Fin k → ℝ) × (Fin k → ℝ)) : Real.cos θ • (rot k θ p).1 - Real.sin θ • (rot k θ p).2 = p.1 := by
  funext i
  simp only [rot, ContinuousLinearMap.rotation_apply, Pi.sub_apply, Pi.smul_apply, Pi.add_apply, smul_eq_mul]
  linear_combination p.1 i * Real.sin_sq_add_cos_sq θ

theorem rot_growth {f : (Fin k → ℝ) → ℝ} (hf : PolyGrowth f) (a b : ℝ) : PolyGrowth fun p : (Fin k → ℝ) × (Fin k → ℝ) => f (a • p.1 - b • p.2) := by
  refine hf.comp _ (|a| + |b|) fun p => (norm_sub_le _ _).trans ?_
  rw [norm_smul, norm_smul, Real.norm_eq_abs, Real.norm_eq_abs]
  nlinarith [mul_le_mul_of_nonneg_left (norm_fst_le p) (abs_nonneg a), mul_le_mul_of_nonneg_left (norm_snd_le p) (abs_nonneg b), abs_nonneg a, abs_nonneg b]

theorem fst_growth {f : (Fin k → ℝ) → ℝ} (hf : PolyGrowth f) : PolyGrowth fun p : (Fin k → ℝ) × (Fin k → ℝ) => f p.1 := by
  simpa using rot_growth hf 1 0

/-- The functions `v ↦ f (a u - b v)`. -/
theorem _root_.Spec.Smooth.slice {f : (Fin k → ℝ) → ℝ} {df : (Fin k → ℝ) → Fin k → ℝ} (h : Smooth f df) (a b : ℝ) (u : Fin k → ℝ) :
    Smooth (fun v => f (a • u - b • v)) fun v j => -b * df (a • u - b • v) j where
  deriv v := by
    have d : HasFDerivAt (fun v : Fin k → ℝ => a • u - b • v) (-(b • ContinuousLinearMap.id ℝ (Fin k → ℝ))) v :=
      ((hasFDerivAt_id v).const_smul b).const_sub _
    refine ((h.deriv _).comp v d).congr_fderiv ?_
    ext w
    simp only [lin, sum_apply, smul_apply, ContinuousLinearMap.proj_apply, smul_eq_mul, ContinuousLinearMap.comp_apply, neg_apply,
      ContinuousLinearMap.id_apply, Pi.neg_apply, Pi.smul_apply]
    exact Finset.sum_congr rfl fun j _ => by ring
  cont j := by
    have := h.cont j
    exact continuous_const.mul (this.comp (by fun_prop))
  growth j := by
    refine (PolyGrowth.const (-b)).mul ((h.growth j).comp (fun v => a • u - b • v) (‖a • u‖ + |b|) fun v => (norm_sub_le _ _).trans ?_)
    rw [norm_smul b, Real.norm_eq_abs]
    nlinarith [norm_nonneg (a • u), norm_nonneg v, abs_nonneg b, mul_nonneg (norm_nonneg (a • u)) (norm_nonneg v)]

/-- The interpolation. -/
noncomputable def path (f : (Fin k → ℝ) → ℝ) (θ : ℝ) : ℝ := ∫ p, f p.1 * f (rot k θ p).1 ∂pair k

theorem path_deriv {f : (Fin k → ℝ) → ℝ} {df : (Fin k → ℝ) → Fin k → ℝ} (h : Smooth f df) (θ : ℝ) :
    HasDerivAt (path f) (∫ p, f p.1 * lin (df (rot k θ p).1) (rot k θ p).2 ∂pair k) θ := by
  obtain ⟨K, q, hK, hb⟩ := h.norm_bound
  have hc := h.continuous
  have hnorm : ∀ (θ : ℝ) (p : (Fin k → ℝ) × (Fin k → ℝ)) , ‖(rot k θ p).1‖ ≤ 2 * ‖p‖ ∧ ‖(rot k θ p).2‖ ≤ 2 * ‖p‖ := by
    intro θ p
    have c1 := Real.abs_cos_le_one θ
    have s1 := Real.abs_sin_le_one θ
    have n1 := norm_fst_le p
    have n2 := norm_snd_le p
    simp only [rot, ContinuousLinearMap.rotation_apply]
    constructor
    · refine (norm_add_le _ _).trans ?_
      rw [norm_smul, norm_smul, Real.norm_eq_abs, Real.norm_eq_abs]
      nlinarith [norm_nonneg p.1, norm_nonneg p.2]
    · refine (norm_add_le _ _).trans ?_
      rw [norm_smul, norm_smul, Real.norm_eq_abs, Real.norm_eq_abs, abs_neg]
      nlinarith [norm_nonneg p.1, norm_nonneg p.2]
  let B : (Fin k → ℝ) × (Fin k → ℝ) → ℝ := fun p => |f p.1| * (K * (1 + 2 * ‖p‖) ^ q * (2 * ‖p‖))
  have hB : Integrable B (pair k) := by
    refine PolyGrowth.integrable ?_ (by fun_prop) _
    have g1 : PolyGrowth fun x => |f x| := by
      obtain ⟨L, r, hL⟩ := h.polyGrowth
      exact ⟨L, r, fun x => by rw [abs_abs]; exact hL x⟩
    refine (fst_growth g1).mul ⟨K * 2 ^ q * 2, q + 1, fun p => ?_⟩
    rw [abs_of_nonneg (by positivity)]
    have e : K * 2 ^ q * 2 * (1 + ‖p‖) ^ (q + 1) = K * (2 * (1 + ‖p‖)) ^ q * (2 * (1 + ‖p‖)) := by rw [mul_pow]; ring
    rw [e]
    have : (1 + 2 * ‖p‖) ^ q ≤ (2 * (1 + ‖p‖)) ^ q := pow_le_pow_left₀ (by positivity) (by linarith) _
    exact mul_le_mul (mul_le_mul_of_nonneg_left this hK) (by linarith) (by positivity) (by positivity)
  have hi : ∀ θ, Integrable (fun p => f p.1 * f (rot k θ p).1) (pair k) := fun θ => by
    have g2 := rot_growth h.polyGrowth (Real.cos θ) (-Real.sin θ)
    simp only [neg_smul, sub_neg_eq_add] at g2
    exact ((fst_growth h.polyGrowth).mul g2).integrable (by fun_prop) _
  have hdc : Continuous fun x => lin (df x) := continuous_finsetSum _ fun j _ => (h.cont j).smul continuous_const
  refine (hasDerivAt_integral_of_dominated_loc_of_deriv_le (bound := B)
    (F' := fun θ p => f p.1 * lin (df (rot k θ p).1) (rot k θ p).2) Filter.univ_mem
    (Filter.Eventually.of_forall fun θ => (hi θ).aestronglyMeasurable) (hi θ) ?_ (ae_of_all _ fun p θ _ => ?_) hB (ae_of_all _ fun p θ _ => ?_)).2
  · refine Continuous.aestronglyMeasurable ?_
    have : Continuous fun p : (Fin k → ℝ) × (Fin k → ℝ) => lin (df (rot k θ p).1) :=
      hdc.comp (continuous_fst.comp (rot k θ).continuous)
    exact (hc.comp continuous_fst).mul (this.clm_apply (by fun_prop))
  · rw [norm_mul, Real.norm_eq_abs]
    refine mul_le_mul_of_nonneg_left ?_ (abs_nonneg _)
    refine (ContinuousLinearMap.le_opNorm _ _).trans ?_
    refine mul_le_mul ((hb _).trans ?_) (hnorm θ p).2 (norm_nonneg _) (by positivity)
    refine mul_le_mul_of_nonneg_left (pow_le_pow_left₀ (by positivity) ?_ _) hK
    linarith [(hnorm θ p).1]
  · refine HasDerivAt.const_mul _ ?_
    have d1 : HasDerivAt (fun θ : ℝ => (rot k θ p).1) (rot k θ p).2 θ := by
      simp only [rot, ContinuousLinearMap.rotation_apply]
      exact ((Real.hasDerivAt_cos θ).smul_const p.1).add ((Real.hasDerivAt_sin θ).smul_const p.2)
    exact (h.deriv _).comp_hasDerivAt θ d1

/-- The derivative after the rotation and the integration by parts. -/
theorem path_deriv_eq {f : (Fin k → ℝ) → ℝ} {df : (Fin k → ℝ) → Fin k → ℝ} (h : Smooth f df) (θ : ℝ) :
    ∫ p, f p.1 * lin (df (rot k θ p).1) (rot k θ p).2 ∂pair k
      = -Real.sin θ * ∫ p, ∑ j, df p.1 j * df (Real.cos θ • p.1 - Real.sin θ • p.2) j ∂pair k := by
  set c := Real.cos θ
  set s := Real.sin θ
  have hc := h.continuous
  let H : (Fin k → ℝ) × (Fin k → ℝ) → ℝ := fun q => f (c • q.1 - s • q.2) * lin (df q.1) q.2
  have hHe : ∀ q, H q = ∑ j, df q.1 j * (q.2 j * f (c • q.1 - s • q.2)) := fun q => by
    simp only [H, lin, sum_apply, smul_apply, ContinuousLinearMap.proj_apply, smul_eq_mul, Finset.mul_sum]
    exact Finset.sum_congr rfl fun j _ => by ring
  have g0 : ∀ j : Fin k, PolyGrowth fun q : (Fin k → ℝ) × (Fin k → ℝ) => q.2 j := fun j => ⟨1, 1, fun q => by
    have := (norm_le_pi_norm q.2 j).trans (norm_snd_le q)
    rw [Real.norm_eq_abs] at this
    linarith⟩
  have hHc : Continuous H := by
    have : H = fun q => ∑ j, df q.1 j * (q.2 j * f (c • q.1 - s • q.2)) := funext hHe
    rw [this]
    refine continuous_finsetSum _ fun j _ => ((h.cont j).comp continuous_fst).mul ?_
    fun_prop
  have hHi : Integrable H (pair k) := by
    have : H = fun q => ∑ j, df q.1 j * (q.2 j * f (c • q.1 - s • q.2)) := funext hHe
    refine PolyGrowth.integrable ?_ hHc _
    rw [this]
    exact PolyGrowth.sum _ fun j => (fst_growth (h.growth j)).mul ((g0 j).mul (rot_growth h.polyGrowth c s))
  have gG : PolyGrowth fun p : (Fin k → ℝ) × (Fin k → ℝ) => ∑ j, df p.1 j * df (c • p.1 - s • p.2) j :=
    PolyGrowth.sum _ fun j => (fst_growth (h.growth j)).mul (rot_growth (h.growth j) c s)
  have hdc : ∀ j, Continuous fun p : (Fin k → ℝ) × (Fin k → ℝ) => df (c • p.1 - s • p.2) j := fun j => (h.cont j).comp (by fun_prop)
  have hGi : Integrable (fun p : (Fin k → ℝ) × (Fin k → ℝ) => ∑ j, df p.1 j * df (c • p.1 - s • p.2) j) (pair k) :=
    gG.integrable (continuous_finsetSum _ fun j _ => ((h.cont j).comp continuous_fst).mul (hdc j)) _
  have e1 : ∫ p, f p.1 * lin (df (rot k θ p).1) (rot k θ p).2 ∂pair k = ∫ q, H q ∂pair k := by
    have := integral_map (rot_preserving (k := k) θ).aemeasurable (f := H) hHc.aestronglyMeasurable
    rw [(rot_preserving θ).map_eq] at this
    rw [this]
    refine integral_congr_ae (ae_of_all _ fun p => ?_)
    simp only [H, c, s, rot_fst]
  rw [e1, integral_prod _ hHi, integral_prod _ hGi, ← integral_const_mul]
  refine integral_congr_ae (ae_of_all _ fun u => ?_)
  have hs := h.slice c s u
  have i1 : ∀ j : Fin k, Integrable (fun v : Fin k → ℝ => v j * f (c • u - s • v)) (normal k) := fun j => by
    have gx : PolyGrowth fun x : Fin k → ℝ => x j := ⟨1, 1, fun x => by
      have := norm_le_pi_norm x j
      rw [Real.norm_eq_abs] at this
      linarith⟩
    exact (gx.mul hs.polyGrowth).integrable ((continuous_apply j).mul hs.continuous) _
  have i2 : ∀ j : Fin k, Integrable (fun v : Fin k → ℝ => -s * df (c • u - s • v) j) (normal k) := fun j => (hs.growth j).integrable (hs.cont j) _
  dsimp only
  simp only [hHe]
  rw [integral_finsetSum _ (f := fun (j : Fin k) (v : Fin k → ℝ) => df u j * (v j * f (c • u - s • v))) fun j _ => (i1 j).const_mul _]
  have e2 : ∀ v : Fin k → ℝ, -s * ∑ j, df u j * df (c • u - s • v) j = ∑ j, df u j * (-s * df (c • u - s • v) j) := fun v => by
    rw [Finset.mul_sum]
    exact Finset.sum_congr rfl fun j _ => by ring
  rw [← integral_const_mul]
  simp only [e2]
  rw [integral_finsetSum _ (f := fun (j : Fin k) (v : Fin k → ℝ) => df u j * (-s * df (c • u - s • v) j)) fun j _ => (i2 j).const_mul _]
  refine Finset.sum_congr rfl fun j _ => ?_
  rw [integral_const_mul, integral_const_mul (df u j), stein hs j]

/-- **The Poincaré inequality.** -/
theorem poincare {f : (Fin k → ℝ) → ℝ} {df : (Fin k → ℝ) → Fin k → ℝ} (h : Smooth f df) :
    ∫ x, f x ^ 2 ∂normal k - (∫ x, f x ∂normal k) ^ 2 ≤ ∑ j, ∫ x, df x j ^ 2 ∂normal k := by
  set D := ∑ j, ∫ x, df x j ^ 2 ∂normal k
  have hle : ∀ θ, ∫ p, ∑ j, df p.1 j * df (Real.cos θ • p.1 - Real.sin θ • p.2) j ∂pair k ≤ D := by
    intro θ
    have sq : ∀ j, PolyGrowth fun x => df x j ^ 2 := fun j => by simpa [pow_two] using (h.growth j).mul (h.growth j)
    have c1 : ∀ j, Continuous fun x => df x j ^ 2 := fun j => (h.cont j).pow 2
    have hrc : ∀ p : (Fin k → ℝ) × (Fin k → ℝ), Real.cos θ • p.1 - Real.sin θ • p.2 = (rot k (-θ) p).1 := fun p => by
      simp [rot, ContinuousLinearMap.rotation_apply, sub_eq_add_neg]
    have i0 : ∀ j, Integrable (fun x => df x j ^ 2) (normal k) := fun j => (sq j).integrable (c1 j) _
    have mpf : MeasurePreserving (fun p : (Fin k → ℝ) × (Fin k → ℝ) => p.1) (pair k) (normal k) := measurePreserving_fst
    have mpr : MeasurePreserving (fun p : (Fin k → ℝ) × (Fin k → ℝ) => (rot k (-θ) p).1) (pair k) (normal k) := mpf.comp (rot_preserving (-θ))
    have e1 : ∀ j, ∫ p, df p.1 j ^ 2 ∂pair k = ∫ x, df x j ^ 2 ∂normal k := fun j => by
      have := integral_map mpf.aemeasurable (f := fun x => df x j ^ 2) (c1 j).aestronglyMeasurable
      rw [mpf.map_eq] at this
      exact this.symm
    have e2 : ∀ j, ∫ p, df (rot k (-θ) p).1 j ^ 2 ∂pair k = ∫ x, df x j ^ 2 ∂normal k := fun j => by
      have := integral_map mpr.aemeasurable (f := fun x => df x j ^ 2) (c1 j).aestronglyMeasurable
      rw [mpr.map_eq] at this
      exact this.symm
    have i1 : ∀ j, Integrable (fun p : (Fin k → ℝ) × (Fin k → ℝ) => df p.1 j ^ 2) (pair k) := fun j => mpf.integrable_comp_of_integrable (i0 j)
    have i2 : ∀ j, Integrable (fun p : (Fin k → ℝ) × (Fin k → ℝ) => df (rot k (-θ) p).1 j ^ 2) (pair k) :=
      fun j => mpr.integrable_comp_of_integrable (i0 j)
    have i3 : ∀ j, Integrable (fun p : (Fin k → ℝ) × (Fin k → ℝ) => df p.1 j * df (Real.cos θ • p.1 - Real.sin θ • p.2) j) (pair k) :=
      fun j => ((fst_growth (h.growth j)).mul (rot_growth (h.growth j) _ _)).integrable
        (((h.cont j).comp continuous_fst).mul ((h.cont j).comp (by fun_prop))) _
    rw [integral_finsetSum _ (f := fun (j : Fin k) (p : (Fin k → ℝ) × (Fin k → ℝ)) => df p.1 j * df (Real.cos θ • p.1 - Real.sin θ • p.2) j)
      fun j _ => i3 j]
    refine Finset.sum_le_sum fun j _ => ?_
    have : ∫ p, df p.1 j * df (Real.cos θ • p.1 - Real.sin θ • p.2) j ∂pair k
        ≤ ∫ p, (1 / 2 * df p.1 j ^ 2 + 1 / 2 * df (rot k (-θ) p).1 j ^ 2) ∂pair k := by
      refine integral_mono (i3 j) (((i1 j).const_mul _).add ((i2 j).const_mul _)) fun p => ?_
      dsimp only
      rw [hrc]
      nlinarith [sq_nonneg (df p.1 j - df (rot k (-θ) p).1 j)]
    refine this.trans_eq ?_
    rw [integral_add ((i1 j).const_mul _) ((i2 j).const_mul _), integral_const_mul, integral_const_mul, e1, e2]
    ring
  have hd : ∀ θ, HasDerivAt (fun θ => path f θ - D * Real.cos θ)
      (-Real.sin θ * ∫ p, ∑ j, df p.1 j * df (Real.cos θ • p.1 - Real.sin θ • p.2) j ∂pair k - D * -Real.sin θ) θ := fun θ => by
    have := path_deriv h θ
    rw [path_deriv_eq h θ] at this
    exact this.sub ((Real.hasDerivAt_cos θ).const_mul D)
  have hmono : MonotoneOn (fun θ => path f θ - D * Real.cos θ) (Set.Icc 0 (Real.pi / 2)) := by
    refine monotoneOn_of_deriv_nonneg (convex_Icc _ _) (fun θ _ => (hd θ).continuousAt.continuousWithinAt)
      (fun θ _ => (hd θ).differentiableAt.differentiableWithinAt) fun θ hθ => ?_
    rw [(hd θ).deriv]
    rw [interior_Icc] at hθ
    have hs : 0 ≤ Real.sin θ := Real.sin_nonneg_of_nonneg_of_le_pi hθ.1.le (by linarith [hθ.2, Real.pi_pos])
    nlinarith [mul_le_mul_of_nonneg_left (hle θ) hs]
  have h01 := hmono (Set.left_mem_Icc.mpr (by positivity)) (Set.right_mem_Icc.mpr (by positivity)) (by positivity)
  have p0 : path f 0 = ∫ x, f x ^ 2 ∂normal k := by
    unfold path
    have mpf : MeasurePreserving (fun p : (Fin k → ℝ) × (Fin k → ℝ) => p.1) (pair k) (normal k) := measurePreserving_fst
    have := integral_map mpf.aemeasurable (f := fun x => f x ^ 2) (h.continuous.pow 2).aestronglyMeasurable
    rw [mpf.map_eq] at this
    rw [this]
    refine integral_congr_ae (ae_of_all _ fun p => ?_)
    simp [rot, ContinuousLinearMap.rotation_apply, pow_two]
  have p1 : path f (Real.pi / 2) = (∫ x, f x ∂normal k) ^ 2 := by
    unfold path
    rw [pow_two, ← integral_prod_mul]
    refine integral_congr_ae (ae_of_all _ fun p => ?_)
    simp [rot, ContinuousLinearMap.rotation_apply]
  dsimp only at h01
  rw [p0, p1, Real.cos_zero, Real.cos_pi_div_two] at h01
  linarith

end Proofs.Poincare
