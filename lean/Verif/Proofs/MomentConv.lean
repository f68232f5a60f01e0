import Mathlib.MeasureTheory.Measure.LevyConvergence
import Mathlib.MeasureTheory.Measure.FiniteMeasurePi
import Mathlib.MeasureTheory.Integral.IntervalIntegral.FundThmCalculus
import Mathlib.MeasureTheory.Integral.Pi
import Mathlib.Analysis.SpecialFunctions.ExpDeriv
import Mathlib.Analysis.SpecificLimits.Normed
import Mathlib.Topology.Algebra.MvPolynomial

/-!
# Convergence of moments implies weak convergence, and convergence of integrals of functions of bounded growth
-/

open MeasureTheory Filter Complex
open scoped Topology Nat

namespace Proofs.MomentConv

/-! ## Taylor polynomials of `exp (i x)` -/

/-- The remainder of order `n`. -/
noncomputable def rem (n : ℕ) (x : ℝ) : ℂ := cexp (x * I) - ∑ j ∈ Finset.range n, (x * I) ^ j / (j ! : ℂ)

theorem rem_deriv (n : ℕ) (x : ℝ) : HasDerivAt (rem (n + 1)) (I * rem n x) x := by
  have hx : HasDerivAt (fun x : ℝ => (x : ℂ) * I) I x := by
    simpa using (ofRealCLM.hasDerivAt (x := x)).mul_const I
  have h1 : HasDerivAt (fun x : ℝ => cexp (x * I)) (cexp (x * I) * I) x := hx.cexp
  have h2 : HasDerivAt (fun x : ℝ => ∑ j ∈ Finset.range n, ((x : ℂ) * I) ^ (j + 1) / ((j + 1)! : ℂ) + 1)
      (∑ j ∈ Finset.range n, I * ((x : ℂ) * I) ^ j / (j ! : ℂ)) x := by
    refine (HasDerivAt.fun_sum fun j _ => ?_).add_const 1
    have := (hx.pow (j + 1)).div_const ((j + 1)! : ℂ)
    refine this.congr_deriv ?_
    rw [Nat.factorial_succ, Nat.cast_mul, Nat.add_sub_cancel]
    have h0 : ((j + 1 : ℕ) : ℂ) ≠ 0 := Nat.cast_ne_zero.mpr (by omega)
    have h1 : (j ! : ℂ) ≠ 0 := Nat.cast_ne_zero.mpr (Nat.factorial_ne_zero j)
    field_simp
  have h3 : rem (n + 1) = fun x : ℝ => cexp (x * I) - (∑ j ∈ Finset.range n, ((x : ℂ) * I) ^ (j + 1) / ((j + 1)! : ℂ) + 1) := by
    funext x
    rw [rem, Finset.sum_range_succ']
    simp
  rw [h3]
  refine (h1.sub h2).congr_deriv ?_
  rw [rem, mul_sub, Finset.mul_sum, mul_comm]
  congr 1
  exact Finset.sum_congr rfl fun j _ => by ring

theorem rem_continuous (n : ℕ) : Continuous (rem n) := by
  unfold rem
  fun_prop

theorem rem_zero (n : ℕ) : rem (n + 1) 0 = 0 := by
  rw [rem, Finset.sum_range_succ']
  simp

theorem rem_le_nonneg (n : ℕ) : ∀ x : ℝ, 0 ≤ x → ‖rem n x‖ ≤ x ^ n / n ! := by
  induction n with
  | zero =>
    intro x _
    simp [rem, norm_exp_ofReal_mul_I]
  | succ n ih =>
    intro x hx
    have h1 : ∫ t in (0 : ℝ)..x, I * rem n t = rem (n + 1) x := by
      rw [intervalIntegral.integral_eq_sub_of_hasDerivAt (fun t _ => rem_deriv n t) ((continuous_const.mul (rem_continuous n)).intervalIntegrable _ _),
        rem_zero, sub_zero]
    have h2 : ∫ t in (0 : ℝ)..x, t ^ n / n ! = x ^ (n + 1) / (n + 1)! := by
      rw [intervalIntegral.integral_div, integral_pow]
      rw [Nat.factorial_succ, Nat.cast_mul]
      have h0 : ((n + 1 : ℕ) : ℝ) ≠ 0 := Nat.cast_ne_zero.mpr (by omega)
      have h1 : (n ! : ℝ) ≠ 0 := Nat.cast_ne_zero.mpr (Nat.factorial_ne_zero n)
      push_cast at h0 ⊢
      field_simp
      simp
    rw [← h1, ← h2]
    refine intervalIntegral.norm_integral_le_of_norm_le hx (.of_forall fun t ht => ?_) ((by fun_prop : Continuous fun t : ℝ => t ^ n / n !).intervalIntegrable _ _)
    rw [norm_mul, norm_I, one_mul]
    exact ih t ht.1.le

theorem rem_neg (n : ℕ) (x : ℝ) : rem n (-x) = (starRingEnd ℂ) (rem n x) := by
  simp only [rem, map_sub, map_sum, map_div₀, map_pow, map_mul, conj_ofReal, conj_I, ← exp_conj, map_natCast, ofReal_neg, neg_mul, mul_neg]

/-- The remainder is at most the next term. -/
theorem rem_le (n : ℕ) (x : ℝ) : ‖rem n x‖ ≤ |x| ^ n / n ! := by
  rcases le_total 0 x with h | h
  · rw [abs_of_nonneg h]
    exact rem_le_nonneg n x h
  · rw [abs_of_nonpos h]
    have := rem_le_nonneg n (-x) (by linarith)
    rwa [rem_neg, RCLike.norm_conj] at this

/-! ## Characteristic functions -/

/-- The characteristic function is within one term of its Taylor polynomial. -/
theorem charFun_taylor (μ : Measure ℝ) [IsProbabilityMeasure μ] (hi : ∀ k : ℕ, Integrable (fun x : ℝ => x ^ k) μ) (t : ℝ) (k : ℕ) :
    ‖charFun μ t - ∑ j ∈ Finset.range (2 * k), (t * I) ^ j / (j ! : ℂ) * ((∫ x, x ^ j ∂μ : ℝ) : ℂ)‖ ≤ t ^ (2 * k) / (2 * k)! * ∫ x, x ^ (2 * k) ∂μ := by
  have h1 : ∀ j, Integrable (fun x : ℝ => (((t * x : ℝ) : ℂ) * I) ^ j / (j ! : ℂ)) μ := fun j => by
    have := ((hi j).ofReal (𝕜 := ℂ)).const_mul ((t * I) ^ j / (j ! : ℂ))
    refine this.congr (.of_forall fun x => ?_)
    simp only [ofReal_mul, RCLike.ofReal_eq_complex_ofReal]
    push_cast
    ring
  have h2 : Integrable (fun x : ℝ => cexp (((t * x : ℝ) : ℂ) * I)) μ := by
    refine Integrable.of_bound (Continuous.aestronglyMeasurable (by fun_prop)) 1 (.of_forall fun x => ?_)
    rw [norm_exp_ofReal_mul_I]
  have h3 : charFun μ t - ∑ j ∈ Finset.range (2 * k), (t * I) ^ j / (j ! : ℂ) * ((∫ x, x ^ j ∂μ : ℝ) : ℂ) = ∫ x, rem (2 * k) (t * x) ∂μ := by
    unfold rem
    rw [integral_sub h2 (integrable_finsetSum _ fun j _ => h1 j), integral_finsetSum _ fun j _ => h1 j, charFun_apply_real]
    congr 1
    · exact integral_congr_ae (.of_forall fun x => by simp)
    · refine Finset.sum_congr rfl fun j _ => ?_
      rw [← integral_complex_ofReal, ← integral_const_mul]
      refine integral_congr_ae (.of_forall fun x => ?_)
      simp only [ofReal_mul, ofReal_pow]
      ring
  rw [h3, ← integral_const_mul]
  refine (norm_integral_le_of_norm_le ((hi (2 * k)).const_mul (t ^ (2 * k) / (2 * k)!)) (.of_forall fun x => ?_))
  refine (rem_le _ _).trans_eq ?_
  rw [Even.pow_abs (even_two_mul k), mul_pow]
  ring

/-- A measure with all exponential moments: the terms of its Taylor series tend to 0. -/
theorem term_tendsto (ν : Measure ℝ) (hexp : ∀ s : ℝ, Integrable (fun x => Real.exp (s * x)) ν) (t : ℝ) :
    Tendsto (fun k : ℕ => t ^ (2 * k) / (2 * k)! * ∫ x, x ^ (2 * k) ∂ν) atTop (𝓝 0) := by
  have h1 : ∀ k : ℕ, t ^ (2 * k) / (2 * k)! * ∫ x, x ^ (2 * k) ∂ν = ∫ x, (t * x) ^ (2 * k) / (2 * k)! ∂ν := fun k => by
    rw [← integral_const_mul]
    exact integral_congr_ae (.of_forall fun x => by simp only [mul_pow]; ring)
  simp only [h1]
  rw [show (0 : ℝ) = ∫ _x : ℝ, (0 : ℝ) ∂ν by simp]
  refine tendsto_integral_of_dominated_convergence (fun x => Real.exp (t * x) + Real.exp (-t * x)) (fun k => Continuous.aestronglyMeasurable (by fun_prop))
    ((hexp t).add (hexp (-t))) (fun k => .of_forall fun x => ?_) (.of_forall fun x => ?_)
  · have h2 : (t * x) ^ (2 * k) = |t * x| ^ (2 * k) := (Even.pow_abs (even_two_mul k) _).symm
    rw [h2, Real.norm_of_nonneg (by positivity)]
    refine (Real.pow_div_factorial_le_exp _ (abs_nonneg _) _).trans ?_
    rcases abs_choice (t * x) with h | h <;> rw [h]
    · linarith [Real.exp_pos (-t * x)]
    · rw [← neg_mul]
      linarith [Real.exp_pos (t * x)]
  · exact (FloorSemiring.tendsto_pow_div_factorial_atTop (t * x)).comp (tendsto_id.const_mul_atTop' (by norm_num : 0 < 2))

/-- Measures whose moments eventually agree with those of a measure with exponential moments converge to it weakly. -/
theorem weak_of_moments {μ : ℕ → ProbabilityMeasure ℝ} {ν : ProbabilityMeasure ℝ} (hi : ∀ n k : ℕ, Integrable (fun x : ℝ => x ^ k) (μ n : Measure ℝ))
    (hexp : ∀ s : ℝ, Integrable (fun x => Real.exp (s * x)) (ν : Measure ℝ)) (hiν : ∀ k : ℕ, Integrable (fun x : ℝ => x ^ k) (ν : Measure ℝ))
    (hm : ∀ k : ℕ, ∀ᶠ n in atTop, ∫ x, x ^ k ∂(μ n : Measure ℝ) = ∫ x, x ^ k ∂(ν : Measure ℝ)) : Tendsto μ atTop (𝓝 ν) := by
  refine ProbabilityMeasure.tendsto_of_tendsto_charFun fun t => ?_
  have h0 := (term_tendsto (ν : Measure ℝ) hexp t).const_mul 2
  rw [mul_zero] at h0
  rw [Metric.tendsto_nhds]
  intro ε hε
  obtain ⟨k, hk⟩ := ((tendsto_order.1 h0).2 ε hε).exists
  filter_upwards [(Filter.eventually_all_finset (Finset.range (2 * k + 1))).mpr fun j _ => hm j] with n hn
  have h1 := charFun_taylor (μ n : Measure ℝ) (hi n) t k
  have h2 := charFun_taylor (ν : Measure ℝ) hiν t k
  rw [hn (2 * k) (Finset.mem_range.mpr (by omega))] at h1
  have h3 : ∑ j ∈ Finset.range (2 * k), (t * I) ^ j / (j ! : ℂ) * ((∫ x, x ^ j ∂(μ n : Measure ℝ) : ℝ) : ℂ)
      = ∑ j ∈ Finset.range (2 * k), (t * I) ^ j / (j ! : ℂ) * ((∫ x, x ^ j ∂(ν : Measure ℝ) : ℝ) : ℂ) :=
    Finset.sum_congr rfl fun j hj => by rw [hn j (Finset.mem_range.mpr (by have := Finset.mem_range.mp hj; omega))]
  rw [h3] at h1
  rw [norm_sub_rev] at h2
  rw [dist_eq_norm]
  calc ‖charFun (μ n : Measure ℝ) t - charFun (ν : Measure ℝ) t‖ ≤ _ := norm_sub_le_norm_sub_add_norm_sub _ _ _
    _ ≤ _ := (add_le_add h1 h2).trans_eq (by ring)
    _ < ε := hk

/-! ## Functions of bounded growth -/

variable {X : Type*} [TopologicalSpace X] [MeasurableSpace X] [OpensMeasurableSpace X]

/-- The integrals of a continuous function converge if those of a continuous bound do. -/
theorem tendsto_of_growth {μ : ℕ → ProbabilityMeasure X} {ν : ProbabilityMeasure X} (hμ : Tendsto μ atTop (𝓝 ν)) {f p : X → ℝ} (hf : Continuous f)
    (hp : Continuous p) (hfp : ∀ x, |f x| ≤ p x) (hi : ∀ n, Integrable p (μ n : Measure X)) (hiν : Integrable p (ν : Measure X))
    (hm : Tendsto (fun n => ∫ x, p x ∂(μ n : Measure X)) atTop (𝓝 (∫ x, p x ∂(ν : Measure X)))) :
    Tendsto (fun n => ∫ x, f x ∂(μ n : Measure X)) atTop (𝓝 (∫ x, f x ∂(ν : Measure X))) := by
  have hp0 : ∀ x, 0 ≤ p x := fun x => (abs_nonneg _).trans (hfp x)
  have bdd : ∀ g : X → ℝ, Continuous g → ∀ C, (∀ x, |g x| ≤ C) →
      Tendsto (fun n => ∫ x, g x ∂(μ n : Measure X)) atTop (𝓝 (∫ x, g x ∂(ν : Measure X))) := fun g hg C hC =>
    (ProbabilityMeasure.tendsto_iff_forall_integral_tendsto.mp hμ) (BoundedContinuousFunction.ofNormedAddCommGroup g hg C hC)
  have hmin : ∀ (ρ : ProbabilityMeasure X) (C : ℕ), Integrable (fun x => min (p x) (C : ℝ)) (ρ : Measure X) := fun ρ C =>
    Integrable.of_bound (by fun_prop : Continuous fun x => min (p x) (C : ℝ)).aestronglyMeasurable C (.of_forall fun x => by
      rw [Real.norm_of_nonneg (le_min (hp0 x) (Nat.cast_nonneg C))]
      exact min_le_right _ _)
  have hcl : ∀ (ρ : ProbabilityMeasure X) (C : ℕ), Integrable (fun x => max (min (f x) (C : ℝ)) (-C)) (ρ : Measure X) := fun ρ C =>
    Integrable.of_bound (by fun_prop : Continuous fun x => max (min (f x) (C : ℝ)) (-C)).aestronglyMeasurable C (.of_forall fun x => by
      rw [Real.norm_eq_abs, abs_le]
      exact ⟨le_max_right _ _, max_le (min_le_right _ _) (by have : (0 : ℝ) ≤ C := Nat.cast_nonneg C; linarith)⟩)
  have hfi : ∀ ρ : ProbabilityMeasure X, Integrable p (ρ : Measure X) → Integrable f (ρ : Measure X) := fun ρ h =>
    h.mono' hf.aestronglyMeasurable (.of_forall hfp)
  -- the error of cutting off
  have hcut : ∀ (ρ : ProbabilityMeasure X), Integrable p (ρ : Measure X) → ∀ C : ℕ,
      |∫ x, f x ∂(ρ : Measure X) - ∫ x, max (min (f x) (C : ℝ)) (-C) ∂(ρ : Measure X)| ≤ ∫ x, p x ∂(ρ : Measure X) - ∫ x, min (p x) (C : ℝ) ∂(ρ : Measure X) := by
    intro ρ h C
    rw [← integral_sub (hfi ρ h) (hcl ρ C), ← integral_sub h (hmin ρ C)]
    rw [← Real.norm_eq_abs]
    refine norm_integral_le_of_norm_le (h.sub (hmin ρ C)) (.of_forall fun x => ?_)
    have := hfp x
    have hC : (0 : ℝ) ≤ C := Nat.cast_nonneg C
    have h0 := hp0 x
    rw [Real.norm_eq_abs]
    rw [abs_le] at this ⊢
    rcases le_total (f x) C with h1 | h1 <;> rcases le_total (p x) C with h2 | h2 <;> simp only [min_eq_left h1, min_eq_right h1, min_eq_left h2, min_eq_right h2]
    · rw [max_eq_left (by linarith)]
      constructor <;> linarith
    · rcases le_total (f x) (-C) with h3 | h3
      · rw [max_eq_right h3]
        constructor <;> linarith
      · rw [max_eq_left h3]
        constructor <;> linarith
    · rw [max_eq_left (by linarith)]
      constructor <;> linarith
    · rw [max_eq_left (by linarith)]
      constructor <;> linarith
  have htail : Tendsto (fun C : ℕ => ∫ x, p x ∂(ν : Measure X) - ∫ x, min (p x) (C : ℝ) ∂(ν : Measure X)) atTop (𝓝 0) := by
    have h1 : Tendsto (fun C : ℕ => ∫ x, min (p x) (C : ℝ) ∂(ν : Measure X)) atTop (𝓝 (∫ x, p x ∂(ν : Measure X))) := by
      refine tendsto_integral_of_dominated_convergence p (fun C => (hmin ν C).aestronglyMeasurable) hiν (fun C => .of_forall fun x => ?_) (.of_forall fun x => ?_)
      · rw [Real.norm_of_nonneg (le_min (hp0 x) (Nat.cast_nonneg C))]
        exact min_le_left _ _
      · obtain ⟨N, hN⟩ := exists_nat_ge (p x)
        refine tendsto_const_nhds.congr' ?_
        filter_upwards [eventually_ge_atTop N] with C hC
        exact (min_eq_left (hN.trans (Nat.cast_le.mpr hC))).symm
    have h2 := h1.const_sub (∫ x, p x ∂(ν : Measure X))
    rwa [sub_self] at h2
  rw [Metric.tendsto_atTop]
  intro ε hε
  obtain ⟨C, hC⟩ := ((tendsto_order.1 htail).2 (ε / 4) (by linarith)).exists
  have h1 := bdd _ (by fun_prop : Continuous fun x => max (min (f x) (C : ℝ)) (-C)) C fun x => by
    rw [abs_le]
    exact ⟨le_max_right _ _, max_le (min_le_right _ _) (by have : (0 : ℝ) ≤ C := Nat.cast_nonneg C; linarith)⟩
  have h2 := hm.sub (bdd _ (by fun_prop : Continuous fun x => min (p x) (C : ℝ)) C fun x => by
    rw [abs_of_nonneg (le_min (hp0 x) (Nat.cast_nonneg C))]
    exact min_le_right _ _)
  obtain ⟨N1, hN1⟩ := Metric.tendsto_atTop.mp h1 (ε / 4) (by linarith)
  obtain ⟨N2, hN2⟩ := eventually_atTop.mp ((tendsto_order.1 h2).2 (ε / 4) hC)
  refine ⟨max N1 N2, fun n hn => ?_⟩
  have a1 := hN1 n ((le_max_left _ _).trans hn)
  have a2 := hN2 n ((le_max_right _ _).trans hn)
  have a3 := hcut (μ n) (hi n) C
  have a4 := hcut ν hiν C
  rw [Real.dist_eq] at a1 ⊢
  rw [abs_lt] at a1 ⊢
  rw [abs_le] at a3 a4
  constructor <;> linarith [a1.1, a1.2, a3.1, a3.2, a4.1, a4.2]

/-- The integral of a polynomial against a product measure. -/
theorem integral_poly {d : ℕ} (ν : Fin d → Measure ℝ) [∀ j, SigmaFinite (ν j)] (hi : ∀ j, ∀ k : ℕ, Integrable (fun t : ℝ => t ^ k) (ν j)) (p : MvPolynomial (Fin d) ℝ) :
    Integrable (fun y => MvPolynomial.eval y p) (Measure.pi ν) ∧
    ∫ y, MvPolynomial.eval y p ∂(Measure.pi ν) = ∑ s ∈ p.support, p.coeff s * ∏ j, ∫ t, t ^ s j ∂(ν j) := by
  have h1 : ∀ s : Fin d →₀ ℕ, Integrable (fun y : Fin d → ℝ => ∏ j, y j ^ s j) (Measure.pi ν) :=
    fun s => Integrable.fintype_prod (f := fun j t => t ^ s j) fun j => hi j _
  simp only [MvPolynomial.eval_eq']
  refine ⟨integrable_finsetSum _ fun s _ => (h1 s).const_mul _, ?_⟩
  rw [integral_finsetSum _ fun s _ => (h1 s).const_mul _]
  refine Finset.sum_congr rfl fun s _ => ?_
  rw [integral_const_mul, integral_fintype_prod_eq_prod (f := fun j t => t ^ s j)]

/-- Product measures whose moments eventually agree: the integrals of continuous functions of polynomial growth converge. -/
theorem tendsto_pi {d : ℕ} {μ : ℕ → Fin d → ProbabilityMeasure ℝ} {ν : Fin d → ProbabilityMeasure ℝ}
    (hi : ∀ n j, ∀ k : ℕ, Integrable (fun x : ℝ => x ^ k) (μ n j : Measure ℝ))
    (hexp : ∀ j, ∀ s : ℝ, Integrable (fun x => Real.exp (s * x)) (ν j : Measure ℝ)) (hiν : ∀ j, ∀ k : ℕ, Integrable (fun x : ℝ => x ^ k) (ν j : Measure ℝ))
    (hm : ∀ j, ∀ k : ℕ, ∀ᶠ n in atTop, ∫ x, x ^ k ∂(μ n j : Measure ℝ) = ∫ x, x ^ k ∂(ν j : Measure ℝ))
    {f : (Fin d → ℝ) → ℝ} (hf : Continuous f) (p : MvPolynomial (Fin d) ℝ) (hfp : ∀ x, |f x| ≤ MvPolynomial.eval x p) :
    Tendsto (fun n => ∫ x, f x ∂(Measure.pi fun j => (μ n j : Measure ℝ))) atTop (𝓝 (∫ x, f x ∂(Measure.pi fun j => (ν j : Measure ℝ)))) ∧
    ∀ q : MvPolynomial (Fin d) ℝ, ∀ᶠ n in atTop,
      ∫ x, MvPolynomial.eval x q ∂(Measure.pi fun j => (μ n j : Measure ℝ)) = ∫ x, MvPolynomial.eval x q ∂(Measure.pi fun j => (ν j : Measure ℝ)) := by
  have h1 : Tendsto μ atTop (𝓝 ν) := tendsto_pi_nhds.mpr fun j => weak_of_moments (fun n => hi n j) (hexp j) (hiν j) (hm j)
  have h2 := (ProbabilityMeasure.continuous_pi.tendsto ν).comp h1
  have h3 : ∀ p : MvPolynomial (Fin d) ℝ, ∀ᶠ n in atTop, ∫ x, MvPolynomial.eval x p ∂(Measure.pi fun j => (μ n j : Measure ℝ))
      = ∫ x, MvPolynomial.eval x p ∂(Measure.pi fun j => (ν j : Measure ℝ)) := by
    intro p
    have h4 : ∀ᶠ n in atTop, ∀ s ∈ p.support, ∀ j, ∫ x, x ^ s j ∂(μ n j : Measure ℝ) = ∫ x, x ^ s j ∂(ν j : Measure ℝ) :=
      (Filter.eventually_all_finset _).mpr fun s _ => Filter.eventually_all.mpr fun j => hm j (s j)
    filter_upwards [h4] with n hn
    rw [(integral_poly _ (hi n) p).2, (integral_poly _ hiν p).2]
    exact Finset.sum_congr rfl fun s hs => by rw [Finset.prod_congr rfl fun j _ => hn s hs j]
  refine ⟨tendsto_of_growth h2 hf (MvPolynomial.continuous_eval p) hfp (fun n => (integral_poly _ (hi n) p).1) (integral_poly _ hiν p).1 ?_, h3⟩
  exact tendsto_const_nhds.congr' ((h3 p).mono fun n hn => hn.symm)

end Proofs.MomentConv
