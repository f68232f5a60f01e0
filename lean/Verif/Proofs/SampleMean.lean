import Mathlib.Probability.HasLaw
import Mathlib.Probability.Moments.Variance
import Mathlib.Probability.Independence.Basic

/-!
# Averages over independent points
-/

open MeasureTheory ProbabilityTheory

namespace Proofs.SampleMean

variable {Ω X : Type} {N G : ℕ} [MeasurableSpace Ω] [MeasurableSpace X] {μ : Measure Ω} {ν : Measure X} [IsProbabilityMeasure ν]
  {U : Ω → Fin N → X}

theorem row_law (hU : HasLaw U (Measure.pi fun _ : Fin N => ν) μ) (i : Fin N) : HasLaw (fun ω => U ω i) ν μ :=
  (measurePreserving_eval (fun _ : Fin N => ν) i).hasLaw.comp hU

theorem rows_indep (hU : HasLaw U (Measure.pi fun _ : Fin N => ν) μ) : iIndepFun (fun (i : Fin N) ω => U ω i) μ := by
  have : IsProbabilityMeasure μ := hU.isProbabilityMeasure
  rw [iIndepFun_iff_map_fun_eq_pi_map fun i => (row_law hU i).aemeasurable]
  simp only [fun i => (row_law hU i).map_eq]
  exact hU.map_eq

variable {φ : X → ℝ}

theorem memLp_row (hU : HasLaw U (Measure.pi fun _ : Fin N => ν) μ) (hφ : MemLp φ 2 ν) (i : Fin N) : MemLp (fun ω => φ (U ω i)) 2 μ := by
  have := (row_law hU i).map_eq ▸ hφ
  exact this.comp_of_map (row_law hU i).aemeasurable

theorem memLp_mean (hU : HasLaw U (Measure.pi fun _ : Fin N => ν) μ) (hφ : MemLp φ 2 ν) : MemLp (fun ω => (∑ i, φ (U ω i)) / N) 2 μ := by
  have := (memLp_finsetSum Finset.univ fun (i : Fin N) _ => memLp_row hU hφ i).const_mul ((N : ℝ)⁻¹)
  refine this.ae_eq (.of_forall fun ω => ?_)
  dsimp only
  rw [inv_mul_eq_div]

theorem mean_mean (hU : HasLaw U (Measure.pi fun _ : Fin N => ν) μ) (hφ : MemLp φ 2 ν) (hN : 0 < N) :
    ∫ ω, (∑ i, φ (U ω i)) / N ∂μ = ∫ x, φ x ∂ν := by
  have : IsProbabilityMeasure μ := hU.isProbabilityMeasure
  have hN' : (N : ℝ) ≠ 0 := by exact_mod_cast hN.ne'
  rw [integral_div, integral_finsetSum Finset.univ (f := fun (i : Fin N) ω => φ (U ω i)) fun i _ => (memLp_row hU hφ i).integrable (by norm_num)]
  have e : ∀ i : Fin N, ∫ ω, φ (U ω i) ∂μ = ∫ x, φ x ∂ν := fun i => (row_law hU i).integral_comp hφ.aestronglyMeasurable
  simp only [e]
  rw [Finset.sum_const, Finset.card_univ, Fintype.card_fin, nsmul_eq_mul]
  field_simp

theorem var_mean (hU : HasLaw U (Measure.pi fun _ : Fin N => ν) μ) (hφ : MemLp φ 2 ν) (hN : 0 < N) :
    Var[fun ω => (∑ i, φ (U ω i)) / N; μ] = Var[φ; ν] / N := by
  have hN' : (N : ℝ) ≠ 0 := by exact_mod_cast hN.ne'
  have e : (fun ω => (∑ i, φ (U ω i)) / N) = ∑ i : Fin N, fun ω => (N : ℝ)⁻¹ * φ (U ω i) := by
    funext ω
    rw [Finset.sum_apply, ← Finset.mul_sum, inv_mul_eq_div]
  have hv : ∀ i : Fin N, Var[fun ω => φ (U ω i); μ] = Var[φ; ν] := fun i => by
    rw [← (row_law hU i).map_eq]
    exact (variance_map (by rw [(row_law hU i).map_eq]; exact hφ.aestronglyMeasurable.aemeasurable) (row_law hU i).aemeasurable).symm
  have hi : ∀ i j : Fin N, i ≠ j → IndepFun (fun ω => φ (U ω i)) (fun ω => φ (U ω j)) μ := fun i j hij =>
    ((rows_indep hU).indepFun hij).comp₀ (row_law hU i).aemeasurable (row_law hU j).aemeasurable
      (by rw [(row_law hU i).map_eq]; exact hφ.aestronglyMeasurable.aemeasurable)
      (by rw [(row_law hU j).map_eq]; exact hφ.aestronglyMeasurable.aemeasurable)
  rw [e, IndepFun.variance_sum (X := fun (i : Fin N) ω => (N : ℝ)⁻¹ * φ (U ω i)) (fun i _ => (memLp_row hU hφ i).const_mul _)
    fun i _ j _ hij => (hi i j hij).comp (measurable_const_mul ((N : ℝ)⁻¹)) (measurable_const_mul ((N : ℝ)⁻¹))]
  simp only [variance_const_mul, hv]
  rw [Finset.sum_const, Finset.card_univ, Fintype.card_fin, nsmul_eq_mul]
  field_simp

/-! ## Frequencies -/

theorem memLp_indicator {A : Set X} (hA : MeasurableSet A) (c : ℝ) : MemLp (A.indicator fun _ => c) 2 ν :=
  (memLp_const c).indicator hA

open Classical in
theorem freq_eq (A : Set X) (u : Fin N → X) :
    ((Finset.univ.filter fun i => u i ∈ A).card : ℝ) / N = (∑ i, A.indicator (fun _ => (1 : ℝ)) (u i)) / N := by
  congr 1
  rw [Finset.card_filter]
  push_cast
  exact Finset.sum_congr rfl fun i _ => by simp [Set.indicator_apply]

theorem var_indicator {A : Set X} (hA : MeasurableSet A) : Var[A.indicator fun _ => (1 : ℝ); ν] = ν.real A * (1 - ν.real A) := by
  rw [variance_eq_sub (memLp_indicator hA 1)]
  have e : (A.indicator fun _ => (1 : ℝ)) ^ 2 = A.indicator fun _ => (1 : ℝ) := by
    funext x
    by_cases hx : x ∈ A <;> simp [Set.indicator_apply, hx]
  rw [e, integral_indicator_const _ hA]
  simp
  ring

open Classical in
/-- The fraction of the points in a set has the probability of the set as its mean, and is close to it. -/
theorem frequency (hU : HasLaw U (Measure.pi fun _ : Fin N => ν) μ) (hN : 0 < N) {A : Set X} (hA : MeasurableSet A) {q : Ω → ℝ}
    (hq : ∀ ω, q ω = ((Finset.univ.filter fun i => U ω i ∈ A).card : ℝ) / N) :
    ∫ ω, q ω ∂μ = ν.real A ∧ Var[q; μ] = ν.real A * (1 - ν.real A) / N ∧
      ∀ ε, 0 < ε → μ.real {ω | ε ≤ |q ω - ν.real A|} ≤ 1 / (4 * N * ε ^ 2) := by
  have : IsProbabilityMeasure μ := hU.isProbabilityMeasure
  have e : q = fun ω => (∑ i, A.indicator (fun _ => (1 : ℝ)) (U ω i)) / N := funext fun ω => (hq ω).trans (freq_eq A (U ω))
  have hm : ∫ ω, q ω ∂μ = ν.real A := by
    rw [e, mean_mean hU (memLp_indicator hA 1) hN, integral_indicator_const _ hA]
    simp
  have hv : Var[q; μ] = ν.real A * (1 - ν.real A) / N := by rw [e, var_mean hU (memLp_indicator hA 1) hN, var_indicator hA]
  refine ⟨hm, hv, fun ε hε => ?_⟩
  have h1 := meas_ge_le_variance_div_sq (μ := μ) (X := q) (e ▸ memLp_mean hU (memLp_indicator hA 1)) hε
  rw [hm, hv] at h1
  have hN' : (0 : ℝ) < N := by exact_mod_cast hN
  refine (ENNReal.toReal_mono ENNReal.ofReal_ne_top h1).trans ?_
  have h2 : ν.real A ≤ 1 := measureReal_le_one
  rw [ENNReal.toReal_ofReal (by have : 0 ≤ 1 - ν.real A := by linarith
                                positivity)]
  rw [div_div, div_le_div_iff₀ (by positivity) (by positivity)]
  have h3 : ν.real A * (1 - ν.real A) * 4 ≤ 1 := by nlinarith [sq_nonneg (2 * ν.real A - 1)]
  nlinarith [mul_nonneg (mul_nonneg hN'.le (sq_nonneg ε)) (sub_nonneg.mpr h3)]

/-- The mean square error is the variance plus the square of the bias. -/
theorem mean_sq [IsProbabilityMeasure μ] {q : Ω → ℝ} (hq : MemLp q 2 μ) (I : ℝ) : ∫ ω, (q ω - I) ^ 2 ∂μ = Var[q; μ] + (∫ ω, q ω ∂μ - I) ^ 2 := by
  have h1 : Integrable q μ := hq.integrable (by norm_num)
  have h2 : Integrable (fun ω => q ω ^ 2) μ := hq.integrable_sq
  rw [variance_eq_sub hq]
  have e : ∫ ω, (q ω - I) ^ 2 ∂μ = ∫ ω, q ω ^ 2 ∂μ - 2 * I * ∫ ω, q ω ∂μ + I ^ 2 := by
    have : ∀ ω, (q ω - I) ^ 2 = q ω ^ 2 - 2 * I * q ω + I ^ 2 := fun ω => by ring
    simp only [this]
    have h3 : Integrable (fun ω => q ω ^ 2 - 2 * I * q ω) μ := h2.sub (h1.const_mul _)
    rw [integral_add h3 (integrable_const _), integral_sub h2 (h1.const_mul _), integral_const_mul]
    simp
  rw [e]
  simp only [Pi.pow_apply]
  ring

open Classical in
/-- Values `v` at the nodes, weighted with the fractions of the points in disjoint cells `A`: when almost every point is in some cell where
`F` differs from the value by at most `δ`, the error of the mean is at most `δ`; when the values differ from `c` by at most `B` the mean square
error is at most `δ² + B²/N`. -/
theorem cells (hU : HasLaw U (Measure.pi fun _ : Fin N => ν) μ) (hN : 0 < N) {A : Fin G → Set X} (hA : ∀ i, MeasurableSet (A i))
    (hd : ∀ i j, i ≠ j → ∀ x, x ∈ A i → x ∉ A j) {v : Fin G → ℝ} {F : X → ℝ} (hF : AEMeasurable F ν) {δ B c : ℝ}
    (hc : ∀ᵐ x ∂ν, ∃ i, x ∈ A i ∧ |v i - F x| ≤ δ) (hB : ∀ i, |v i - c| ≤ B) {q : Ω → ℝ}
    (hq : ∀ ω, q ω = ∑ i, ((Finset.univ.filter fun s => U ω s ∈ A i).card : ℝ) / N * v i) :
    MemLp q 2 μ ∧ |∫ ω, q ω ∂μ - ∫ x, F x ∂ν| ≤ δ ∧ ∫ ω, (q ω - ∫ x, F x ∂ν) ^ 2 ∂μ ≤ δ ^ 2 + B ^ 2 / N := by
  have : IsProbabilityMeasure μ := hU.isProbabilityMeasure
  let φ : X → ℝ := fun x => ∑ i, (A i).indicator (fun _ => v i) x
  have hφ : MemLp φ 2 ν := memLp_finsetSum Finset.univ fun i _ => memLp_indicator (hA i) (v i)
  have e : q = fun ω => (∑ s, φ (U ω s)) / N := by
    funext ω
    rw [hq]
    simp only [φ, freq_eq]
    rw [Finset.sum_comm, Finset.sum_div]
    refine Finset.sum_congr rfl fun i _ => ?_
    rw [div_mul_eq_mul_div, Finset.sum_mul]
    congr 1
    exact Finset.sum_congr rfl fun s _ => by simp [Set.indicator_apply]
  have hφv : ∀ i x, x ∈ A i → φ x = v i := by
    intro i x hx
    refine (Finset.sum_eq_single i (fun j _ hj => ?_) (by simp)).trans (Set.indicator_of_mem hx _)
    exact Set.indicator_of_notMem (hd i j hj.symm x hx) _
  have h1 : ∀ᵐ x ∂ν, ‖φ x - F x‖ ≤ δ := by
    filter_upwards [hc] with x hx
    obtain ⟨i, hi, hv⟩ := hx
    rw [hφv i x hi]
    exact hv
  have h2 : ∀ᵐ x ∂ν, φ x ∈ Set.Icc (c - B) (c + B) := by
    filter_upwards [hc] with x hx
    obtain ⟨i, hi, -⟩ := hx
    rw [hφv i x hi]
    have := abs_le.mp (hB i)
    exact ⟨by linarith [this.1], by linarith [this.2]⟩
  have hφi : Integrable φ ν := hφ.integrable (by norm_num)
  have hsub : Integrable (fun x => φ x - F x) ν :=
    Integrable.of_bound (hφi.aestronglyMeasurable.sub hF.aestronglyMeasurable) δ h1
  have hFi : Integrable F ν := by
    have := hφi.sub hsub
    refine this.congr (.of_forall fun x => ?_)
    simp
  have hb : |∫ ω, q ω ∂μ - ∫ x, F x ∂ν| ≤ δ := by
    rw [e, mean_mean hU hφ hN, ← integral_sub hφi hFi]
    have := norm_integral_le_of_norm_le_const h1
    simpa using this
  refine ⟨e ▸ memLp_mean hU hφ, hb, ?_⟩
  rw [mean_sq (e ▸ memLp_mean hU hφ)]
  have h3 : Var[q; μ] ≤ B ^ 2 / N := by
    rw [e, var_mean hU hφ hN]
    refine div_le_div_of_nonneg_right ?_ (Nat.cast_nonneg _)
    refine (variance_le_sq_of_bounded h2 hφ.aestronglyMeasurable.aemeasurable).trans_eq ?_
    ring
  have h4 : (∫ ω, q ω ∂μ - ∫ x, F x ∂ν) ^ 2 ≤ δ ^ 2 := sq_le_sq' (by linarith [(abs_le.mp hb).1]) (abs_le.mp hb).2
  linarith

end Proofs.SampleMean
