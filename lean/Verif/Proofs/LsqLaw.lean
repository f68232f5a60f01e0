import Mathlib.Probability.StrongLaw
import Mathlib.Topology.Instances.Matrix
import Verif.Proofs.LeastSquares

/-!
# Least-squares fits to random samples converge to the best approximation in the mean square
-/

open MeasureTheory ProbabilityTheory Filter Spec Matrix
open scoped Topology

namespace Proofs.LsqLaw

variable {Ω X : Type*} [MeasurableSpace Ω] [MeasurableSpace X] {p : ℕ}

theorem matrix_tendsto {G : ℕ → Matrix (Fin p) (Fin p) ℝ} {G' : Matrix (Fin p) (Fin p) ℝ} (hG : ∀ j k, Tendsto (fun M => G M j k) atTop (𝓝 (G' j k))) :
    Tendsto G atTop (𝓝 G') := by
  refine tendsto_pi_nhds.mpr fun j => ?_
  refine tendsto_pi_nhds.mpr fun k => ?_
  exact hG j k

theorem entry_tendsto {G : ℕ → Matrix (Fin p) (Fin p) ℝ} {G' : Matrix (Fin p) (Fin p) ℝ} (hG : Tendsto G atTop (𝓝 G')) (j k : Fin p) :
    Tendsto (fun M => G M j k) atTop (𝓝 (G' j k)) := by
  have h1 := tendsto_pi_nhds.mp hG j
  exact tendsto_pi_nhds.mp h1 k

/-- Solutions of linear systems that converge. -/
theorem solve_tendsto {G : ℕ → Matrix (Fin p) (Fin p) ℝ} {G' : Matrix (Fin p) (Fin p) ℝ} {b u : ℕ → Fin p → ℝ} {b' u' : Fin p → ℝ}
    (hG : ∀ j k, Tendsto (fun M => G M j k) atTop (𝓝 (G' j k))) (hb : ∀ j, Tendsto (fun M => b M j) atTop (𝓝 (b' j)))
    (hdet : G'.det ≠ 0) (hu : ∀ᶠ M in atTop, (G M).mulVec (u M) = b M) (hu' : G'.mulVec u' = b') : ∀ j, Tendsto (fun M => u M j) atTop (𝓝 (u' j)) := by
  have hG' : Tendsto G atTop (𝓝 G') := matrix_tendsto hG
  have hd : Tendsto (fun M => (G M).det) atTop (𝓝 G'.det) := (Continuous.tendsto (by fun_prop : Continuous fun A : Matrix (Fin p) (Fin p) ℝ => A.det) G').comp hG'
  have ha : Tendsto (fun M => (G M).adjugate) atTop (𝓝 G'.adjugate) := (Continuous.tendsto (by fun_prop : Continuous fun A : Matrix (Fin p) (Fin p) ℝ => A.adjugate) G').comp hG'
  have hv : ∀ j, Tendsto (fun M => (G M).adjugate.mulVec (b M) j) atTop (𝓝 (G'.adjugate.mulVec b' j)) := fun j => by
    simp only [mulVec, dotProduct]
    exact tendsto_finsetSum _ fun k _ => (entry_tendsto ha j k).mul (hb k)
  have key : ∀ {A : Matrix (Fin p) (Fin p) ℝ} {v c : Fin p → ℝ}, A.mulVec v = c → A.det ≠ 0 → v = A.det⁻¹ • A.adjugate.mulVec c := by
    rintro A v c rfl hA
    rw [Matrix.mulVec_mulVec, Matrix.adjugate_mul, Matrix.smul_mulVec, Matrix.one_mulVec, smul_smul, inv_mul_cancel₀ hA, one_smul]
  intro j
  have hlim : Tendsto (fun M => (G M).det⁻¹ * (G M).adjugate.mulVec (b M) j) atTop (𝓝 (u' j)) := by
    rw [congrFun (key hu' hdet) j]
    exact (hd.inv₀ hdet).mul (hv j)
  refine hlim.congr' ?_
  filter_upwards [hu, hd.eventually_ne hdet] with M h1 h2
  exact (congrFun (key h1 h2) j).symm

/-- The normal equations of a least-squares fit. -/
theorem normal_eq {M : ℕ} {φ : Fin p → Fin M → ℝ} {F : Fin M → ℝ} {u : Fin p → ℝ}
    (h : ∀ v : Fin p → ℝ, ∑ i, (∑ j, u j * φ j i - F i) ^ 2 ≤ ∑ i, (∑ j, v j * φ j i - F i) ^ 2) (j : Fin p) :
    ∑ k, (∑ i, φ j i * φ k i) * u k = ∑ i, φ j i * F i := by
  have h1 : IsLeastSquares (Matrix.of fun i k => φ k i) F u := fun v => by
    have := h v
    unfold sqNorm
    simp only [Pi.sub_apply, mulVec, dotProduct, Matrix.of_apply]
    simpa only [mul_comm] using this
  have h2 := congrFun (Proofs.LeastSquares.isLeastSquares_iff.mp h1) j
  simp only [mulVec, dotProduct, Matrix.transpose_apply, Matrix.of_apply, Pi.sub_apply, Pi.zero_apply, mul_sub, Finset.sum_sub_distrib] at h2
  rw [sub_eq_zero] at h2
  rw [← h2]
  simp only [Finset.sum_mul, Finset.mul_sum]
  rw [Finset.sum_comm]
  exact Finset.sum_congr rfl fun i _ => Finset.sum_congr rfl fun k _ => by ring

variable {μ : Measure Ω} 

/-- The normal equations of the best approximation in the mean square. -/
theorem normal_mean {φ : Fin p → Ω → ℝ} {F : Ω → ℝ} (hφ : ∀ j, MemLp (φ j) 2 μ) (hF : MemLp F 2 μ) {u : Fin p → ℝ}
    (h : ∀ v : Fin p → ℝ, ∫ ω, (∑ j, u j * φ j ω - F ω) ^ 2 ∂μ ≤ ∫ ω, (∑ j, v j * φ j ω - F ω) ^ 2 ∂μ) (j : Fin p) :
    ∑ k, (∫ ω, φ j ω * φ k ω ∂μ) * u k = ∫ ω, φ j ω * F ω ∂μ := by
  set r : Ω → ℝ := fun ω => ∑ k, u k * φ k ω - F ω with hr
  have hrL : MemLp r 2 μ := (memLp_finsetSum _ fun k _ => (hφ k).const_mul (u k)).sub hF
  have h1 : ∀ t : ℝ, 0 ≤ 2 * t * ∫ ω, r ω * φ j ω ∂μ + t ^ 2 * ∫ ω, φ j ω ^ 2 ∂μ := fun t => by
    have h2 := h (u + Pi.single j t)
    have e : ∀ ω, ∑ k, (u + Pi.single j t : Fin p → ℝ) k * φ k ω - F ω = r ω + t * φ j ω := fun ω => by
      simp only [Pi.add_apply, add_mul, Finset.sum_add_distrib, hr]
      rw [Finset.sum_eq_single j (f := fun k => (Pi.single j t : Fin p → ℝ) k * φ k ω) (fun k _ hk => by rw [Pi.single_eq_of_ne hk, zero_mul])
        (fun hj => absurd (Finset.mem_univ j) hj), Pi.single_eq_same]
      ring
    simp only [e] at h2
    have e2 : ∀ ω, (r ω + t * φ j ω) ^ 2 = r ω ^ 2 + (2 * t * (r ω * φ j ω) + t ^ 2 * φ j ω ^ 2) := fun ω => by ring
    have i1 : Integrable (fun ω => r ω * φ j ω) μ := hrL.integrable_mul (hφ j)
    have i2 : Integrable (fun ω => φ j ω ^ 2) μ := (hφ j).integrable_sq
    simp only [e2] at h2
    have i3 : Integrable (fun ω => 2 * t * (r ω * φ j ω) + t ^ 2 * φ j ω ^ 2) μ := (i1.const_mul (2 * t)).add (i2.const_mul (t ^ 2))
    rw [integral_add hrL.integrable_sq i3, integral_add (i1.const_mul _) (i2.const_mul _), integral_const_mul, integral_const_mul] at h2
    linarith
  have h3 : ∫ ω, r ω * φ j ω ∂μ = 0 := by
    set A := ∫ ω, r ω * φ j ω ∂μ
    set B := ∫ ω, φ j ω ^ 2 ∂μ
    have hB : 0 ≤ B := integral_nonneg fun ω => sq_nonneg _
    by_contra hA
    have := h1 (-A / (B + 1))
    have hB1 : 0 < B + 1 := by linarith
    have e : 2 * (-A / (B + 1)) * A + (-A / (B + 1)) ^ 2 * B = -(A ^ 2 * (B + 2)) / (B + 1) ^ 2 := by
      field_simp
      ring
    rw [e] at this
    have hpos : 0 < A ^ 2 * (B + 2) / (B + 1) ^ 2 := by positivity
    rw [neg_div] at this
    linarith
  have i3 : ∀ k, Integrable (fun ω => φ j ω * φ k ω * u k) μ := fun k => ((hφ j).integrable_mul (hφ k)).mul_const _
  have h4 : ∫ ω, r ω * φ j ω ∂μ = ∑ k, (∫ ω, φ j ω * φ k ω ∂μ) * u k - ∫ ω, φ j ω * F ω ∂μ := by
    have i4 : Integrable (fun ω => φ j ω * F ω) μ := (hφ j).integrable_mul hF
    have e : ∀ ω, r ω * φ j ω = ∑ k, φ j ω * φ k ω * u k - φ j ω * F ω := fun ω => by
      simp only [hr, sub_mul, Finset.sum_mul]
      congr 1
      · exact Finset.sum_congr rfl fun k _ => by ring
      · ring
    simp only [e]
    rw [integral_sub (integrable_finsetSum _ fun k _ => i3 k) i4, integral_finsetSum _ fun k _ => i3 k]
    simp only [integral_mul_const]
  linarith [h3, h4]

theorem gram_det {φ : Fin p → Ω → ℝ} (hφ : ∀ j, MemLp (φ j) 2 μ) (hind : ∀ v : Fin p → ℝ, ∫ ω, (∑ j, v j * φ j ω) ^ 2 ∂μ = 0 → v = 0) :
    (Matrix.of fun j k => ∫ ω, φ j ω * φ k ω ∂μ : Matrix (Fin p) (Fin p) ℝ).det ≠ 0 := by
  intro h
  obtain ⟨v, hv, h0⟩ := Matrix.exists_mulVec_eq_zero_iff.mpr h
  refine hv (hind v ?_)
  have e : ∀ ω, (∑ j, v j * φ j ω) ^ 2 = ∑ j, ∑ k, v j * v k * (φ j ω * φ k ω) := fun ω => by
    rw [sq, Finset.sum_mul_sum]
    exact Finset.sum_congr rfl fun k _ => Finset.sum_congr rfl fun l _ => by ring
  have hi : ∀ j k, Integrable (fun ω => v j * v k * (φ j ω * φ k ω)) μ := fun j k => ((hφ j).integrable_mul (hφ k)).const_mul _
  simp only [e]
  rw [integral_finsetSum _ fun j _ => integrable_finsetSum _ fun k _ => hi j k]
  refine Finset.sum_eq_zero fun j _ => ?_
  rw [integral_finsetSum _ fun k _ => hi j k]
  have h1 := congrFun h0 j
  simp only [mulVec, dotProduct, Matrix.of_apply, Pi.zero_apply] at h1
  rw [← mul_zero (v j), ← h1, Finset.mul_sum]
  exact Finset.sum_congr rfl fun k _ => by rw [integral_const_mul]; ring

/-- Least-squares fits to independent samples converge almost surely. -/
theorem lsq_law {x : ℕ → Ω → X} (hind : Pairwise fun i j => IndepFun (x i) (x j) μ) (hid : ∀ i, IdentDistrib (x i) (x 0) μ μ)
    {φ : Fin p → X → ℝ} {F : X → ℝ} (hφm : ∀ j, Measurable (φ j)) (hFm : Measurable F) (hφ : ∀ j, MemLp (fun ω => φ j (x 0 ω)) 2 μ)
    (hF : MemLp (fun ω => F (x 0 ω)) 2 μ) (hdet : ∀ v : Fin p → ℝ, ∫ ω, (∑ j, v j * φ j (x 0 ω)) ^ 2 ∂μ = 0 → v = 0) {u : Fin p → ℝ}
    (hu : ∀ v : Fin p → ℝ, ∫ ω, (∑ j, u j * φ j (x 0 ω) - F (x 0 ω)) ^ 2 ∂μ ≤ ∫ ω, (∑ j, v j * φ j (x 0 ω) - F (x 0 ω)) ^ 2 ∂μ) :
    ∀ᵐ ω ∂μ, ∀ s : ℕ → Fin p → ℝ, (∀ᶠ M in atTop, ∀ v : Fin p → ℝ, ∑ i : Fin M, (∑ j, s M j * φ j (x i ω) - F (x i ω)) ^ 2
      ≤ ∑ i : Fin M, (∑ j, v j * φ j (x i ω) - F (x i ω)) ^ 2) → ∀ j, Tendsto (fun M => s M j) atTop (𝓝 (u j)) := by
  have law : ∀ g : X → ℝ, Measurable g → Integrable (fun ω => g (x 0 ω)) μ →
      ∀ᵐ ω ∂μ, Tendsto (fun M : ℕ => (∑ i : Fin M, g (x i ω)) / (M : ℝ)) atTop (𝓝 (∫ ω, g (x 0 ω) ∂μ)) := fun g hg hi => by
    have h := strong_law_ae_real (fun i ω => g (x i ω)) hi (fun i j hij => (hind hij).comp hg hg) (fun i => (hid i).comp hg)
    filter_upwards [h] with ω hω
    refine hω.congr fun M => ?_
    rw [Fin.sum_univ_eq_sum_range fun i => g (x i ω)]
  have h1 : ∀ᵐ ω ∂μ, ∀ j k, Tendsto (fun M : ℕ => (∑ i : Fin M, φ j (x i ω) * φ k (x i ω)) / (M : ℝ)) atTop (𝓝 (∫ ω, φ j (x 0 ω) * φ k (x 0 ω) ∂μ)) := by
    rw [ae_all_iff]
    intro j
    rw [ae_all_iff]
    intro k
    exact law (fun x => φ j x * φ k x) ((hφm j).mul (hφm k)) ((hφ j).integrable_mul (hφ k))
  have h2 : ∀ᵐ ω ∂μ, ∀ j, Tendsto (fun M : ℕ => (∑ i : Fin M, φ j (x i ω) * F (x i ω)) / (M : ℝ)) atTop (𝓝 (∫ ω, φ j (x 0 ω) * F (x 0 ω) ∂μ)) := by
    rw [ae_all_iff]
    intro j
    exact law (fun x => φ j x * F x) ((hφm j).mul hFm) ((hφ j).integrable_mul hF)
  filter_upwards [h1, h2] with ω g1 g2 s hs
  have g3 : ∀ᶠ M in atTop, (Matrix.of fun j k => (∑ i : Fin M, φ j (x i ω) * φ k (x i ω)) / (M : ℝ) : Matrix (Fin p) (Fin p) ℝ).mulVec (s M)
      = fun j => (∑ i : Fin M, φ j (x i ω) * F (x i ω)) / (M : ℝ) := by
    filter_upwards [hs] with M hM
    funext j
    have h3 := normal_eq (φ := fun j (i : Fin M) => φ j (x i ω)) (F := fun i => F (x i ω)) hM j
    simp only [mulVec, dotProduct, Matrix.of_apply]
    rw [← h3, Finset.sum_div]
    exact Finset.sum_congr rfl fun k _ => by ring
  have g4 : (Matrix.of fun j k => ∫ ω, φ j (x 0 ω) * φ k (x 0 ω) ∂μ : Matrix (Fin p) (Fin p) ℝ).mulVec u = fun j => ∫ ω, φ j (x 0 ω) * F (x 0 ω) ∂μ :=
    funext fun j => normal_mean hφ hF hu j
  have g5 : ∀ j k, Tendsto (fun M => (Matrix.of fun j k => (∑ i : Fin M, φ j (x i ω) * φ k (x i ω)) / (M : ℝ) : Matrix (Fin p) (Fin p) ℝ) j k) atTop
      (𝓝 ((Matrix.of fun j k => ∫ ω, φ j (x 0 ω) * φ k (x 0 ω) ∂μ : Matrix (Fin p) (Fin p) ℝ) j k)) := fun j k => by
    simp only [Matrix.of_apply]
    exact g1 j k
  exact solve_tendsto g5 g2 (gram_det hφ hdet) g3 g4

/-- The same with hypotheses on the distribution of the samples. -/
theorem lsq_law_of {ν : Measure X} {x : ℕ → Ω → X} (hx : ∀ i, MeasurePreserving (x i) μ ν) (hind : Pairwise fun i j => IndepFun (x i) (x j) μ)
    {φ : Fin p → X → ℝ} {F : X → ℝ} (hφm : ∀ j, Measurable (φ j)) (hFm : Measurable F) (hφ : ∀ j, MemLp (φ j) 2 ν)
    (hF : MemLp F 2 ν) (hdet : ∀ v : Fin p → ℝ, ∫ y, (∑ j, v j * φ j y) ^ 2 ∂ν = 0 → v = 0) {u : Fin p → ℝ}
    (hu : ∀ v : Fin p → ℝ, ∫ y, (∑ j, u j * φ j y - F y) ^ 2 ∂ν ≤ ∫ y, (∑ j, v j * φ j y - F y) ^ 2 ∂ν) :
    ∀ᵐ ω ∂μ, ∀ s : ℕ → Fin p → ℝ, (∀ᶠ M in atTop, ∀ v : Fin p → ℝ, ∑ i : Fin M, (∑ j, s M j * φ j (x i ω) - F (x i ω)) ^ 2
      ≤ ∑ i : Fin M, (∑ j, v j * φ j (x i ω) - F (x i ω)) ^ 2) → ∀ j, Tendsto (fun M => s M j) atTop (𝓝 (u j)) := by
  have e : ∀ g : X → ℝ, Measurable g → ∫ ω, g (x 0 ω) ∂μ = ∫ y, g y ∂ν := fun g hg => by
    rw [← (hx 0).map_eq, integral_map (hx 0).measurable.aemeasurable hg.aestronglyMeasurable]
  have hm : ∀ v : Fin p → ℝ, Measurable fun y => ∑ j, v j * φ j y := fun v => Finset.measurable_sum _ fun j _ => (hφm j).const_mul _
  refine lsq_law hind (fun i => ⟨(hx i).measurable.aemeasurable, (hx 0).measurable.aemeasurable, (hx i).map_eq.trans (hx 0).map_eq.symm⟩) hφm hFm
    (fun j => (hφ j).comp_measurePreserving (hx 0)) (hF.comp_measurePreserving (hx 0)) (fun v hv => hdet v ?_) (fun v => ?_)
  · rw [← e _ ((hm v).pow_const 2)]
    exact hv
  · rw [e (fun y => (∑ j, u j * φ j y - F y) ^ 2) (((hm u).sub hFm).pow_const 2), e (fun y => (∑ j, v j * φ j y - F y) ^ 2) (((hm v).sub hFm).pow_const 2)]
    exact hu v

/-- Averages over independent samples. -/
theorem avg_law {ν : Measure X} {x : ℕ → Ω → X} (hx : ∀ i, MeasurePreserving (x i) μ ν) (hind : Pairwise fun i j => IndepFun (x i) (x j) μ) {g : X → ℝ}
    (hg : Measurable g) (hi : Integrable g ν) : ∀ᵐ ω ∂μ, Tendsto (fun M : ℕ => (∑ i : Fin M, g (x i ω)) / (M : ℝ)) atTop (𝓝 (∫ y, g y ∂ν)) := by
  have h := strong_law_ae_real (fun i ω => g (x i ω)) (((hx 0).integrable_comp hi.aestronglyMeasurable).mpr hi) (fun i j hij => (hind hij).comp hg hg)
    (fun i => (⟨(hx i).measurable.aemeasurable, (hx 0).measurable.aemeasurable, (hx i).map_eq.trans (hx 0).map_eq.symm⟩ : IdentDistrib (x i) (x 0) μ μ).comp hg)
  filter_upwards [h] with ω hω
  have e : ∫ ω, g (x 0 ω) ∂μ = ∫ y, g y ∂ν := by
    rw [← (hx 0).map_eq, integral_map (hx 0).measurable.aemeasurable hg.aestronglyMeasurable]
  rw [← e]
  refine hω.congr fun M => ?_
  rw [Fin.sum_univ_eq_sum_range fun i => g (x i ω)]

/-- The mean square error as a quadratic polynomial in the coefficients. -/
theorem mean_sq {ν : Measure X} {φ : Fin p → X → ℝ} {F : X → ℝ} (hφ : ∀ j, MemLp (φ j) 2 ν) (hF : MemLp F 2 ν) (s : Fin p → ℝ) :
    ∫ y, (∑ j, s j * φ j y - F y) ^ 2 ∂ν = ∑ j, ∑ k, s j * s k * ∫ y, φ j y * φ k y ∂ν - 2 * ∑ j, s j * ∫ y, φ j y * F y ∂ν + ∫ y, F y ^ 2 ∂ν := by
  have i1 : ∀ j k, Integrable (fun y => s j * s k * (φ j y * φ k y)) ν := fun j k => ((hφ j).integrable_mul (hφ k)).const_mul _
  have i2 : ∀ j, Integrable (fun y => s j * (φ j y * F y)) ν := fun j => ((hφ j).integrable_mul hF).const_mul _
  have i3 : Integrable (fun y => ∑ j, ∑ k, s j * s k * (φ j y * φ k y)) ν := integrable_finsetSum _ fun j _ => integrable_finsetSum _ fun k _ => i1 j k
  have i4 : Integrable (fun y => 2 * ∑ j, s j * (φ j y * F y)) ν := (integrable_finsetSum _ fun j _ => i2 j).const_mul 2
  have i5 : Integrable (fun y => ∑ j, ∑ k, s j * s k * (φ j y * φ k y) - 2 * ∑ j, s j * (φ j y * F y)) ν := i3.sub i4
  have e : ∀ y, (∑ j, s j * φ j y - F y) ^ 2 = ∑ j, ∑ k, s j * s k * (φ j y * φ k y) - 2 * ∑ j, s j * (φ j y * F y) + F y ^ 2 := fun y => by
    have h1 : ∑ j, ∑ k, s j * s k * (φ j y * φ k y) = (∑ j, s j * φ j y) * ∑ j, s j * φ j y := by
      rw [Finset.sum_mul_sum]
      exact Finset.sum_congr rfl fun j _ => Finset.sum_congr rfl fun k _ => by ring
    have h2 : ∑ j, s j * (φ j y * F y) = (∑ j, s j * φ j y) * F y := by
      rw [Finset.sum_mul]
      exact Finset.sum_congr rfl fun j _ => by ring
    rw [h1, h2]
    ring
  simp only [e]
  rw [integral_add i5 hF.integrable_sq, integral_sub i3 i4, integral_const_mul, integral_finsetSum _ fun j _ => i2 j,
    integral_finsetSum _ fun j _ => integrable_finsetSum _ fun k _ => i1 j k]
  simp only [integral_finsetSum _ fun k _ => i1 _ k, integral_const_mul]

theorem sample_sq {M : ℕ} (φ : Fin p → Fin M → ℝ) (F : Fin M → ℝ) (s : Fin p → ℝ) :
    (∑ i, (∑ j, s j * φ j i - F i) ^ 2) / M
      = ∑ j, ∑ k, s j * s k * ((∑ i, φ j i * φ k i) / M) - 2 * ∑ j, s j * ((∑ i, φ j i * F i) / M) + (∑ i, F i ^ 2) / M := by
  have e : ∀ i, (∑ j, s j * φ j i - F i) ^ 2 = ∑ j, ∑ k, s j * s k * (φ j i * φ k i) - 2 * ∑ j, s j * (φ j i * F i) + F i ^ 2 := fun i => by
    have h1 : ∑ j, ∑ k, s j * s k * (φ j i * φ k i) = (∑ j, s j * φ j i) * ∑ j, s j * φ j i := by
      rw [Finset.sum_mul_sum]
      exact Finset.sum_congr rfl fun j _ => Finset.sum_congr rfl fun k _ => by ring
    have h2 : ∑ j, s j * (φ j i * F i) = (∑ j, s j * φ j i) * F i := by
      rw [Finset.sum_mul]
      exact Finset.sum_congr rfl fun j _ => by ring
    rw [h1, h2]
    ring
  simp only [e, Finset.sum_add_distrib, Finset.sum_sub_distrib, add_div, sub_div]
  congr 2
  · rw [Finset.sum_comm, Finset.sum_div]
    refine Finset.sum_congr rfl fun j _ => ?_
    rw [Finset.sum_comm, Finset.sum_div]
    exact Finset.sum_congr rfl fun k _ => by rw [← Finset.mul_sum, mul_div_assoc]
  · rw [← Finset.mul_sum, mul_div_assoc, Finset.sum_comm, Finset.sum_div]
    congr 1
    exact Finset.sum_congr rfl fun k _ => by rw [← Finset.mul_sum, mul_div_assoc]

/-- The error on new data when the coefficients converge. -/
theorem error_tendsto {ν : Measure X} {φ : Fin p → X → ℝ} {F : X → ℝ} (hφ : ∀ j, MemLp (φ j) 2 ν) (hF : MemLp F 2 ν) {s : ℕ → Fin p → ℝ} {u : Fin p → ℝ}
    (hs : ∀ j, Tendsto (fun M => s M j) atTop (𝓝 (u j))) :
    Tendsto (fun M => ∫ y, (∑ j, s M j * φ j y - F y) ^ 2 ∂ν) atTop (𝓝 (∫ y, (∑ j, u j * φ j y - F y) ^ 2 ∂ν)) := by
  simp only [mean_sq hφ hF]
  refine Tendsto.add (Tendsto.sub ?_ (Tendsto.const_mul 2 ?_)) tendsto_const_nhds
  · exact tendsto_finsetSum _ fun j _ => tendsto_finsetSum _ fun k _ => ((hs j).mul (hs k)).mul_const _
  · exact tendsto_finsetSum _ fun j _ => (hs j).mul_const _

/-- The mean residual on the sample when the coefficients converge. -/
theorem residual_law {ν : Measure X} {x : ℕ → Ω → X} (hx : ∀ i, MeasurePreserving (x i) μ ν) (hind : Pairwise fun i j => IndepFun (x i) (x j) μ)
    {φ : Fin p → X → ℝ} {F : X → ℝ} (hφm : ∀ j, Measurable (φ j)) (hFm : Measurable F) (hφ : ∀ j, MemLp (φ j) 2 ν) (hF : MemLp F 2 ν) :
    ∀ᵐ ω ∂μ, ∀ (s : ℕ → Fin p → ℝ) (u : Fin p → ℝ), (∀ j, Tendsto (fun M => s M j) atTop (𝓝 (u j))) →
      Tendsto (fun M : ℕ => (∑ i : Fin M, (∑ j, s M j * φ j (x i ω) - F (x i ω)) ^ 2) / (M : ℝ)) atTop (𝓝 (∫ y, (∑ j, u j * φ j y - F y) ^ 2 ∂ν)) := by
  have h1 : ∀ᵐ ω ∂μ, ∀ j k, Tendsto (fun M : ℕ => (∑ i : Fin M, φ j (x i ω) * φ k (x i ω)) / (M : ℝ)) atTop (𝓝 (∫ y, φ j y * φ k y ∂ν)) := by
    rw [ae_all_iff]
    intro j
    rw [ae_all_iff]
    intro k
    exact avg_law hx hind (g := fun x => φ j x * φ k x) ((hφm j).mul (hφm k)) ((hφ j).integrable_mul (hφ k))
  have h2 : ∀ᵐ ω ∂μ, ∀ j, Tendsto (fun M : ℕ => (∑ i : Fin M, φ j (x i ω) * F (x i ω)) / (M : ℝ)) atTop (𝓝 (∫ y, φ j y * F y ∂ν)) := by
    rw [ae_all_iff]
    intro j
    exact avg_law hx hind (g := fun x => φ j x * F x) ((hφm j).mul hFm) ((hφ j).integrable_mul hF)
  have h3 := avg_law hx hind (g := fun x => F x ^ 2) (hFm.pow_const 2) hF.integrable_sq
  filter_upwards [h1, h2, h3] with ω g1 g2 g3 s u hs
  rw [mean_sq hφ hF]
  have e : ∀ M : ℕ, (∑ i : Fin M, (∑ j, s M j * φ j (x i ω) - F (x i ω)) ^ 2) / (M : ℝ) = _ := fun M => sample_sq (fun j (i : Fin M) => φ j (x i ω)) (fun i => F (x i ω)) (s M)
  simp only [e]
  refine Tendsto.add (Tendsto.sub ?_ (Tendsto.const_mul 2 ?_)) g3
  · exact tendsto_finsetSum _ fun j _ => tendsto_finsetSum _ fun k _ => ((hs j).mul (hs k)).mul (g1 j k)
  · exact tendsto_finsetSum _ fun j _ => (hs j).mul (g2 j)

/-- A best approximation exists. -/
theorem exists_best {ν : Measure X} {φ : Fin p → X → ℝ} {F : X → ℝ} (hφ : ∀ j, MemLp (φ j) 2 ν) (hF : MemLp F 2 ν)
    (hdet : ∀ v : Fin p → ℝ, ∫ y, (∑ j, v j * φ j y) ^ 2 ∂ν = 0 → v = 0) :
    ∃ u : Fin p → ℝ, ∀ v : Fin p → ℝ, ∫ y, (∑ j, u j * φ j y - F y) ^ 2 ∂ν ≤ ∫ y, (∑ j, v j * φ j y - F y) ^ 2 ∂ν := by
  have hd := gram_det hφ hdet
  set G : Matrix (Fin p) (Fin p) ℝ := Matrix.of fun j k => ∫ y, φ j y * φ k y ∂ν with hG
  set b : Fin p → ℝ := fun j => ∫ y, φ j y * F y ∂ν with hb
  have hu : G.mulVec (G⁻¹.mulVec b) = b := by
    rw [Matrix.mulVec_mulVec, Matrix.mul_nonsing_inv _ (isUnit_iff_ne_zero.mpr hd), Matrix.one_mulVec]
  refine ⟨G⁻¹.mulVec b, fun v => ?_⟩
  set u := G⁻¹.mulVec b
  have hsym : ∀ j k, G j k = G k j := fun j k => by
    simp only [hG, Matrix.of_apply]
    exact integral_congr_ae (Eventually.of_forall fun y => mul_comm _ _)
  have h0 : 0 ≤ ∑ j, ∑ k, (v j - u j) * (v k - u k) * G j k := by
    have h := mean_sq (F := fun _ => 0) hφ MemLp.zero' (fun j => v j - u j)
    simp only [mul_zero, integral_zero, Finset.sum_const_zero, sub_zero, add_zero, ne_eq, OfNat.ofNat_ne_zero, not_false_eq_true, zero_pow] at h
    simp only [hG, Matrix.of_apply]
    rw [← h]
    exact integral_nonneg fun y => sq_nonneg _
  have hub : ∀ j, ∑ k, u k * G j k = b j := fun j => by
    rw [← congrFun hu j]
    simp only [mulVec, dotProduct]
    exact Finset.sum_congr rfl fun k _ => mul_comm _ _
  have e1 : ∑ j, ∑ k, (v j - u j) * (v k - u k) * G j k = ∑ j, ∑ k, v j * v k * G j k - 2 * ∑ j, v j * b j + ∑ j, u j * b j := by
    have a1 : ∑ j, ∑ k, v j * u k * G j k = ∑ j, v j * b j := Finset.sum_congr rfl fun j _ => by
      rw [← hub, Finset.mul_sum]
      exact Finset.sum_congr rfl fun k _ => by ring
    have a2 : ∑ j, ∑ k, u j * v k * G j k = ∑ j, v j * b j := by
      rw [Finset.sum_comm, ← a1]
      exact Finset.sum_congr rfl fun k _ => Finset.sum_congr rfl fun j _ => by rw [hsym]; ring
    have a3 : ∑ j, ∑ k, u j * u k * G j k = ∑ j, u j * b j := Finset.sum_congr rfl fun j _ => by
      rw [← hub, Finset.mul_sum]
      exact Finset.sum_congr rfl fun k _ => by ring
    have : ∀ j k, (v j - u j) * (v k - u k) * G j k = v j * v k * G j k - v j * u k * G j k - u j * v k * G j k + u j * u k * G j k := fun j k => by ring
    simp only [this, Finset.sum_add_distrib, Finset.sum_sub_distrib, a1, a2, a3]
    ring
  have e2 : ∑ j, ∑ k, u j * u k * G j k = ∑ j, u j * b j := Finset.sum_congr rfl fun j _ => by
    rw [← hub, Finset.mul_sum]
    exact Finset.sum_congr rfl fun k _ => by ring
  rw [mean_sq hφ hF, mean_sq hφ hF]
  change ∑ j, ∑ k, u j * u k * G j k - 2 * ∑ j, u j * b j + _ ≤ ∑ j, ∑ k, v j * v k * G j k - 2 * ∑ j, v j * b j + _
  rw [e2]
  rw [e1] at h0
  linarith

end Proofs.LsqLaw
