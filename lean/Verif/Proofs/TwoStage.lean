import Verif.Proofs.SampleMean
import Mathlib.MeasureTheory.Integral.Prod

/-!
# Averages over independent points with independent random weights
-/

open MeasureTheory ProbabilityTheory

namespace Proofs.TwoStage

variable {Ω X Y : Type} {R T : ℕ} [MeasurableSpace Ω] [MeasurableSpace X] [MeasurableSpace Y] {μ : Measure Ω} {κ : Measure Y} [IsProbabilityMeasure κ]
  {ρ : Fin R → Measure X} [∀ i, IsProbabilityMeasure (ρ i)] {V : Ω → Y} {Z : Ω → Fin R → Fin T → X} {w : Fin R → Y → ℝ} {φ : Fin R → X → ℝ}

/-- For fixed weights. -/
theorem fixed (hT : 0 < T) (hφ : ∀ i, MemLp (φ i) 2 (ρ i)) (c : Fin R → ℝ) :
    MemLp (fun z : Fin R → Fin T → X => ∑ i, c i * ((∑ t, φ i (z i t)) / T)) 2 (Measure.pi fun i => Measure.pi fun _ : Fin T => ρ i) ∧
    ∫ z : Fin R → Fin T → X, ∑ i, c i * ((∑ t, φ i (z i t)) / T) ∂(Measure.pi fun i => Measure.pi fun _ : Fin T => ρ i) = ∑ i, c i * ∫ x, φ i x ∂(ρ i) ∧
    Var[fun z : Fin R → Fin T → X => ∑ i, c i * ((∑ t, φ i (z i t)) / T); Measure.pi fun i => Measure.pi fun _ : Fin T => ρ i]
      = (∑ i, c i ^ 2 * Var[φ i; ρ i]) / T := by
  have hid : ∀ i, HasLaw (id : (Fin T → X) → Fin T → X) (Measure.pi fun _ : Fin T => ρ i) (Measure.pi fun _ : Fin T => ρ i) := fun i =>
    ⟨aemeasurable_id, Measure.map_id⟩
  have h1 : ∀ i, MemLp (fun x : Fin T → X => c i * ((∑ t, φ i (x t)) / T)) 2 (Measure.pi fun _ : Fin T => ρ i) := fun i =>
    (SampleMean.memLp_mean (hid i) (hφ i)).const_mul _
  have hev := fun i => measurePreserving_eval (fun i => Measure.pi fun _ : Fin T => ρ i) i
  have h2 : ∀ i, MemLp (fun z : Fin R → Fin T → X => c i * ((∑ t, φ i (z i t)) / T)) 2 (Measure.pi fun i => Measure.pi fun _ : Fin T => ρ i) := fun i =>
    (h1 i).comp_measurePreserving (hev i)
  refine ⟨memLp_finsetSum Finset.univ fun i _ => h2 i, ?_, ?_⟩
  · rw [integral_finsetSum Finset.univ (f := fun (i : Fin R) (z : Fin R → Fin T → X) => c i * ((∑ t, φ i (z i t)) / T))
      fun i _ => (h2 i).integrable (by norm_num)]
    refine Finset.sum_congr rfl fun i _ => ?_
    rw [integral_const_mul]
    congr 1
    have h3 := SampleMean.mean_mean (hid i) (hφ i) hT
    rw [← h3]
    have h4 := (hev i).hasLaw.integral_comp (f := fun x : Fin T → X => (∑ t, φ i (x t)) / T)
      (SampleMean.memLp_mean (hid i) (hφ i)).aestronglyMeasurable
    exact h4
  · have h3 := variance_sum_pi (μ := fun i => Measure.pi fun _ : Fin T => ρ i) (X := fun i (x : Fin T → X) => c i * ((∑ t, φ i (x t)) / T)) h1
    have e : (∑ i, fun z : Fin R → Fin T → X => c i * ((∑ t, φ i (z i t)) / T)) = fun z => ∑ i, c i * ((∑ t, φ i (z i t)) / T) := by
      funext z
      rw [Finset.sum_apply]
    rw [e] at h3
    rw [h3, Finset.sum_div]
    refine Finset.sum_congr rfl fun i _ => ?_
    rw [variance_const_mul]
    have h4 := SampleMean.var_mean (hid i) (hφ i) hT
    refine (congrArg (fun u => c i ^ 2 * u) h4).trans ?_
    rw [mul_div_assoc]

/-- With random weights that are nonnegative and add to at most one. -/
theorem error (hT : 0 < T) (hφ : ∀ i, MemLp (φ i) 2 (ρ i)) (hw : ∀ i, Measurable (w i)) (hw0 : ∀ i y, 0 ≤ w i y) (hw1 : ∀ y, ∑ i, w i y ≤ 1)
    (h : HasLaw (fun ω => (V ω, Z ω)) (κ.prod (Measure.pi fun i => Measure.pi fun _ : Fin T => ρ i)) μ) {v : ℝ} (hv : ∀ i, Var[φ i; ρ i] ≤ v) (hv0 : 0 ≤ v)
    {q : Ω → ℝ} (hq : q =ᵐ[μ] fun ω => ∑ i, w i (V ω) * ((∑ t, φ i (Z ω i t)) / T)) (I : ℝ) :
    MemLp q 2 μ ∧ ∫ ω, q ω ∂μ = ∫ y, ∑ i, w i y * ∫ x, φ i x ∂(ρ i) ∂κ ∧
    ∫ ω, (q ω - I) ^ 2 ∂μ ≤ ∫ y, (∑ i, w i y * ∫ x, φ i x ∂(ρ i) - I) ^ 2 ∂κ + v / T := by
  have : IsProbabilityMeasure μ := h.isProbabilityMeasure
  let Q : Y × (Fin R → Fin T → X) → ℝ := fun p => ∑ i, w i p.1 * ((∑ t, φ i (p.2 i t)) / T)
  let P : Measure (Y × (Fin R → Fin T → X)) := κ.prod (Measure.pi fun i => Measure.pi fun _ : Fin T => ρ i)
  have hwle : ∀ i y, w i y ≤ 1 := fun i y => (Finset.single_le_sum (fun j _ => hw0 j y) (Finset.mem_univ i)).trans (hw1 y)
  have hQ : MemLp Q 2 P := by
    refine memLp_finsetSum Finset.univ fun i _ => ?_
    have h1 : MemLp (fun p : Y × (Fin R → Fin T → X) => w i p.1) ⊤ P :=
      memLp_top_of_bound ((hw i).comp measurable_fst).aestronglyMeasurable 1 (.of_forall fun p => by
        rw [Real.norm_eq_abs, abs_of_nonneg (hw0 i _)]
        exact hwle i _)
    have hid : HasLaw (id : (Fin T → X) → Fin T → X) (Measure.pi fun _ : Fin T => ρ i) (Measure.pi fun _ : Fin T => ρ i) :=
      ⟨aemeasurable_id, Measure.map_id⟩
    have h2 := ((SampleMean.memLp_mean hid (hφ i)).comp_measurePreserving
      (measurePreserving_eval (fun i => Measure.pi fun _ : Fin T => ρ i) i)).comp_measurePreserving (measurePreserving_snd (μ := κ))
    exact h2.mul h1
  have hqQ : q =ᵐ[μ] fun ω => Q (V ω, Z ω) := hq
  have hmem : MemLp (fun ω => Q (V ω, Z ω)) 2 μ := by
    have : MemLp Q 2 (μ.map fun ω => (V ω, Z ω)) := by
      rw [h.map_eq]
      exact hQ
    exact this.comp_of_map h.aemeasurable
  have e1 : ∫ ω, q ω ∂μ = ∫ p, Q p ∂P := (integral_congr_ae hqQ).trans (h.integral_comp (f := Q) hQ.aestronglyMeasurable)
  have e2 : ∫ ω, (q ω - I) ^ 2 ∂μ = ∫ p, (Q p - I) ^ 2 ∂P := by
    refine (integral_congr_ae (g := fun ω => (Q (V ω, Z ω) - I) ^ 2) ?_).trans
      (h.integral_comp (f := fun p => (Q p - I) ^ 2) ((hQ.aestronglyMeasurable.sub aestronglyMeasurable_const).pow 2))
    filter_upwards [hqQ] with ω hω
    rw [hω]
  have hQi : Integrable Q P := hQ.integrable (by norm_num)
  have hQ2 : Integrable (fun p => (Q p - I) ^ 2) P := (hQ.sub (memLp_const I)).integrable_sq
  refine ⟨(memLp_congr_ae hqQ).mpr hmem, ?_, ?_⟩
  · rw [e1, integral_prod _ hQi]
    exact integral_congr_ae (.of_forall fun y => (fixed hT hφ fun i => w i y).2.1)
  · rw [e2, integral_prod _ hQ2]
    have hmeas : Measurable fun y => ∑ i, w i y * ∫ x, φ i x ∂(ρ i) := Finset.measurable_sum _ fun i _ => (hw i).mul_const _
    have hb : ∀ y, |∑ i, w i y * ∫ x, φ i x ∂(ρ i)| ≤ ∑ i, |∫ x, φ i x ∂(ρ i)| := fun y => by
      refine (Finset.abs_sum_le_sum_abs _ _).trans (Finset.sum_le_sum fun i _ => ?_)
      rw [abs_mul, abs_of_nonneg (hw0 i y)]
      exact mul_le_of_le_one_left (abs_nonneg _) (hwle i y)
    have hm2 : MemLp (fun y => ∑ i, w i y * ∫ x, φ i x ∂(ρ i)) 2 κ :=
      MemLp.of_bound hmeas.aestronglyMeasurable (∑ i, |∫ x, φ i x ∂(ρ i)|) (.of_forall hb)
    have hi : Integrable (fun y => (∑ i, w i y * ∫ x, φ i x ∂(ρ i) - I) ^ 2) κ := (hm2.sub (memLp_const I)).integrable_sq
    have hle : ∀ y, ∫ z, (Q (y, z) - I) ^ 2 ∂(Measure.pi fun i => Measure.pi fun _ : Fin T => ρ i)
        ≤ (∑ i, w i y * ∫ x, φ i x ∂(ρ i) - I) ^ 2 + v / T := fun y => by
      obtain ⟨f1, f2, f3⟩ := fixed hT hφ fun i => w i y
      have h3 := SampleMean.mean_sq f1 I
      refine h3.le.trans ?_
      rw [f2, f3, add_comm]
      refine add_le_add le_rfl (div_le_div_of_nonneg_right ?_ (Nat.cast_nonneg T))
      calc ∑ i, w i y ^ 2 * Var[φ i; ρ i] ≤ ∑ i, w i y * v := Finset.sum_le_sum fun i _ => by
            refine mul_le_mul ?_ (hv i) (variance_nonneg _ _) (hw0 i y)
            rw [sq]
            exact mul_le_of_le_one_left (hw0 i y) (hwle i y)
        _ = (∑ i, w i y) * v := (Finset.sum_mul _ _ _).symm
        _ ≤ v := mul_le_of_le_one_left hv0 (hw1 y)
    refine (integral_mono hQ2.integral_prod_left (hi.add (integrable_const _)) hle).trans_eq ?_
    rw [integral_add' hi (integrable_const _), integral_const]
    simp

end Proofs.TwoStage
