import Mathlib.Probability.ConditionalProbability
import Mathlib.Probability.HasLaw
import Mathlib.MeasureTheory.Measure.Prod
import Verif.Proofs.Accept

/-!
# The conditional law of the first accepted points
-/

open MeasureTheory ProbabilityTheory
open scoped ENNReal

namespace Proofs.Accept

variable {X : Type} {k : ℕ}

open Classical in
/-- The first `N` points in `Ω`. -/
noncomputable def first [Inhabited X] (Ω : Set X) : (M N : ℕ) → (Fin M → X) → Fin N → X
  | _, 0, _ => fun i => i.elim0
  | 0, _ + 1, _ => fun _ => default
  | M + 1, N + 1, x => if x 0 ∈ Ω then Fin.cons (α := fun _ => X) (x 0) (first Ω M N fun i => x i.succ) else first Ω M (N + 1) fun i => x i.succ

open Classical in
theorem first_eq [Inhabited X] (Ω : Set X) {M N : ℕ} (x : Fin M → X) (i : Fin N) :
    first Ω M N x i = ((List.ofFn x).filter fun z => decide (z ∈ Ω)).getD i default := by
  induction M generalizing N with
  | zero =>
    cases N with
    | zero => exact i.elim0
    | succ N => simp [first]
  | succ M ih =>
    cases N with
    | zero => exact i.elim0
    | succ N =>
      rw [first, List.ofFn_succ, List.filter_cons]
      by_cases h : x 0 ∈ Ω
      · rw [if_pos h, if_pos (by simpa using h)]
        refine Fin.cases ?_ (fun j => ?_) i
        · simp
        · simp [ih]
      · rw [if_neg h, if_neg (by simpa using h), ih]

open Classical in
theorem acc_first [Inhabited X] (Ω : Set X) {M N : ℕ} (A : Fin N → Set X) (x : Fin M → X) :
    Acc Ω M N A x ↔ Acc Ω M N (fun _ => Set.univ) x ∧ ∀ i, first Ω M N x i ∈ A i := by
  rw [acc_iff, acc_iff]
  simp only [first_eq, Set.mem_univ, implies_true, and_true]

variable [MeasurableSpace X]

theorem first_measurable [Inhabited X] {Ω : Set X} (hΩ : MeasurableSet Ω) (M N : ℕ) : Measurable (first Ω M N) := by
  classical
  induction M generalizing N with
  | zero =>
    cases N with
    | zero => exact measurable_pi_lambda _ fun i => i.elim0
    | succ N => exact measurable_const
  | succ M ih =>
    cases N with
    | zero => exact measurable_pi_lambda _ fun i => i.elim0
    | succ N =>
      have hs : Measurable fun (x : Fin (M + 1) → X) (i : Fin M) => x i.succ := measurable_pi_lambda _ fun i => measurable_pi_apply _
      have h0 : Measurable fun x : Fin (M + 1) → X => x 0 := measurable_pi_apply _
      have e : first Ω (M + 1) (N + 1) = fun x => if x 0 ∈ Ω then Fin.cons (α := fun _ => X) (x 0) (first Ω M N fun i => x i.succ)
          else first Ω M (N + 1) fun i => x i.succ := by
        funext x
        rw [first]
      rw [e]
      refine Measurable.ite (h0 hΩ) (measurable_pi_lambda _ fun i => ?_) ((ih _).comp hs)
      refine Fin.cases ?_ (fun j => ?_) i
      · simpa using h0
      · simp only [Fin.cons_succ]
        exact (measurable_pi_apply j).comp ((ih N).comp hs)

/-- Given that enough points are accepted, the first ones are independent and have the law of the points conditioned on `Ω`. -/
theorem first_law [Inhabited X] (ν : Measure X) [IsProbabilityMeasure ν] {Ω : Set X} (hΩ : MeasurableSet Ω) (h0 : ν Ω ≠ 0) {M N : ℕ} (hNM : N ≤ M) :
    (Measure.pi fun _ : Fin M => ν) {x | Acc Ω M N (fun _ => Set.univ) x} ≠ 0 ∧
    ((Measure.pi fun _ : Fin M => ν)[|{x | Acc Ω M N (fun _ => Set.univ) x}]).map (first Ω M N) = Measure.pi fun _ : Fin N => ν[|Ω] := by
  have : IsProbabilityMeasure ν[|Ω] := cond_isProbabilityMeasure h0
  have hp : (Measure.pi fun _ : Fin M => ν) {x | Acc Ω M N (fun _ => Set.univ) x} ≠ 0 := by
    rw [acc_binomial ν hΩ]
    refine fun h => ?_
    rw [Finset.sum_eq_zero_iff] at h
    have h1 := h M (Finset.mem_Icc.mpr ⟨hNM, le_rfl⟩)
    rw [Nat.choose_self, Nat.sub_self, pow_zero, Nat.cast_one, one_mul, mul_one] at h1
    exact pow_ne_zero _ h0 h1
  refine ⟨hp, (Measure.pi_eq fun A hA => ?_).symm⟩
  have hG : MeasurableSet {x : Fin M → X | Acc Ω M N (fun _ => Set.univ) x} := acc_measurable hΩ fun _ => MeasurableSet.univ
  rw [Measure.map_apply (first_measurable hΩ M N) (MeasurableSet.univ_pi hA), cond_apply hG]
  have e : {x | Acc Ω M N (fun _ => Set.univ) x} ∩ first Ω M N ⁻¹' Set.univ.pi A = {x | Acc Ω M N A x} := by
    ext x
    simp only [Set.mem_inter_iff, Set.mem_ofPred_eq, Set.mem_preimage, Set.mem_pi, Set.mem_univ, true_implies]
    exact (acc_first Ω A x).symm
  rw [e]
  have h2 := acc_law ν hΩ (M := M) hA
  have h3 : ∀ i, ν[A i | Ω] = (ν Ω)⁻¹ * ν (A i ∩ Ω) := fun i => by rw [cond_apply hΩ, Set.inter_comm]
  simp only [h3, Finset.prod_mul_distrib, Finset.prod_const, Finset.card_univ, Fintype.card_fin]
  have hpt : (Measure.pi fun _ : Fin M => ν) {x | Acc Ω M N (fun _ => Set.univ) x} ≠ ⊤ := measure_ne_top _ _
  have hq0 : ν Ω ^ N ≠ 0 := pow_ne_zero _ h0
  have hqt : ν Ω ^ N ≠ ⊤ := ENNReal.pow_ne_top (measure_ne_top _ _)
  set p := (Measure.pi fun _ : Fin M => ν) {x | Acc Ω M N (fun _ => Set.univ) x}
  set a := (Measure.pi fun _ : Fin M => ν) {x | Acc Ω M N A x}
  set b := ∏ i, ν (A i ∩ Ω)
  have h4 : a = (ν Ω ^ N)⁻¹ * (p * b) := by
    rw [← h2, mul_comm a, ← mul_assoc, ENNReal.inv_mul_cancel hq0 hqt, one_mul]
  rw [h4, ENNReal.inv_pow]
  calc p⁻¹ * ((ν Ω)⁻¹ ^ N * (p * b)) = (p⁻¹ * p) * ((ν Ω)⁻¹ ^ N * b) := by ring
    _ = _ := by rw [ENNReal.inv_mul_cancel hp hpt, one_mul]

/-! ## Conditioning products -/

theorem pi_cond {R : ℕ} {Y : Fin R → Type} [∀ i, MeasurableSpace (Y i)] (κ : ∀ i, Measure (Y i)) [∀ i, IsProbabilityMeasure (κ i)]
    {G : ∀ i, Set (Y i)} (hG : ∀ i, MeasurableSet (G i)) (h0 : ∀ i, κ i (G i) ≠ 0) :
    (Measure.pi κ)[|Set.univ.pi G] = Measure.pi fun i => (κ i)[|G i] := by
  have : ∀ i, IsProbabilityMeasure (κ i)[|G i] := fun i => cond_isProbabilityMeasure (h0 i)
  refine (Measure.pi_eq fun s hs => ?_).symm
  rw [cond_apply (MeasurableSet.univ_pi hG), ← Set.pi_inter_distrib, Measure.pi_pi, Measure.pi_pi]
  simp only [cond_apply (hG _)]
  rw [Finset.prod_mul_distrib, ENNReal.prod_inv_distrib (by intro i _ j _ _; left; exact h0 i)]

theorem prod_cond {Y Z : Type} [MeasurableSpace Y] [MeasurableSpace Z] (κ : Measure Y) (ρ : Measure Z) [IsProbabilityMeasure κ] [IsProbabilityMeasure ρ]
    {G : Set Z} (hG : MeasurableSet G) (h0 : ρ G ≠ 0) : (κ.prod ρ)[|Set.univ ×ˢ G] = κ.prod ρ[|G] := by
  have : IsProbabilityMeasure ρ[|G] := cond_isProbabilityMeasure h0
  refine (Measure.prod_eq fun s t hs ht => ?_).symm
  rw [cond_apply (MeasurableSet.univ.prod hG), Set.prod_inter_prod, Measure.prod_prod, Measure.prod_prod, cond_apply hG, measure_univ, one_mul,
    Set.univ_inter]
  ring

theorem hasLaw_cond {Ω Y : Type} [MeasurableSpace Ω] [MeasurableSpace Y] {μ : Measure Ω} {κ : Measure Y} {U : Ω → Y} (h : HasLaw U κ μ) {G : Set Y}
    (hG : MeasurableSet G) : HasLaw U κ[|G] μ[|U ⁻¹' G] := by
  refine ⟨h.aemeasurable.mono_ac (cond_absolutelyContinuous), ?_⟩
  unfold ProbabilityTheory.cond
  rw [Measure.map_smul, ← Measure.restrict_map_of_aemeasurable h.aemeasurable hG, h.map_eq, show μ (U ⁻¹' G) = κ G from by
    rw [← h.map_eq, Measure.map_apply_of_aemeasurable h.aemeasurable hG]]

theorem hasLaw_comp {Ω Y Z : Type} [MeasurableSpace Ω] [MeasurableSpace Y] [MeasurableSpace Z] {μ : Measure Ω} {κ : Measure Y} {U : Ω → Y}
    (h : HasLaw U κ μ) {f : Y → Z} (hf : Measurable f) {ρ : Measure Z} (hρ : κ.map f = ρ) : HasLaw (fun ω => f (U ω)) ρ μ := by
  refine ⟨hf.comp_aemeasurable h.aemeasurable, ?_⟩
  rw [← hρ, ← h.map_eq]
  exact (AEMeasurable.map_map_of_aemeasurable hf.aemeasurable h.aemeasurable).symm

/-- Several groups of points, each with its own set, and something independent of them: given that every group has enough points in its set, the first
ones of these are independent, with the law of the points conditioned on the set. -/
theorem first_joint [Inhabited X] {Ω Y : Type} [MeasurableSpace Ω] [MeasurableSpace Y] {μ : Measure Ω} {κ : Measure Y} [IsProbabilityMeasure κ]
    {R M N : ℕ} (hNM : N ≤ M) {ν : Fin R → Measure X} [∀ i, IsProbabilityMeasure (ν i)] {A : Fin R → Set X} (hA : ∀ i, MeasurableSet (A i))
    (h0 : ∀ i, ν i (A i) ≠ 0) {V : Ω → Y} {U : Ω → Fin R → Fin M → X}
    (h : HasLaw (fun ω => (V ω, U ω)) (κ.prod (Measure.pi fun i => Measure.pi fun _ : Fin M => ν i)) μ) :
    μ {ω | ∀ i, Acc (A i) M N (fun _ => Set.univ) (U ω i)} ≠ 0 ∧
    (∀ᵐ ω ∂μ[|{ω | ∀ i, Acc (A i) M N (fun _ => Set.univ) (U ω i)}], ∀ i, Acc (A i) M N (fun _ => Set.univ) (U ω i)) ∧
    HasLaw (fun ω => (V ω, fun i => first (A i) M N (U ω i))) (κ.prod (Measure.pi fun i => Measure.pi fun _ : Fin N => (ν i)[|A i]))
      μ[|{ω | ∀ i, Acc (A i) M N (fun _ => Set.univ) (U ω i)}] := by
  have hi : ∀ i, IsProbabilityMeasure (ν i)[|A i] := fun i => cond_isProbabilityMeasure (h0 i)
  let G : Fin R → Set (Fin M → X) := fun i => {x | Acc (A i) M N (fun _ => Set.univ) x}
  have hG : ∀ i, MeasurableSet (G i) := fun i => acc_measurable (hA i) fun _ => MeasurableSet.univ
  have hl := fun i => first_law (ν i) (hA i) (h0 i) hNM
  have hpi : (Measure.pi fun i => Measure.pi fun _ : Fin M => ν i) (Set.univ.pi G) ≠ 0 := by
    rw [Measure.pi_pi]
    exact Finset.prod_ne_zero_iff.mpr fun i _ => (hl i).1
  have hm : MeasurableSet (Set.univ ×ˢ Set.univ.pi G : Set (Y × (Fin R → Fin M → X))) := MeasurableSet.univ.prod (MeasurableSet.univ_pi hG)
  have e : {ω | ∀ i, Acc (A i) M N (fun _ => Set.univ) (U ω i)} = (fun ω => (V ω, U ω)) ⁻¹' (Set.univ ×ˢ Set.univ.pi G) := by
    ext ω
    simp [G]
  have hae := ae_cond_mem₀ (μ := μ) (h.aemeasurable.nullMeasurable hm)
  rw [← e] at hae
  refine ⟨?_, hae, ?_⟩ <;> rw [e]
  · rw [← Measure.map_apply_of_aemeasurable h.aemeasurable hm, h.map_eq, Measure.prod_prod, measure_univ, one_mul]
    exact hpi
  · have h1 := hasLaw_cond h hm
    rw [prod_cond _ _ (MeasurableSet.univ_pi hG) hpi, pi_cond _ hG fun i => (hl i).1] at h1
    have hc : ∀ i, IsProbabilityMeasure (Measure.pi fun _ : Fin M => ν i)[|G i] := fun i => cond_isProbabilityMeasure (hl i).1
    have hf : Measurable fun (x : Fin R → Fin M → X) i => first (A i) M N (x i) :=
      measurable_pi_lambda _ fun i => (first_measurable (hA i) M N).comp (measurable_pi_apply i)
    refine hasLaw_comp h1 (f := Prod.map id fun (x : Fin R → Fin M → X) i => first (A i) M N (x i)) (measurable_id.prodMap hf) ?_
    rw [← Measure.map_prod_map _ _ measurable_id hf, Measure.map_id]
    congr 1
    have hfi : ∀ i, AEMeasurable (first (A i) M N) ((Measure.pi fun _ : Fin M => ν i)[|G i]) := fun i => (first_measurable (hA i) M N).aemeasurable
    have : ∀ i, IsProbabilityMeasure (((Measure.pi fun _ : Fin M => ν i)[|G i]).map (first (A i) M N)) := fun i => Measure.isProbabilityMeasure_map (hfi i)
    rw [Measure.pi_map_pi hfi]
    congr 1
    funext i
    exact (hl i).2

end Proofs.Accept
