import Mathlib.MeasureTheory.Constructions.Pi
import Mathlib.MeasureTheory.Measure.Lebesgue.Basic
import Mathlib.Data.List.OfFn
import Mathlib.Data.Nat.Choose.Sum

/-!
# The first accepted ones of independent points
-/

open MeasureTheory
open scoped ENNReal

namespace Proofs.Accept

variable {X : Type} {k : ℕ}

open Classical in
/-- At least `N` of the points are in `Ω`, and the first `N` of these are in the sets `A`. -/
def Acc (Ω : Set X) : (M N : ℕ) → (Fin N → Set X) → (Fin M → X) → Prop
  | _, 0, _, _ => True
  | 0, _ + 1, _, _ => False
  | M + 1, N + 1, A, x => if x 0 ∈ Ω then x 0 ∈ A 0 ∧ Acc Ω M N (fun i => A i.succ) (fun i => x i.succ)
      else Acc Ω M (N + 1) A fun i => x i.succ

open Classical in
theorem acc_iff [Inhabited X] (Ω : Set X) {M N : ℕ} (A : Fin N → Set X) (x : Fin M → X) :
    Acc Ω M N A x ↔ N ≤ ((List.ofFn x).filter fun z => decide (z ∈ Ω)).length ∧
      ∀ i : Fin N, ((List.ofFn x).filter fun z => decide (z ∈ Ω)).getD i default ∈ A i := by
  induction M generalizing N with
  | zero =>
    cases N with
    | zero => simp [Acc]
    | succ N => simp [Acc]
  | succ M ih =>
    cases N with
    | zero => simp [Acc]
    | succ N =>
      rw [Acc, List.ofFn_succ, List.filter_cons]
      by_cases h : x 0 ∈ Ω
      · rw [if_pos h, if_pos (by simpa using h), ih, List.length_cons, Fin.forall_fin_succ]
        simp only [Fin.val_zero, List.getD_cons_zero, Fin.val_succ, List.getD_cons_succ]
        constructor
        · rintro ⟨h1, h2, h3⟩
          exact ⟨by omega, h1, h3⟩
        · rintro ⟨h1, h2, h3⟩
          exact ⟨h2, by omega, h3⟩
      · rw [if_neg h, if_neg (by simpa using h), ih]

variable [MeasurableSpace X]

theorem acc_measurable {Ω : Set X} (hΩ : MeasurableSet Ω) {M N : ℕ} {A : Fin N → Set X} (hA : ∀ i, MeasurableSet (A i)) :
    MeasurableSet {x | Acc Ω M N A x} := by
  classical
  induction M generalizing N with
  | zero =>
    cases N with
    | zero => simp [Acc]
    | succ N => simp [Acc]
  | succ M ih =>
    cases N with
    | zero => simp [Acc]
    | succ N =>
      have hs : Measurable fun (x : Fin (M + 1) → X) (i : Fin M) => x i.succ := measurable_pi_lambda _ fun i => measurable_pi_apply _
      have h0 : Measurable fun x : Fin (M + 1) → X => x 0 := measurable_pi_apply _
      have e : {x | Acc Ω (M + 1) (N + 1) A x}
          = ((fun x => x 0) ⁻¹' Ω ∩ ((fun x => x 0) ⁻¹' A 0 ∩ (fun (x : Fin (M + 1) → X) (i : Fin M) => x i.succ) ⁻¹' {x | Acc Ω M N (fun i => A i.succ) x}))
            ∪ ((fun x => x 0) ⁻¹' Ωᶜ ∩ (fun (x : Fin (M + 1) → X) (i : Fin M) => x i.succ) ⁻¹' {x | Acc Ω M (N + 1) A x}) := by
        ext x
        simp only [Acc, Set.mem_setOf_eq, Set.mem_union, Set.mem_inter_iff, Set.mem_preimage, Set.mem_compl_iff]
        by_cases h : x 0 ∈ Ω
        · simp [h]
        · simp [h]
      rw [e]
      exact ((h0 hΩ).inter ((h0 (hA 0)).inter (hs (ih fun i => hA _)))).union ((h0 hΩ.compl).inter (hs (ih hA)))

/-- The first point is accepted or not. -/
theorem acc_succ (ν : Measure X) [IsProbabilityMeasure ν] {Ω : Set X} (hΩ : MeasurableSet Ω) {M N : ℕ} {A : Fin (N + 1) → Set X}
    (hA : ∀ i, MeasurableSet (A i)) :
    (Measure.pi fun _ : Fin (M + 1) => ν) {x | Acc Ω (M + 1) (N + 1) A x}
      = ν (A 0 ∩ Ω) * (Measure.pi fun _ : Fin M => ν) {x | Acc Ω M N (fun i => A i.succ) x}
        + ν Ωᶜ * (Measure.pi fun _ : Fin M => ν) {x | Acc Ω M (N + 1) A x} := by
  classical
  have mp := measurePreserving_piFinSuccAbove (fun _ : Fin (M + 1) => ν) 0
  have e : {x | Acc Ω (M + 1) (N + 1) A x} = MeasurableEquiv.piFinSuccAbove (fun _ : Fin (M + 1) => X) 0 ⁻¹'
      (((A 0 ∩ Ω) ×ˢ {x | Acc Ω M N (fun i => A i.succ) x}) ∪ (Ωᶜ ×ˢ {x | Acc Ω M (N + 1) A x})) := by
    ext x
    have e1 : MeasurableEquiv.piFinSuccAbove (fun _ : Fin (M + 1) => X) 0 x = (x 0, fun i => x i.succ) := rfl
    simp only [Acc, Set.mem_setOf_eq, Set.mem_union, Set.mem_inter_iff, Set.mem_preimage, Set.mem_compl_iff, e1, Set.mem_prod]
    by_cases h : x 0 ∈ Ω
    · simp [h]
    · simp [h]
  have m1 : MeasurableSet ((A 0 ∩ Ω) ×ˢ {x | Acc Ω M N (fun i => A i.succ) x}) :=
    ((hA 0).inter hΩ).prod (acc_measurable hΩ fun i => hA _)
  have m2 : MeasurableSet (Ωᶜ ×ˢ {x | Acc Ω M (N + 1) A x}) := hΩ.compl.prod (acc_measurable hΩ hA)
  rw [e, mp.measure_preimage (m1.union m2).nullMeasurableSet, measure_union _ m2, Measure.prod_prod, Measure.prod_prod]
  refine Set.disjoint_left.mpr fun p hp hq => hq.1 hp.1.2

/-- The law of the first accepted points: independent, with the law of the points conditioned on `Ω`. -/
theorem acc_law (ν : Measure X) [IsProbabilityMeasure ν] {Ω : Set X} (hΩ : MeasurableSet Ω) {M N : ℕ} {A : Fin N → Set X}
    (hA : ∀ i, MeasurableSet (A i)) :
    (Measure.pi fun _ : Fin M => ν) {x | Acc Ω M N A x} * ν Ω ^ N
      = (Measure.pi fun _ : Fin M => ν) {x | Acc Ω M N (fun _ => Set.univ) x} * ∏ i, ν (A i ∩ Ω) := by
  classical
  induction M generalizing N with
  | zero =>
    cases N with
    | zero => simp [Acc]
    | succ N => simp [Acc]
  | succ M ih =>
    cases N with
    | zero => simp [Acc]
    | succ N =>
      rw [acc_succ ν hΩ hA, acc_succ ν hΩ fun _ => MeasurableSet.univ, Set.univ_inter, Fin.prod_univ_succ, add_mul, add_mul]
      congr 1
      · rw [pow_succ]
        calc _ = ν (A 0 ∩ Ω) * ν Ω * ((Measure.pi fun _ : Fin M => ν) {x | Acc Ω M N (fun i => A i.succ) x} * ν Ω ^ N) := by ring
          _ = _ := by rw [ih fun i => hA _]; ring
      · rw [mul_assoc, ih hA, Fin.prod_univ_succ, mul_assoc]

/-- The number of accepted points is binomial. -/
theorem acc_binomial (ν : Measure X) [IsProbabilityMeasure ν] {Ω : Set X} (hΩ : MeasurableSet Ω) (M N : ℕ) :
    (Measure.pi fun _ : Fin M => ν) {x | Acc Ω M N (fun _ => Set.univ) x}
      = ∑ j ∈ Finset.Icc N M, (M.choose j : ℝ≥0∞) * ν Ω ^ j * (1 - ν Ω) ^ (M - j) := by
  have hc : ν Ωᶜ = 1 - ν Ω := prob_compl_eq_one_sub hΩ
  induction M generalizing N with
  | zero =>
    cases N with
    | zero => simp [Acc]
    | succ N => simp [Acc]
  | succ M ih =>
    cases N with
    | zero =>
      have e : Finset.Icc 0 (M + 1) = Finset.range (M + 1 + 1) := by ext j; simp
      have h1 : ν Ω + (1 - ν Ω) = 1 := add_tsub_cancel_of_le prob_le_one
      have h2 := add_pow (ν Ω) (1 - ν Ω) (M + 1)
      rw [h1, one_pow] at h2
      rw [e]
      simp only [Acc, Set.ofPred_true, measure_univ]
      exact h2.trans (Finset.sum_congr rfl fun j _ => by ring)
    | succ N =>
      rw [acc_succ ν hΩ fun _ => MeasurableSet.univ, Set.univ_inter, ih, ih, hc]
      set p := ν Ω
      set q := 1 - ν Ω
      have e1 : Finset.Icc (N + 1) (M + 1) = (Finset.Icc N M).map (addRightEmbedding 1) := (Finset.map_add_right_Icc N M 1).symm
      rw [e1, Finset.sum_map]
      have e2 : ∑ j ∈ Finset.Icc (N + 1) M, (M.choose j : ℝ≥0∞) * p ^ j * q ^ (M - j) * q
          = ∑ i ∈ Finset.Icc N M, (M.choose (i + 1) : ℝ≥0∞) * p ^ (i + 1) * q ^ (M - i) := by
        have e3 : ∑ i ∈ Finset.Icc N M, (M.choose (i + 1) : ℝ≥0∞) * p ^ (i + 1) * q ^ (M - i)
            = ∑ j ∈ Finset.Icc (N + 1) (M + 1), (M.choose j : ℝ≥0∞) * p ^ j * q ^ (M + 1 - j) := by
          rw [e1, Finset.sum_map]
          refine Finset.sum_congr rfl fun i _ => ?_
          simp
        rw [e3]
        by_cases hNM : N ≤ M
        · rw [Finset.sum_Icc_succ_top (by omega), Nat.choose_succ_self, Nat.cast_zero, zero_mul, zero_mul, add_zero]
          refine Finset.sum_congr rfl fun j hj => ?_
          rw [Finset.mem_Icc] at hj
          rw [show M + 1 - j = M - j + 1 by omega, pow_succ, mul_assoc]
        · rw [Finset.Icc_eq_empty (by omega), Finset.Icc_eq_empty (by omega), Finset.sum_empty, Finset.sum_empty]
      rw [mul_comm q, Finset.sum_mul, e2, Finset.mul_sum, ← Finset.sum_add_distrib]
      refine Finset.sum_congr rfl fun i _ => ?_
      simp only [addRightEmbedding_apply, Nat.choose_succ_succ', Nat.cast_add, Nat.add_sub_add_right]
      ring

/-! ## Uniform points in a box -/

/-- The uniform distribution on `[-1, 1]`. -/
noncomputable def unif : Measure ℝ := (2 : ℝ≥0∞)⁻¹ • volume.restrict (Set.Icc (-1) 1)

instance : IsProbabilityMeasure unif := ⟨by
  unfold unif
  rw [Measure.smul_apply, Measure.restrict_apply_univ, Real.volume_Icc, smul_eq_mul]
  norm_num
  exact ENNReal.inv_mul_cancel (by norm_num) (by norm_num)⟩

theorem unif_scale {a b : ℝ} (h : a < b) : unif.map (fun u => a + (b - a) * ((u + 1) / 2))
    = (ENNReal.ofReal (b - a))⁻¹ • volume.restrict (Set.Icc a b) := by
  have hm : Measurable fun u : ℝ => a + (b - a) * ((u + 1) / 2) := by fun_prop
  ext s hs
  rw [Measure.map_apply hm hs, unif, Measure.smul_apply, Measure.smul_apply, Measure.restrict_apply (hm hs), Measure.restrict_apply hs]
  have e : (fun u : ℝ => a + (b - a) * ((u + 1) / 2)) ⁻¹' s ∩ Set.Icc (-1) 1
      = (fun u : ℝ => (b - a) / 2 * u) ⁻¹' ((fun u => u + (a + b) / 2) ⁻¹' (s ∩ Set.Icc a b)) := by
    ext u
    have e1 : a + (b - a) * ((u + 1) / 2) = (b - a) / 2 * u + (a + b) / 2 := by ring
    simp only [Set.mem_inter_iff, Set.mem_preimage, Set.mem_Icc, e1]
    refine and_congr Iff.rfl (and_congr ⟨fun h1 => ?_, fun h1 => ?_⟩ ⟨fun h1 => ?_, fun h1 => ?_⟩) <;> nlinarith
  rw [e, Real.volume_preimage_mul_left (by linarith : (b - a) / 2 ≠ 0), measure_preimage_add_right, smul_eq_mul, smul_eq_mul, ← mul_assoc]
  congr 1
  rw [abs_of_pos (inv_pos.mpr (by linarith)), ENNReal.ofReal_inv_of_pos (by linarith), ENNReal.ofReal_div_of_pos (by norm_num)]
  rw [ENNReal.ofReal_ofNat, ENNReal.inv_div (by simp) (by simp), ENNReal.div_eq_inv_mul, mul_comm, mul_assoc,
    ENNReal.mul_inv_cancel (by norm_num) (by norm_num), mul_one]

/-- Uniform numbers scaled to a box. -/
noncomputable def boxLaw (a b : Fin k → ℝ) : Measure (Fin k → ℝ) :=
  (Measure.pi fun _ : Fin k => unif).map fun u j => a j + (b j - a j) * ((u j + 1) / 2)

theorem scale_measurable (a b : Fin k → ℝ) : Measurable fun (u : Fin k → ℝ) (j : Fin k) => a j + (b j - a j) * ((u j + 1) / 2) := by
  fun_prop

instance (a b : Fin k → ℝ) : IsProbabilityMeasure (boxLaw a b) :=
  Measure.isProbabilityMeasure_map (scale_measurable a b).aemeasurable

theorem boxLaw_eq {a b : Fin k → ℝ} (h : ∀ j, a j < b j) :
    boxLaw a b = (∏ j, ENNReal.ofReal (b j - a j))⁻¹ • volume.restrict (Set.Icc a b) := by
  have h1 : ∀ j, MeasurePreserving (fun u => a j + (b j - a j) * ((u + 1) / 2)) unif
      ((ENNReal.ofReal (b j - a j))⁻¹ • volume.restrict (Set.Icc (a j) (b j))) := fun j =>
    ⟨by fun_prop, unif_scale (h j)⟩
  haveI : ∀ j, SigmaFinite ((ENNReal.ofReal (b j - a j))⁻¹ • volume.restrict (Set.Icc (a j) (b j))) := fun j => by
    rw [← unif_scale (h j)]
    haveI : IsProbabilityMeasure (unif.map fun u => a j + (b j - a j) * ((u + 1) / 2)) :=
      Measure.isProbabilityMeasure_map (by fun_prop)
    infer_instance
  have h2 := (measurePreserving_pi (fun _ : Fin k => unif) _ h1).map_eq
  unfold boxLaw
  rw [h2]
  refine Measure.pi_eq fun s hs => ?_
  rw [Measure.smul_apply, Measure.restrict_apply (MeasurableSet.univ_pi hs), ← Set.pi_univ_Icc, ← Set.pi_inter_distrib, volume_pi_pi, smul_eq_mul,
    ENNReal.prod_inv_distrib (by intro i _ j _ _; left; simp [h i]), ← Finset.prod_mul_distrib]
  refine Finset.prod_congr rfl fun j _ => ?_
  rw [Measure.smul_apply, Measure.restrict_apply (hs j), smul_eq_mul]

end Proofs.Accept
