import Mathlib.MeasureTheory.Measure.OpenPos
import Mathlib.Probability.Distributions.Gaussian.HasGaussianLaw.Independence
import Verif.Proofs.Rotation
import Verif.Spec.Zonotope

/-!
# Normal directions and sign vectors
-/

open MeasureTheory ProbabilityTheory Spec Proofs.Rotation

namespace Proofs.Directions

variable {m n : ℕ}

instance : (gaussianReal 0 1).IsOpenPosMeasure :=
  (gaussianReal_absolutelyContinuous' 0 one_ne_zero).isOpenPosMeasure

/-- A linear form that is not zero almost never vanishes at a normal direction. -/
theorem tie_null (c : Fin n → ℝ) (hc : ∃ j, c j ≠ 0) : normal n {z | ∑ j, c j * z j = 0} = 0 := by
  have hi : iIndepFun (fun (j : Fin n) (z : Fin n → ℝ) => z j) (normal n) :=
    iIndepFun_pi (X := fun _ x => x) fun _ => aemeasurable_id
  have hj : ∀ j, HasGaussianLaw (fun z : Fin n → ℝ => c j * z j) (normal n) := fun j => by
    have h : HasLaw (fun z : Fin n → ℝ => z j) (gaussianReal 0 1) (normal n) :=
      ⟨(measurable_pi_apply j).aemeasurable, (measurePreserving_eval (fun _ : Fin n => gaussianReal 0 1) j).map_eq⟩
    exact h.hasGaussianLaw.fun_smul (c j)
  have hs : HasGaussianLaw (fun z : Fin n → ℝ => ∑ j, c j * z j) (normal n) :=
    iIndepFun.hasGaussianLaw_fun_sum hj (hi.comp (fun j t => c j * t) fun j => by fun_prop)
  have hvar : Var[fun z : Fin n → ℝ => ∑ j, c j * z j; normal n] = ∑ j, c j ^ 2 := by
    have h := variance_sum_pi (μ := fun _ : Fin n => gaussianReal 0 1) (X := fun j t => c j * t) fun j =>
      (IsGaussian.memLp_two_id (μ := gaussianReal 0 1)).const_mul (c j)
    have e : (fun z : Fin n → ℝ => ∑ j, c j * z j) = ∑ j, fun z : Fin n → ℝ => c j * z j := by
      funext z
      simp
    rw [e]
    refine h.trans (Finset.sum_congr rfl fun j _ => ?_)
    have h1 : Var[fun t : ℝ => c j * t; gaussianReal 0 1] = c j ^ 2 * Var[fun t : ℝ => t; gaussianReal 0 1] := variance_const_mul _ _ _
    rw [h1, variance_fun_id_gaussianReal]
    simp
  have hpos : 0 < ∑ j, c j ^ 2 := by
    obtain ⟨j, hj⟩ := hc
    exact lt_of_lt_of_le (by positivity) (Finset.single_le_sum (f := fun j => c j ^ 2) (fun i _ => sq_nonneg _) (Finset.mem_univ j))
  have hmap := hs.map_eq_gaussianReal
  have hv : (Var[fun z : Fin n → ℝ => ∑ j, c j * z j; normal n]).toNNReal ≠ 0 := by
    rw [hvar]
    exact (Real.toNNReal_pos.mpr hpos).ne'
  have hna := nullSingletonClass_gaussianReal (μ := (normal n)[fun z : Fin n → ℝ => ∑ j, c j * z j]) hv
  have h0 : (normal n).map (fun z : Fin n → ℝ => ∑ j, c j * z j) {0} = 0 := by
    rw [hmap]
    exact measure_singleton _
  rw [Measure.map_apply (by fun_prop) (measurableSet_singleton _)] at h0
  exact h0

theorem isOpen_directions (W1 : Matrix (Fin m) (Fin n) ℝ) (x : Fin m → ℝ) : IsOpen (directions W1 x) := by
  have : directions W1 x = ⋂ i, {z | 0 < x i * ∑ j, W1 i j * z j} := by
    ext z
    simp [directions]
  rw [this]
  exact isOpen_iInter_of_finite fun i => isOpen_lt continuous_const (by fun_prop)

theorem measurable_directions (W1 : Matrix (Fin m) (Fin n) ℝ) (x : Fin m → ℝ) : MeasurableSet (directions W1 x) :=
  (isOpen_directions W1 x).measurableSet

/-- Every sign vector has directions with positive probability. -/
theorem directions_pos {W1 : Matrix (Fin m) (Fin n) ℝ} {x : Fin m → ℝ} (hx : x ∈ signVectors W1) : 0 < (normal n).real (directions W1 x) := by
  obtain ⟨z, hz⟩ := hx
  have hne : (directions W1 x).Nonempty := ⟨z, fun i => by
    rcases hz i with ⟨h, e⟩ | ⟨h, e⟩ <;> rw [e] <;> linarith⟩
  exact ENNReal.toReal_pos ((isOpen_directions W1 x).measure_pos _ hne).ne' (measure_ne_top _ _)

/-- Opposite directions are equally likely. -/
theorem directions_neg (W1 : Matrix (Fin m) (Fin n) ℝ) (x : Fin m → ℝ) :
    (normal n).real (directions W1 (-x)) = (normal n).real (directions W1 x) := by
  have h : MeasurePreserving (fun (z : Fin n → ℝ) j => -z j) (normal n) (normal n) :=
    measurePreserving_pi _ _ fun j => ⟨measurable_neg, by simpa using gaussianReal_map_neg (μ := 0) (v := 1)⟩
  have := h.measure_preimage (measurable_directions W1 x).nullMeasurableSet
  rw [measureReal_def, measureReal_def, ← this]
  congr 2
  ext z
  simp [directions]

/-- The probability that a direction belongs neither to `x` nor to `-x`. -/
theorem directions_compl (W1 : Matrix (Fin m) (Fin n) ℝ) (x : Fin m → ℝ) (hm : 1 ≤ m) :
    (normal n).real (directions W1 x ∪ directions W1 (-x))ᶜ = 1 - 2 * (normal n).real (directions W1 x) := by
  have hd : Disjoint (directions W1 x) (directions W1 (-x)) := by
    rw [Set.disjoint_left]
    intro z h1 h2
    have h3 := h1 ⟨0, hm⟩
    have h4 := h2 ⟨0, hm⟩
    simp only [Pi.neg_apply, neg_mul] at h4
    linarith
  rw [probReal_compl_eq_one_sub ((measurable_directions W1 x).union (measurable_directions W1 (-x))),
    measureReal_union hd (measurable_directions W1 (-x)), directions_neg]
  ring

variable {Ω ι : Type} [MeasurableSpace Ω] {μ : Measure Ω} [Fintype ι]

/-- Independent draws all miss a set. -/
theorem all_in {X : Type} [MeasurableSpace X] {ν : Measure X} [IsProbabilityMeasure ν] {D : Ω → ι → X}
    (hD : HasLaw D (Measure.pi fun _ => ν) μ) {A : Set X} (hA : MeasurableSet A) :
    μ.real {ω | ∀ p, D ω p ∈ A} = ν.real A ^ Fintype.card ι := by
  have e : {ω | ∀ p, D ω p ∈ A} = D ⁻¹' Set.pi Set.univ fun _ => A := by
    ext ω
    simp
  rw [e, measureReal_def, ← Measure.map_apply_of_aemeasurable hD.aemeasurable (MeasurableSet.univ_pi fun _ => hA), hD.map_eq,
    Measure.pi_pi, Finset.prod_const, ENNReal.toReal_pow, Finset.card_univ]
  rfl

/-- The same for some of the draws. -/
theorem all_in_on {X : Type} [MeasurableSpace X] {ν : Measure X} [IsProbabilityMeasure ν] {D : Ω → ι → X}
    (hD : HasLaw D (Measure.pi fun _ => ν) μ) {A : Set X} (hA : MeasurableSet A) (s : Finset ι) :
    μ.real {ω | ∀ p ∈ s, D ω p ∈ A} = ν.real A ^ s.card := by
  classical
  have e : {ω | ∀ p ∈ s, D ω p ∈ A} = D ⁻¹' Set.pi Set.univ fun p => if p ∈ s then A else Set.univ := by
    ext ω
    simp only [Set.mem_ofPred_eq, Set.mem_preimage, Set.mem_univ_pi]
    refine forall_congr' fun p => ?_
    split_ifs with h <;> simp [h]
  have hm : MeasurableSet (Set.pi Set.univ fun p : ι => if p ∈ s then A else Set.univ) := MeasurableSet.univ_pi fun p => by
    split_ifs
    · exact hA
    · exact MeasurableSet.univ
  have hp : ∀ p, ν (if p ∈ s then A else Set.univ) = if p ∈ s then ν A else 1 := fun p => by
    split_ifs <;> simp
  rw [e, measureReal_def, ← Measure.map_apply_of_aemeasurable hD.aemeasurable hm, hD.map_eq, Measure.pi_pi]
  simp only [hp]
  rw [Finset.prod_ite_mem, Finset.univ_inter, Finset.prod_const, ENNReal.toReal_pow]
  rfl

/-- Almost surely no direction has a zero product. -/
theorem ties {W1 : Matrix (Fin m) (Fin n) ℝ} (hrow : ∀ i, ∃ j, W1 i j ≠ 0) {D : Ω → ι → Fin n → ℝ}
    (hD : HasLaw D (Measure.pi fun _ => normal n) μ) : ∀ᵐ ω ∂μ, ∀ p i, ∑ j, W1 i j * D ω p j ≠ 0 := by
  rw [ae_all_iff]
  intro p
  rw [ae_all_iff]
  intro i
  have h1 : ∀ᵐ z ∂(normal n), ∑ j, W1 i j * z j ≠ 0 := by
    rw [ae_iff]
    simpa using tie_null (W1 i) (hrow i)
  have h2 := (Measure.quasiMeasurePreserving_eval (fun _ : ι => normal n) p).ae h1
  have h3 := hD.map_eq ▸ h2
  exact ae_of_ae_map hD.aemeasurable h3

end Proofs.Directions
