import Verif.Proofs.ConvexPoincare
import Verif.Props.BoundedLaw
import Verif.Props.RidgeError

/-!
# Property C142: the eigenvalues that are left out bound the error of functions of the active variables, on bounded domains
-/

open Py Model.Misc Model.Subspaces Model.Quadrature Spec MeasureTheory ProbabilityTheory Set

namespace Props

variable {S : Type} {m n k M : ℕ}

/-! ## What is to be shown -/

/-- `df` is the gradient of `f`, and continuous. -/
structure C1 (f : (Fin m → ℝ) → ℝ) (df : (Fin m → ℝ) → Fin m → ℝ) : Prop where
  deriv : ∀ x, HasFDerivAt f (∑ j, df x j • (ContinuousLinearMap.proj j : (Fin m → ℝ) →L[ℝ] ℝ)) x
  cont : ∀ j, Continuous fun x => df x j

/-- The mean of `f` over the points of the cube with active variables `y`. -/
noncomputable def sliceMean (f : (Fin m → ℝ) → ℝ) (V1 : Matrix (Fin m) (Fin n) ℝ) (V2 : Matrix (Fin m) (Fin k) ℝ) (y : Fin n → ℝ) : ℝ :=
  (∫ z in inactive V1 V2 y, f (V1.mulVec y + V2.mulVec z)) / volume.real (inactive V1 V2 y)

/-! ## The cube -/

theorem cubeLaw_eq (m : ℕ) : cubeLaw m = (2 : ENNReal)⁻¹ ^ m • volume.restrict (Icc (-1 : Fin m → ℝ) 1) := by
  haveI : SigmaFinite ((2 : ENNReal)⁻¹ • volume.restrict (Icc (-1 : ℝ) 1)) := inferInstanceAs (SigmaFinite Proofs.Accept.unif)
  unfold cubeLaw
  refine Measure.pi_eq fun s hs => ?_
  rw [Measure.smul_apply, Measure.restrict_apply (MeasurableSet.univ_pi hs), ← Set.pi_univ_Icc, ← Set.pi_inter_distrib, volume_pi_pi, smul_eq_mul]
  have : (2 : ENNReal)⁻¹ ^ m = ∏ _j : Fin m, (2 : ENNReal)⁻¹ := by simp
  rw [this, ← Finset.prod_mul_distrib]
  refine Finset.prod_congr rfl fun j _ => ?_
  rw [Measure.smul_apply, Measure.restrict_apply (hs j), smul_eq_mul]
  rfl

theorem cube_integral (u : (Fin m → ℝ) → ℝ) : ∫ x, u x ∂cubeLaw m = (1 / 2) ^ m * ∫ x in Icc (-1 : Fin m → ℝ) 1, u x := by
  rw [cubeLaw_eq, integral_smul_measure, smul_eq_mul]
  simp

theorem mem_inactive_iff (V1 : Matrix (Fin m) (Fin n) ℝ) (V2 : Matrix (Fin m) (Fin k) ℝ) (y : Fin n → ℝ) (z : Fin k → ℝ) :
    z ∈ inactive V1 V2 y ↔ V1.mulVec y + V2.mulVec z ∈ Icc (-1 : Fin m → ℝ) 1 := by
  constructor
  · exact fun h => ⟨fun i => (h i).1, fun i => (h i).2⟩
  · exact fun h i => ⟨h.1 i, h.2 i⟩

theorem inactive_closed (V1 : Matrix (Fin m) (Fin n) ℝ) (V2 : Matrix (Fin m) (Fin k) ℝ) (y : Fin n → ℝ) : IsClosed (inactive V1 V2 y) := by
  have e : inactive V1 V2 y = (fun z => V1.mulVec y + V2.mulVec z) ⁻¹' Icc (-1 : Fin m → ℝ) 1 := by
    ext z
    exact mem_inactive_iff V1 V2 y z
  rw [e]
  exact isClosed_Icc.preimage (continuous_const.add (continuous_mulVec V2))

theorem inactive_convex (V1 : Matrix (Fin m) (Fin n) ℝ) (V2 : Matrix (Fin m) (Fin k) ℝ) (y : Fin n → ℝ) : Convex ℝ (inactive V1 V2 y) := by
  intro z hz z' hz' a b ha hb hab
  rw [mem_inactive_iff] at *
  have e : V1.mulVec y + V2.mulVec (a • z + b • z') = a • (V1.mulVec y + V2.mulVec z) + b • (V1.mulVec y + V2.mulVec z') := by
    rw [Matrix.mulVec_add, Matrix.mulVec_smul, Matrix.mulVec_smul, smul_add, smul_add]
    have : V1.mulVec y = a • V1.mulVec y + b • V1.mulVec y := by rw [← add_smul, hab, one_smul]
    nth_rw 1 [this]
    abel
  rw [e]
  exact convex_Icc _ _ hz hz' ha hb hab

variable {f : (Fin (n + k) → ℝ) → ℝ} {df : (Fin (n + k) → ℝ) → Fin (n + k) → ℝ} {s : Subspaces}
  {V1 : Matrix (Fin (n + k)) (Fin n) ℝ} {V2 : Matrix (Fin (n + k)) (Fin k) ℝ}

theorem inactive_of_point (h : Split s V1 V2) (y : Fin n → ℝ) (z : Fin k → ℝ) : V2.transpose.mulVec (V1.mulVec y + V2.mulVec z) = z := by
  have h1 : V2.transpose * V1 = 0 := by
    ext a b
    rw [Matrix.mul_apply]
    simp only [Matrix.transpose_apply, mul_comm (V2 _ _)]
    exact h.orth12 b a
  have h2 : V2.transpose * V2 = 1 := by
    ext a b
    rw [Matrix.mul_apply, Matrix.one_apply]
    exact h.orth22 a b
  rw [Matrix.mulVec_add, Matrix.mulVec_mulVec, Matrix.mulVec_mulVec, h1, h2, Matrix.zero_mulVec, Matrix.one_mulVec, zero_add]

theorem inactive_compact (h : Split s V1 V2) (y : Fin n → ℝ) : IsCompact (inactive V1 V2 y) := by
  refine IsCompact.of_isClosed_subset ((isCompact_Icc (a := (-1 : Fin (n + k) → ℝ)) (b := 1)).image (continuous_mulVec V2.transpose))
    (inactive_closed V1 V2 y) fun z hz => ⟨_, (mem_inactive_iff V1 V2 y z).mp hz, inactive_of_point h y z⟩

theorem inactive_diam (h : Split s V1 V2) (y : Fin n → ℝ) {z z' : Fin k → ℝ} (hz : z ∈ inactive V1 V2 y) (hz' : z' ∈ inactive V1 V2 y) :
    ∑ j, (z j - z' j) ^ 2 ≤ 4 * (n + k : ℕ) := by
  have h2 : V2.transpose * V2 = 1 := by
    ext a b
    rw [Matrix.mul_apply, Matrix.one_apply]
    exact h.orth22 a b
  have e : ∑ j, (z j - z' j) ^ 2 = ∑ i, (V2.mulVec (z - z') i) ^ 2 := by
    have e1 : V2.mulVec (z - z') ⬝ᵥ V2.mulVec (z - z') = (z - z') ⬝ᵥ (z - z') := by
      rw [Matrix.dotProduct_mulVec, Matrix.vecMul_mulVec, ← Matrix.dotProduct_mulVec, h2, Matrix.one_mulVec]
    simp only [dotProduct, ← pow_two] at e1
    exact e1.symm
  rw [e]
  have hb : ∀ i, (V2.mulVec (z - z') i) ^ 2 ≤ 4 := by
    intro i
    rw [mem_inactive_iff] at hz hz'
    have a1 := hz.1 i
    have a2 := hz.2 i
    have a3 := hz'.1 i
    have a4 := hz'.2 i
    rw [Matrix.mulVec_sub]
    simp only [Pi.add_apply, Pi.neg_apply, Pi.one_apply, Pi.sub_apply] at *
    nlinarith
  refine (Finset.sum_le_sum fun i _ => hb i).trans_eq ?_
  simp [mul_comm]

theorem slice_integral (V1 : Matrix (Fin m) (Fin n) ℝ) (V2 : Matrix (Fin m) (Fin k) ℝ) (u : (Fin m → ℝ) → ℝ) (y : Fin n → ℝ) :
    ∫ z in inactive V1 V2 y, u (V1.mulVec y + V2.mulVec z) = ∫ z, (Icc (-1 : Fin m → ℝ) 1).indicator u (V1.mulVec y + V2.mulVec z) := by
  rw [← integral_indicator (inactive_closed V1 V2 y).measurableSet]
  refine integral_congr_ae (Filter.Eventually.of_forall fun z => ?_)
  beta_reduce
  by_cases hz : z ∈ inactive V1 V2 y
  · rw [indicator_of_mem hz, indicator_of_mem ((mem_inactive_iff V1 V2 y z).mp hz)]
  · rw [indicator_of_notMem hz, indicator_of_notMem fun hx => hz ((mem_inactive_iff V1 V2 y z).mpr hx)]

/-- Integrals over the cube as integrals over active and inactive variables. -/
theorem cube_split (h : Split s V1 V2) {u : (Fin (n + k) → ℝ) → ℝ} (hu : IntegrableOn u (Icc (-1 : Fin (n + k) → ℝ) 1)) :
    Integrable (fun y => ∫ z in inactive V1 V2 y, u (V1.mulVec y + V2.mulVec z)) ∧
    ∫ x in Icc (-1 : Fin (n + k) → ℝ) 1, u x = ∫ y, ∫ z in inactive V1 V2 y, u (V1.mulVec y + V2.mulVec z) := by
  have hrot := Proofs.ConvexPoincare.rotate_volume h.orth11 h.orth12 h.orth22
  have hi : Integrable ((Icc (-1 : Fin (n + k) → ℝ) 1).indicator u) := hu.integrable_indicator measurableSet_Icc
  have hi2 := hrot.integrable_comp_of_integrable hi
  rw [Measure.volume_eq_prod] at hi2
  simp only [slice_integral]
  refine ⟨hi2.integral_prod_left, ?_⟩
  rw [← integral_indicator measurableSet_Icc, ← hrot.map_eq, integral_map hrot.aemeasurable (by rw [hrot.map_eq]; exact hi.aestronglyMeasurable),
    Measure.volume_eq_prod]
  exact integral_prod _ hi2

theorem C1.continuous {f : (Fin m → ℝ) → ℝ} {df : (Fin m → ℝ) → Fin m → ℝ} (hf : C1 f df) : Continuous f :=
  continuous_iff_continuousAt.mpr fun x => (hf.deriv x).continuousAt

theorem sliceMean_measurable (V1 : Matrix (Fin m) (Fin n) ℝ) (V2 : Matrix (Fin m) (Fin k) ℝ) {f : (Fin m → ℝ) → ℝ} (hf : Continuous f) :
    Measurable (sliceMean f V1 V2) := by
  have hmeas : ∀ {g : (Fin m → ℝ) → ℝ}, Continuous g → Measurable fun y => ∫ z in inactive V1 V2 y, g (V1.mulVec y + V2.mulVec z) := by
    intro g hg
    simp only [slice_integral]
    exact (StronglyMeasurable.integral_prod_right' (f := fun p : (Fin n → ℝ) × (Fin k → ℝ) =>
      (Icc (-1 : Fin m → ℝ) 1).indicator g (V1.mulVec p.1 + V2.mulVec p.2))
      ((hg.measurable.indicator measurableSet_Icc).comp (continuous_point V1 V2).measurable).stronglyMeasurable).measurable
  have h1 := hmeas hf
  have h2 := hmeas (continuous_const (y := (1 : ℝ)))
  have e : ∀ y, volume.real (inactive V1 V2 y) = ∫ _z in inactive V1 V2 y, (1 : ℝ) := fun y => by
    rw [setIntegral_const, smul_eq_mul, mul_one]
  unfold sliceMean
  simp only [e]
  exact h1.div h2

theorem cube_bound (hf : Continuous f) : ∃ B, 0 ≤ B ∧ ∀ x ∈ Icc (-1 : Fin (n + k) → ℝ) 1, |f x| ≤ B := by
  obtain ⟨B, hB⟩ := (isCompact_Icc (a := (-1 : Fin (n + k) → ℝ)) (b := 1)).exists_bound_of_continuousOn hf.continuousOn
  exact ⟨max B 0, le_max_right _ _, fun x hx => (hB x hx).trans (le_max_left _ _)⟩

theorem sliceMean_bound (h : Split s V1 V2) {B : ℝ} (hB0 : 0 ≤ B) (hB : ∀ x ∈ Icc (-1 : Fin (n + k) → ℝ) 1, |f x| ≤ B) (y : Fin n → ℝ) :
    |sliceMean f V1 V2 y| ≤ B := by
  have hfin := (inactive_compact h y).measure_lt_top (μ := volume)
  have h1 := norm_setIntegral_le_of_norm_le_const (f := fun z => f (V1.mulVec y + V2.mulVec z)) hfin fun z hz =>
    hB _ ((mem_inactive_iff V1 V2 y z).mp hz)
  rw [Real.norm_eq_abs] at h1
  unfold sliceMean
  rcases eq_or_ne (volume.real (inactive V1 V2 y)) 0 with hv | hv
  · rw [hv, div_zero, abs_zero]
    exact hB0
  · have hv0 : 0 < volume.real (inactive V1 V2 y) := lt_of_le_of_ne measureReal_nonneg (Ne.symm hv)
    rw [abs_div, abs_of_pos hv0, div_le_iff₀ hv0]
    exact h1

theorem ridge_integrable (hf : Continuous f) {g : (Fin n → ℝ) → ℝ} (hg : Measurable g) {B : ℝ} (hB : ∀ y, |g y| ≤ B) :
    IntegrableOn (fun x => (f x - g (V1.transpose.mulVec x)) ^ 2) (Icc (-1 : Fin (n + k) → ℝ) 1) := by
  obtain ⟨B', hB0, hB'⟩ := cube_bound hf
  refine Measure.integrableOn_of_bounded (M := (B' + B) ^ 2) isCompact_Icc.measure_lt_top.ne ?_ ?_
  · exact ((hf.measurable.sub (hg.comp (continuous_mulVec _).measurable)).pow_const 2).aestronglyMeasurable
  · filter_upwards [ae_restrict_mem measurableSet_Icc] with x hx
    rw [Real.norm_eq_abs, abs_pow]
    refine pow_le_pow_left₀ (abs_nonneg _) ?_ 2
    exact (abs_sub _ _).trans (add_le_add (hB' x hx) (hB _))

/-! ## The error -/

/-- C142: the squared error of the mean over the points of the cube with given active variables has a finite mean. -/
theorem C142_integrable (h : Split s V1 V2) (hf : C1 f df) :
    Integrable (fun x => (f x - sliceMean f V1 V2 (V1.transpose.mulVec x)) ^ 2) (cubeLaw (n + k)) := by
  obtain ⟨B', hB0, hB'⟩ := cube_bound hf.continuous
  rw [cubeLaw_eq]
  exact Integrable.smul_measure (ridge_integrable hf.continuous (sliceMean_measurable V1 V2 hf.continuous) (sliceMean_bound h hB0 hB'))
    (ENNReal.pow_ne_top (by simp))

/-- C142: among the bounded functions of the active variables, the mean over the points of the cube with these active variables has the least
mean square error. -/
theorem C142_best (h : Split s V1 V2) (hf : C1 f df) {g : (Fin n → ℝ) → ℝ} (hg : Measurable g) {B : ℝ} (hB : ∀ y, |g y| ≤ B) :
    ∫ x, (f x - sliceMean f V1 V2 (V1.transpose.mulVec x)) ^ 2 ∂cubeLaw (n + k) ≤ ∫ x, (f x - g (V1.transpose.mulVec x)) ^ 2 ∂cubeLaw (n + k) := by
  obtain ⟨B', hB0, hB'⟩ := cube_bound hf.continuous
  obtain ⟨i1, e1⟩ := cube_split h (ridge_integrable (V1 := V1) hf.continuous (sliceMean_measurable V1 V2 hf.continuous) (sliceMean_bound h hB0 hB'))
  obtain ⟨i2, e2⟩ := cube_split h (ridge_integrable (V1 := V1) hf.continuous hg hB)
  rw [cube_integral, cube_integral, e1, e2]
  refine mul_le_mul_of_nonneg_left (integral_mono i1 i2 fun y => ?_) (by positivity)
  simp only [active_of_point h]
  exact Proofs.ConvexPoincare.dev_min (f := fun z => f (V1.mulVec y + V2.mulVec z))
    (hf.continuous.comp (continuous_const.add (continuous_mulVec V2))) (inactive_compact h y) (g y)

/-- C142: the mean square error of this mean is at most `2^(k+1) m` times the sum of the mean squared derivatives in the `k` inactive
directions. -/
theorem C142_ridge (h : Split s V1 V2) (hf : C1 f df) :
    ∫ x, (f x - sliceMean f V1 V2 (V1.transpose.mulVec x)) ^ 2 ∂cubeLaw (n + k)
      ≤ 2 ^ (k + 1) * (n + k : ℕ) * ∑ b, ∫ x, (∑ i, V2 i b * df x i) ^ 2 ∂cubeLaw (n + k) := by
  obtain ⟨B', hB0, hB'⟩ := cube_bound hf.continuous
  obtain ⟨i1, e1⟩ := cube_split h (ridge_integrable (V1 := V1) hf.continuous (sliceMean_measurable V1 V2 hf.continuous) (sliceMean_bound h hB0 hB'))
  have hc : ∀ b, Continuous fun x => (∑ i, V2 i b * df x i) ^ 2 := fun b =>
    (continuous_finsetSum _ fun i _ => continuous_const.mul (hf.cont i)).pow 2
  have hi : ∀ b, IntegrableOn (fun x => (∑ i, V2 i b * df x i) ^ 2) (Icc (-1 : Fin (n + k) → ℝ) 1) := fun b =>
    (hc b).continuousOn.integrableOn_compact isCompact_Icc
  have hsum : IntegrableOn (fun x => ∑ b, (∑ i, V2 i b * df x i) ^ 2) (Icc (-1 : Fin (n + k) → ℝ) 1) := integrable_finsetSum _ fun b _ => hi b
  obtain ⟨i2, e2⟩ := cube_split h hsum
  simp only [cube_integral]
  rw [← Finset.mul_sum, ← integral_finsetSum _ fun b _ => hi b, e1, e2]
  have key : ∫ y, ∫ z in inactive V1 V2 y, (f (V1.mulVec y + V2.mulVec z) - sliceMean f V1 V2 (V1.transpose.mulVec (V1.mulVec y + V2.mulVec z))) ^ 2
      ≤ ∫ y, 2 ^ (k + 1) * (n + k : ℕ) * ∫ z in inactive V1 V2 y, ∑ b, (∑ i, V2 i b * df (V1.mulVec y + V2.mulVec z) i) ^ 2 := by
    refine integral_mono i1 (i2.const_mul _) fun y => ?_
    simp only [active_of_point h]
    have hp := Proofs.ConvexPoincare.poincare (f := fun z => f (V1.mulVec y + V2.mulVec z)) (df := fun z b => ∑ i, V2 i b * df (V1.mulVec y + V2.mulVec z) i)
      (fun z => ?_) (fun b => ?_) (inactive_compact h y) (inactive_convex V1 V2 y) fun z hz z' hz' => inactive_diam h y hz hz'
    · unfold sliceMean
      have e : (2 : ℝ) ^ k * (4 * (n + k : ℕ)) = 2 * (2 ^ (k + 1) * (n + k : ℕ)) := by ring
      rw [e, mul_assoc] at hp
      exact le_of_mul_le_mul_left hp two_pos
    · let L : (Fin k → ℝ) →L[ℝ] (Fin (n + k) → ℝ) := LinearMap.toContinuousLinearMap V2.mulVecLin
      have d : HasFDerivAt (fun z : Fin k → ℝ => V1.mulVec y + V2.mulVec z) L z := L.hasFDerivAt.const_add _
      refine ((hf.deriv _).comp z d).congr_fderiv ?_
      ext w
      have hL : ∀ i, L w i = ∑ b, V2 i b * w b := fun i => rfl
      simp only [_root_.sum_apply, _root_.smul_apply, ContinuousLinearMap.proj_apply, smul_eq_mul,
        ContinuousLinearMap.comp_apply, hL, Finset.mul_sum, Finset.sum_mul]
      rw [Finset.sum_comm]
      exact Finset.sum_congr rfl fun b _ => Finset.sum_congr rfl fun i _ => by ring
    · exact continuous_finsetSum _ fun i _ => continuous_const.mul ((hf.cont i).comp (continuous_const.add (continuous_mulVec V2)))
  rw [integral_const_mul] at key
  calc _ ≤ (1 / 2 : ℝ) ^ (n + k) * _ := mul_le_mul_of_nonneg_left key (by positivity)
    _ = _ := by ring

theorem cube_form {df : (Fin m → ℝ) → Fin m → ℝ} (hc : ∀ j, Continuous fun x => df x j) (v : Fin m → ℝ) :
    ∫ x, (∑ i, v i * df x i) ^ 2 ∂cubeLaw m = ∑ i, ∑ j, v i * v j * ∫ x, df x i * df x j ∂cubeLaw m := by
  have hi : ∀ i j, IntegrableOn (fun x => v i * v j * (df x i * df x j)) (Icc (-1 : Fin m → ℝ) 1) := fun i j =>
    (continuous_const.mul ((hc i).mul (hc j))).continuousOn.integrableOn_compact isCompact_Icc
  have e : ∀ x, (∑ i, v i * df x i) ^ 2 = ∑ i, ∑ j, v i * v j * (df x i * df x j) := fun x => by
    rw [pow_two, Finset.sum_mul_sum]
    exact Finset.sum_congr rfl fun i _ => Finset.sum_congr rfl fun j _ => by ring
  simp only [cube_integral, e]
  rw [integral_finsetSum _ fun i _ => integrable_finsetSum _ fun j _ => hi i j, Finset.mul_sum]
  refine Finset.sum_congr rfl fun i _ => ?_
  rw [integral_finsetSum _ fun j _ => hi i j, Finset.mul_sum]
  refine Finset.sum_congr rfl fun j _ => ?_
  rw [integral_const_mul]
  ring

/-- C142: if the columns of `W1`, `W2` are the eigenvectors of the matrix `∫ ∇f ∇fᵀ` for inputs uniform on the cube, the error is at most
`2^(k+1) m` times the sum of the eigenvalues that are left out. -/
theorem C142_eigenvalues (h : Split s V1 V2) (hf : C1 f df) {e : Fin (n + k) → ℝ}
    (he : IsSortedEigh (Matrix.of fun i j => ∫ x, df x i * df x j ∂cubeLaw (n + k)) e (Np.hstack V1 V2)) :
    ∫ x, (f x - sliceMean f V1 V2 (V1.transpose.mulVec x)) ^ 2 ∂cubeLaw (n + k) ≤ 2 ^ (k + 1) * (n + k : ℕ) * ∑ b, e (Fin.natAdd n b) := by
  refine (C142_ridge h hf).trans_eq (congrArg _ (Finset.sum_congr rfl fun b _ => ?_))
  rw [cube_form hf.cont fun i => V2 i b, ← eig_form he (Fin.natAdd n b)]
  simp only [Np.hstack_natAdd]
  rfl

/-- C142: if they are the eigenvectors of a matrix whose entries differ from those of `∫ ∇f ∇fᵀ` by at most `ε`, the sum grows by at most `ε`
times the number of inputs times the number of inactive variables. -/
theorem C142_perturbed (h : Split s V1 V2) (hf : C1 f df) {A : Matrix (Fin (n + k)) (Fin (n + k)) ℝ} {e : Fin (n + k) → ℝ} {ε : ℝ}
    (he : IsSortedEigh A e (Np.hstack V1 V2)) (hε : ∀ i j, |A i j - ∫ x, df x i * df x j ∂cubeLaw (n + k)| ≤ ε) :
    ∫ x, (f x - sliceMean f V1 V2 (V1.transpose.mulVec x)) ^ 2 ∂cubeLaw (n + k)
      ≤ 2 ^ (k + 1) * (n + k : ℕ) * (∑ b, e (Fin.natAdd n b) + k * (n + k : ℕ) * ε) := by
  refine (C142_ridge h hf).trans (mul_le_mul_of_nonneg_left ?_ (by positivity))
  have hb : ∀ b, ∫ x, (∑ i, V2 i b * df x i) ^ 2 ∂cubeLaw (n + k) ≤ e (Fin.natAdd n b) + (n + k : ℕ) * ε := fun b => by
    rw [cube_form hf.cont fun i => V2 i b, ← eig_form he (Fin.natAdd n b)]
    simp only [Np.hstack_natAdd]
    exact form_close hε _ ((h.orth22 b b).trans (if_pos rfl))
  refine (Finset.sum_le_sum fun b _ => hb b).trans_eq ?_
  rw [Finset.sum_add_distrib, Finset.sum_const, Finset.card_univ, Fintype.card_fin, nsmul_eq_mul]
  ring

theorem cube_compute {lib : Model.Subspaces.Lib} (hl : SubLibOK lib) (rng : Rng S) (hm : 2 ≤ m) (hM : 0 < M) {f : (Fin m → ℝ) → ℝ}
    {df : (Fin m → ℝ) → Fin m → ℝ} (hf : C1 f df) (X : Matrix (Fin M) (Fin m) ℝ) (wt : Option (Fin M → ℝ)) (hw : ∀ i, 0 ≤ weightsOf wt i) {ε : ℝ}
    (hε : ∀ i j, |∑ l, weightsOf wt l * (df (X l) i * df (X l) j) - ∫ x, df x i * df x j ∂cubeLaw m| ≤ ε) (w : S × Subspaces) :
    ∃ (n : ℕ) (V1 : Matrix (Fin m) (Fin n) ℝ) (e : Fin m → ℝ) (g : (Fin n → ℝ) → ℝ) (w' : S × Subspaces), 1 ≤ n ∧ n ≤ m ∧
      (compute lib rng none none (some (.mat (NpMat.of (Matrix.of fun l => df (X l))))) (wt.map wcol)
        "AS" "EVG" 0).run w = (.ok (), w') ∧
      w'.2.eigenvals = some (NpVec.of e) ∧ w'.2.W1 = some (NpMat.of V1) ∧
      Measurable g ∧ Integrable (fun x => (f x - g (V1.transpose.mulVec x)) ^ 2) (cubeLaw m) ∧
      ∫ x, (f x - g (V1.transpose.mulVec x)) ^ 2 ∂cubeLaw m
        ≤ 2 ^ (m - n + 1) * m * ((∑ j : Fin m, if n ≤ (j : ℕ) then e j else 0) + (m - n : ℕ) * m * ε) := by
  obtain ⟨e, V, h1, h2⟩ := C34_posSemidef lib hl (by omega) _ (gradOuter_posSemidef (Matrix.of fun l => df (X l)) (weightsOf wt) hw)
  obtain ⟨e', V', w', hp, hc, hsplit, he', hV', -, -, -⟩ := compute_ok hl rng hm hM none none (some (Matrix.of fun l => df (X l))) wt
    (.inr (by simp)) "AS" "EVG" .AS rfl 0 w w ⟨m, e, V⟩ (by
      change (active_subspace lib (.mat (NpMat.of (Matrix.of fun l => df (X l)))) (wcol (weightsOf wt)), w) = _
      rw [active_subspace_eq, h1]) (fun h => absurd h (lt_irrefl _)) (.inl rfl)
  cases hp
  obtain ⟨n, k, V1, V2, hn, hs⟩ := split_of_isSplit hsplit fun m' V' h => by
    rw [hV'] at h
    cases h
    ext a b
    rw [Matrix.mul_apply, Matrix.one_apply]
    exact h2.orth a b
  have hm' : m = n + k := by
    have := hV'.symm.trans hs.eig
    have := congrArg NpMat.rows (Option.some.inj this)
    exact this
  subst hm'
  have hVs : V = Np.hstack V1 V2 := by
    have := hV'.symm.trans hs.eig
    cases this
    rfl
  refine ⟨n, V1, e, sliceMean f V1 V2, w', hn, by omega, hc, he', hs.w1, sliceMean_measurable V1 V2 hf.continuous, C142_integrable hs hf, ?_⟩
  have hsum : (∑ j : Fin (n + k), if n ≤ (j : ℕ) then e j else 0) = ∑ b, e (Fin.natAdd n b) := by
    rw [Fin.sum_univ_add]
    have h0 : ∀ i : Fin n, (if n ≤ ((Fin.castAdd k i : Fin (n + k)) : ℕ) then e (Fin.castAdd k i) else 0) = 0 := fun i => if_neg (by simp)
    rw [Finset.sum_eq_zero fun i _ => h0 i, zero_add]
    exact Finset.sum_congr rfl fun b _ => if_pos (by simp)
  rw [hsum, Nat.add_sub_cancel_left]
  exact C142_perturbed hs hf (hVs ▸ h2) hε

/-- C142: `compute` with gradients at points of the cube as data: whatever dimension is chosen, there is a function of the active variables
whose mean square error over the cube is at most the constant times the sum of the eigenvalues left out, up to the error of the samples in the
matrix `∫ ∇f ∇fᵀ`. -/
theorem C142_compute {lib : Model.Subspaces.Lib} (hl : SubLibOK lib) (rng : Rng S) (hm : 2 ≤ m) (hM : 0 < M) {f : (Fin m → ℝ) → ℝ}
    {df : (Fin m → ℝ) → Fin m → ℝ} (hf : C1 f df) (X : Matrix (Fin M) (Fin m) ℝ) (wt : Fin M → ℝ) (hw : ∀ i, 0 ≤ wt i) {ε : ℝ}
    (hε : ∀ i j, |∑ l, wt l * (df (X l) i * df (X l) j) - ∫ x, df x i * df x j ∂cubeLaw m| ≤ ε) (w : S × Subspaces) :
    ∃ (n : ℕ) (V1 : Matrix (Fin m) (Fin n) ℝ) (e : Fin m → ℝ) (g : (Fin n → ℝ) → ℝ) (w' : S × Subspaces), 1 ≤ n ∧ n ≤ m ∧
      (compute lib rng none none (some (.mat (NpMat.of (Matrix.of fun l => df (X l))))) (some (NpMat.of (Matrix.of fun l (_ : Fin 1) => wt l)))
        "AS" "EVG" 0).run w = (.ok (), w') ∧
      w'.2.eigenvals = some (NpVec.of e) ∧ w'.2.W1 = some (NpMat.of V1) ∧
      Measurable g ∧ Integrable (fun x => (f x - g (V1.transpose.mulVec x)) ^ 2) (cubeLaw m) ∧
      ∫ x, (f x - g (V1.transpose.mulVec x)) ^ 2 ∂cubeLaw m
        ≤ 2 ^ (m - n + 1) * m * ((∑ j : Fin m, if n ≤ (j : ℕ) then e j else 0) + (m - n : ℕ) * m * ε) := by
  exact cube_compute hl rng hm hM hf X (some wt) hw hε w

theorem cube_sample {Ω : Type} [MeasurableSpace Ω] {μ : Measure Ω} {df : (Fin m → ℝ) → Fin m → ℝ} (hc : ∀ j, Continuous fun x => df x j)
    {x : ℕ → Ω → Fin m → ℝ} (hx : Pairwise fun i j => IndepFun (x i) (x j) μ) (hlaw : ∀ i, HasLaw (x i) (cubeLaw m) μ) :
    IsSample μ fun i ω => df (x i ω) := by
  have hc' : Continuous df := continuous_pi hc
  refine ⟨fun k => ?_, fun i j hij => (hx hij).comp hc'.measurable hc'.measurable, fun i => ?_⟩
  · obtain ⟨B, hB⟩ := (isCompact_Icc (a := (-1 : Fin m → ℝ)) (b := 1)).exists_bound_of_continuousOn (hc k).continuousOn
    have : MemLp (fun y => df y k) 2 (cubeLaw m) := MemLp.of_bound (hc k).aestronglyMeasurable B (by
      filter_upwards [cube_ae m] with u hu
      exact hB u ⟨fun j => (hu j).1, fun j => (hu j).2⟩)
    rw [← (hlaw 0).map_eq] at this
    exact this.comp_of_map (hlaw 0).aemeasurable
  · exact (IdentDistrib.mk (hlaw i).aemeasurable (hlaw 0).aemeasurable ((hlaw i).map_eq.trans (hlaw 0).map_eq.symm)).comp hc'.measurable

/-- C142: for gradients at independent points uniform on the cube without weights, almost surely for every large sample there is a function of
the active variables found by `compute` whose mean square error is at most the constant times the sum of the computed eigenvalues left out plus
`ε`. -/
theorem C142_monte_carlo {Ω : Type} [MeasurableSpace Ω] {μ : Measure Ω} {lib : Model.Subspaces.Lib} (hl : SubLibOK lib) (rng : Rng S) (hm : 2 ≤ m)
    {f : (Fin m → ℝ) → ℝ} {df : (Fin m → ℝ) → Fin m → ℝ} (hf : C1 f df) {x : ℕ → Ω → Fin m → ℝ}
    (hx : Pairwise fun i j => IndepFun (x i) (x j) μ) (hlaw : ∀ i, HasLaw (x i) (cubeLaw m) μ) :
    ∀ᵐ ω ∂μ, ∀ ε : ℝ, 0 < ε → ∀ᶠ M : ℕ in Filter.atTop, ∀ w : S × Subspaces,
      ∃ (n : ℕ) (V1 : Matrix (Fin m) (Fin n) ℝ) (e : Fin m → ℝ) (g : (Fin n → ℝ) → ℝ) (w' : S × Subspaces), 1 ≤ n ∧ n ≤ m ∧
        (compute lib rng none none (some (.mat (NpMat.of (Matrix.of fun l : Fin M => df (x l ω))))) none "AS" "EVG" 0).run w = (.ok (), w') ∧
        w'.2.eigenvals = some (NpVec.of e) ∧ w'.2.W1 = some (NpMat.of V1) ∧
        Measurable g ∧ Integrable (fun x => (f x - g (V1.transpose.mulVec x)) ^ 2) (cubeLaw m) ∧
        ∫ x, (f x - g (V1.transpose.mulVec x)) ^ 2 ∂cubeLaw m
          ≤ 2 ^ (m - n + 1) * m * ((∑ j : Fin m, if n ≤ (j : ℕ) then e j else 0) + ε) := by
  filter_upwards [sample_law (cube_sample hf.cont hx hlaw)] with ω hω ε hε
  have hm0 : (0 : ℝ) < m := by exact_mod_cast (by omega : 0 < m)
  have hδ : 0 < ε / (m * m) := by positivity
  have hev : ∀ᶠ M : ℕ in Filter.atTop, ∀ i j, |gradOuter (rowsOf (fun i ω => df (x i ω)) M ω) (fun _ => 1 / (M : ℝ)) i j
      - secondMoment μ (fun ω => df (x 0 ω)) i j| < ε / (m * m) := by
    rw [Filter.eventually_all]
    intro i
    rw [Filter.eventually_all]
    intro j
    exact (Metric.tendsto_nhds.mp (hω i j) _ hδ)
  filter_upwards [hev, Filter.eventually_gt_atTop 0] with M hM hM0 w
  obtain ⟨n, V1, e, g, w', a1, a2, a3, a4, a5, g1, g2, a6⟩ := cube_compute hl rng hm hM0 hf (Matrix.of fun (l : Fin M) => x l ω) none
    (fun i => by simp only [weightsOf, Option.getD_none]; positivity) (ε := ε / (m * m)) (fun i j => by
      have h1 := (hM i j).le
      have h2 : secondMoment μ (fun ω => df (x 0 ω)) i j = ∫ x, df x i * df x j ∂(cubeLaw m) :=
        (hlaw 0).integral_comp (f := fun y => df y i * df y j) ((hf.cont i).mul (hf.cont j)).aestronglyMeasurable
      rw [h2] at h1
      exact h1) w
  refine ⟨n, V1, e, g, w', a1, a2, a3, a4, a5, g1, g2, a6.trans (mul_le_mul_of_nonneg_left (add_le_add_right ?_ _) (by positivity))⟩
  have h3 : ((m - n : ℕ) : ℝ) ≤ m := by exact_mod_cast Nat.sub_le m n
  calc ((m - n : ℕ) : ℝ) * m * (ε / (m * m)) ≤ m * m * (ε / (m * m)) := by gcongr
    _ = ε := by field_simp

/-! ## Polynomials -/

theorem unifMeasure_eq : unifMeasure = (2 : ENNReal)⁻¹ • volume.restrict (Icc (-1 : ℝ) 1) := by
  have e : ((2⁻¹ : NNReal) : ENNReal) = (2 : ENNReal)⁻¹ := by rw [ENNReal.coe_inv (by norm_num)]; rfl
  rw [unifMeasure, ← e, Measure.restrict_congr_set (Ioc_ae_eq_Icc (μ := volume) (a := (-1 : ℝ)) (b := 1))]
  rfl

theorem cubeLaw_unif (m : ℕ) : cubeLaw m = Measure.pi fun _ : Fin m => unifMeasure := by
  rw [cubeLaw]
  congr 1
  funext _
  exact unifMeasure_eq.symm

theorem poly_C1 (P : MvPolynomial (Fin m) ℝ) : C1 (fun x => MvPolynomial.eval x P) fun x i => MvPolynomial.eval x (MvPolynomial.pderiv i P) :=
  ⟨(poly_smooth P).deriv, (poly_smooth P).cont⟩

/-- C142: for a polynomial of degree less than `N_j` in variable `j` and gradients at the nodes of the Gauss-Legendre rule with `N_j` nodes, with
its weights, the error is at most the constant times the sum of the eigenvalues left out by `compute`. -/
theorem C142_gauss {lib : Model.Subspaces.Lib} (hl : SubLibOK lib) {qlib : Model.Quadrature.Lib} (hq : Proofs.Quadrature.LibOK qlib) (rng : Rng S)
    (hm : 2 ≤ m) (ns : Fin m → ℕ) (hns : ∀ j, 1 ≤ ns j ∧ ns j ≤ 10 ^ 11) {r : Rule}
    (hr : gauss_legendre qlib (.list (List.ofFn fun j => .int (ns j))) = .ok r) (P : MvPolynomial (Fin m) ℝ) (hP : ∀ j, P.degreeOf j < ns j)
    (w : S × Subspaces) :
    ∃ (n : ℕ) (V1 : Matrix (Fin m) (Fin n) ℝ) (e : Fin m → ℝ) (g : (Fin n → ℝ) → ℝ) (w' : S × Subspaces), 1 ≤ n ∧ n ≤ m ∧
      (compute lib rng none none (some (.mat (NpMat.of (Matrix.of fun (l : Fin r.x.rows) i =>
        MvPolynomial.eval (fun j : Fin m => r.x.get l j) (MvPolynomial.pderiv i P)))))
        (some (NpMat.of (Matrix.of fun (l : Fin r.x.rows) (_ : Fin 1) => r.w.get l 0))) "AS" "EVG" 0).run w = (.ok (), w') ∧
      w'.2.eigenvals = some (NpVec.of e) ∧ w'.2.W1 = some (NpMat.of V1) ∧
      Measurable g ∧ Integrable (fun x => (MvPolynomial.eval x P - g (V1.transpose.mulVec x)) ^ 2) (cubeLaw m) ∧
      ∫ x, (MvPolynomial.eval x P - g (V1.transpose.mulVec x)) ^ 2 ∂cubeLaw m
        ≤ 2 ^ (m - n + 1) * m * ∑ j : Fin m, if n ≤ (j : ℕ) then e j else 0 := by
  obtain ⟨h1, -, h3, -⟩ := C24_weights hq (List.ofFn fun j => (ns j : ℤ)) (r := r) (.inr (by rw [List.map_ofFn]; exact hr))
  have hM : 0 < r.x.rows := by
    rw [h1, List.map_ofFn, List.prod_ofFn]
    exact Finset.prod_pos fun j _ => by simp
  obtain ⟨n, V1, e, g, w', a1, a2, a3, a4, a5, g1, g2, a6⟩ := C142_compute hl rng hm hM (poly_C1 P) (Matrix.of fun (l : Fin r.x.rows) (j : Fin m) => r.x.get l j)
    (fun l => r.w.get l 0) (fun l => (h3 l).le) (ε := 0) (fun i j => by
      have hex := C24_legendre_exact hq ns hns hr (MvPolynomial.pderiv i P * MvPolynomial.pderiv j P) fun l => by
        refine (MvPolynomial.degreeOf_mul_le _ _ _).trans ?_
        have q1 := degreeOf_pderiv P i l
        have q2 := degreeOf_pderiv P j l
        have q3 := hP l
        omega
      simp only [map_mul] at hex
      refine le_of_eq (abs_eq_zero.mpr (sub_eq_zero.mpr ?_))
      rw [cubeLaw_unif]
      exact hex) w
  refine ⟨n, V1, e, g, w', a1, a2, a3, a4, a5, g1, g2, a6.trans_eq ?_⟩
  rw [mul_zero, add_zero]

/-! ## The hypotheses can be met -/

theorem cube_coord (i : Fin (1 + 1)) (q : ℕ) : ∫ x, x i ^ q ∂cubeLaw (1 + 1) = ∫ t, t ^ q ∂unifMeasure := by
  have hp := measurePreserving_eval (fun _ : Fin (1 + 1) => unifMeasure) i
  rw [cubeLaw_unif]
  exact hp.hasLaw.integral_comp (f := fun x => x ^ q) (by fun_prop)

/-- C142: for `x² + y` with `x` active the matrix has eigenvalues `4/3`, `1`, and the error is at most 8. -/
example : Split toySubspaces (Matrix.of fun (i : Fin (1 + 1)) (_ : Fin 1) => if i = 0 then 1 else 0)
      (Matrix.of fun (i : Fin (1 + 1)) (_ : Fin 1) => if i = 1 then 1 else 0) ∧
    C1 (fun x => MvPolynomial.eval x sampleP) (fun x i => MvPolynomial.eval x (MvPolynomial.pderiv i sampleP)) ∧
    IsSortedEigh (Matrix.of fun i j => ∫ x, MvPolynomial.eval x (MvPolynomial.pderiv i sampleP)
      * MvPolynomial.eval x (MvPolynomial.pderiv j sampleP) ∂cubeLaw (1 + 1)) ![4 / 3, 1]
    (Np.hstack (Matrix.of fun (i : Fin (1 + 1)) (_ : Fin 1) => if i = 0 then 1 else 0)
      (Matrix.of fun (i : Fin (1 + 1)) (_ : Fin 1) => if i = 1 then 1 else 0)) := by
  refine ⟨toySplit, poly_C1 _, ?_⟩
  have hV : Np.hstack (Matrix.of fun (i : Fin (1 + 1)) (_ : Fin 1) => if i = 0 then (1 : ℝ) else 0)
      (Matrix.of fun (i : Fin (1 + 1)) (_ : Fin 1) => if i = 1 then 1 else 0) = 1 := by
    ext i j
    revert i j
    refine Fin.forall_fin_two.mpr ⟨Fin.forall_fin_two.mpr ⟨?_, ?_⟩, Fin.forall_fin_two.mpr ⟨?_, ?_⟩⟩ <;>
      simp [Np.hstack, Matrix.one_apply, Fin.append, Fin.addCases]
  have i1 : ∫ x, x 0 ∂cubeLaw (1 + 1) = 0 := by
    have := cube_coord 0 1
    rw [(unifMeasure_pow 1).2] at this
    simpa [Finset.sum_range_succ] using this
  have i2 : ∫ x, x 0 ^ 2 ∂cubeLaw (1 + 1) = 1 / 3 := by
    rw [cube_coord 0 2, (unifMeasure_pow 2).2]
    norm_num
  have hC : (Matrix.of fun i j => ∫ x, MvPolynomial.eval x (MvPolynomial.pderiv i sampleP)
      * MvPolynomial.eval x (MvPolynomial.pderiv j sampleP) ∂cubeLaw (1 + 1)) = Matrix.diagonal ![4 / 3, 1] := by
    have e : ∀ x : Fin (1 + 1) → ℝ, 2 * x 0 * (2 * x 0) = 4 * x 0 ^ 2 := fun x => by ring
    ext i j
    revert i j
    refine Fin.forall_fin_two.mpr ⟨Fin.forall_fin_two.mpr ⟨?_, ?_⟩, Fin.forall_fin_two.mpr ⟨?_, ?_⟩⟩ <;>
      simp [sampleP_grad, e, integral_const_mul, i1, i2] <;> norm_num
  rw [hV, hC]
  refine ⟨fun j => ?_, fun j k => ?_, fun j => ?_, ?_, fun i j _ => ?_⟩
  · ext i
    revert i j
    refine Fin.forall_fin_two.mpr ⟨Fin.forall_fin_two.mpr ⟨?_, ?_⟩, Fin.forall_fin_two.mpr ⟨?_, ?_⟩⟩ <;> simp [Matrix.mulVec, dotProduct]
  · have := congrFun (congrFun (Matrix.one_mul (1 : Matrix (Fin (1 + 1)) (Fin (1 + 1)) ℝ)) j) k
    rw [Matrix.mul_apply, Matrix.one_apply] at this
    rw [← this]
    exact Finset.sum_congr rfl fun i _ => by rw [Matrix.one_apply, Matrix.one_apply, Matrix.one_apply]; simp only [eq_comm]
  · revert j
    refine Fin.forall_fin_two.mpr ⟨?_, ?_⟩ <;> norm_num
  · intro a b
    revert a b
    refine Fin.forall_fin_two.mpr ⟨Fin.forall_fin_two.mpr ⟨?_, ?_⟩, Fin.forall_fin_two.mpr ⟨?_, ?_⟩⟩ <;> intro hab <;>
      first | exact absurd hab (by decide) | norm_num
  · rw [Matrix.one_apply]
    split_ifs <;> norm_num

/-- C142: `compute` with the gradients of `x² + y` at the nodes of the tensor rule with three nodes in each variable. -/
example {qlib : Model.Quadrature.Lib} (heig : ∀ {n : ℕ} (A : Matrix (Fin n) (Fin n) ℝ), A.transpose = A → ∃ eV, qlib.eig A = .ok eV) :
    (∃ r, gauss_legendre qlib (.list (List.ofFn fun _ : Fin (1 + 1) => .int (3 : ℕ))) = .ok r) ∧ ∀ j, sampleP.degreeOf j < 3 :=
  ⟨((C24_cases qlib).2.2.2.2.2 heig [3, 3]).2,
    fun j => lt_of_le_of_lt (MvPolynomial.degreeOf_le_totalDegree _ j) (lt_of_le_of_lt sampleP_degree (by norm_num))⟩

/-- C142: independent points of the cube. -/
example : (Pairwise fun i j => IndepFun (fun ω : ℕ → Fin 2 → ℝ => ω i) (fun ω => ω j) (Measure.infinitePi fun _ : ℕ => cubeLaw 2)) ∧
    ∀ i, HasLaw (fun ω : ℕ → Fin 2 → ℝ => ω i) (cubeLaw 2) (Measure.infinitePi fun _ : ℕ => cubeLaw 2) :=
  ⟨fun _ _ hij => (iIndepFun_infinitePi (P := fun _ : ℕ => cubeLaw 2) (X := fun _ x => x) fun _ => measurable_id).indepFun hij,
    fun i => (measurePreserving_eval_infinitePi (fun _ : ℕ => cubeLaw 2) i).hasLaw⟩

/-- C142: a bounded function of the active variable. -/
example : Measurable (fun y : Fin 1 → ℝ => min 1 (max (-1) (y 0))) ∧ ∀ y : Fin 1 → ℝ, |min 1 (max (-1) (y 0))| ≤ (1 : ℝ) :=
  ⟨by fun_prop, fun _ => abs_le.mpr ⟨le_min (by norm_num) (le_max_left _ _), min_le_left _ _⟩⟩

end Props
