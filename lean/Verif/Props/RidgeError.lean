import Verif.Proofs.Poincare
import Verif.Proofs.PolyApprox
import Verif.Props.IntegrateLaw
import Verif.Props.MonteCarlo
import Verif.Props.TensorExact

/-!
# Property C116: the eigenvalues that are left out bound the error of functions of the active variables
-/

open Py Model.Misc Model.Subspaces Model.QPSolver Model.Domains Model.ResponseSurfaces Model.ActiveSurfaces Model.Quadrature
  Model.Integrals Spec Proofs.Run Proofs.Groups Proofs.Rotation Proofs.Poincare MeasureTheory ProbabilityTheory

namespace Props

variable {S E Ω : Type} {m n k M G T : ℕ} [MeasurableSpace Ω]

/-! ## Functions along affine maps -/

theorem norm_affine_le (c : Fin m → ℝ) (A : Matrix (Fin m) (Fin k) ℝ) : ∃ C : ℝ, 0 ≤ C ∧ ∀ z, ‖c + A.mulVec z‖ ≤ C * (1 + ‖z‖) := by
  let L : (Fin k → ℝ) →L[ℝ] (Fin m → ℝ) := LinearMap.toContinuousLinearMap A.mulVecLin
  refine ⟨‖c‖ + ‖L‖, by positivity, fun z => (norm_add_le _ _).trans ?_⟩
  have h : ‖A.mulVec z‖ ≤ ‖L‖ * ‖z‖ := L.le_opNorm z
  nlinarith [norm_nonneg c, norm_nonneg L, norm_nonneg z]

theorem continuous_mulVec (A : Matrix (Fin m) (Fin k) ℝ) : Continuous fun z => A.mulVec z :=
  (LinearMap.toContinuousLinearMap A.mulVecLin).continuous

theorem smooth_affine {f : (Fin m → ℝ) → ℝ} {df : (Fin m → ℝ) → Fin m → ℝ} (h : Smooth f df) (c : Fin m → ℝ) (A : Matrix (Fin m) (Fin k) ℝ) :
    Smooth (fun z => f (c + A.mulVec z)) fun z b => ∑ i, A i b * df (c + A.mulVec z) i where
  deriv z := by
    let L : (Fin k → ℝ) →L[ℝ] (Fin m → ℝ) := LinearMap.toContinuousLinearMap A.mulVecLin
    have d : HasFDerivAt (fun z : Fin k → ℝ => c + A.mulVec z) L z := L.hasFDerivAt.const_add c
    refine ((h.deriv _).comp z d).congr_fderiv ?_
    ext w
    have hL : ∀ i, L w i = ∑ b, A i b * w b := fun i => rfl
    simp only [sum_apply, smul_apply, ContinuousLinearMap.proj_apply, smul_eq_mul, ContinuousLinearMap.comp_apply, hL, Finset.mul_sum, Finset.sum_mul]
    rw [Finset.sum_comm]
    exact Finset.sum_congr rfl fun b _ => Finset.sum_congr rfl fun i _ => by ring
  cont b := continuous_finsetSum _ fun i _ => continuous_const.mul ((h.cont i).comp (continuous_const.add (continuous_mulVec A)))
  growth b := by
    obtain ⟨C, -, hC⟩ := norm_affine_le c A
    exact PolyGrowth.sum _ fun i => (PolyGrowth.const (A i b)).mul ((h.growth i).comp _ C hC)

theorem smooth_memLp {f : (Fin k → ℝ) → ℝ} {df : (Fin k → ℝ) → Fin k → ℝ} (h : Smooth f df) : MemLp f 2 (normal k) := by
  rw [memLp_two_iff_integrable_sq h.continuous.aestronglyMeasurable]
  simpa [pow_two] using (h.polyGrowth.mul h.polyGrowth).integrable (h.continuous.mul h.continuous) (normal k)

theorem variance_le {f : (Fin k → ℝ) → ℝ} {df : (Fin k → ℝ) → Fin k → ℝ} (h : Smooth f df) :
    Var[f; normal k] ≤ ∑ j, ∫ x, df x j ^ 2 ∂normal k := by
  rw [variance_eq_sub (smooth_memLp h)]
  exact poincare h

variable {f : (Fin (n + k) → ℝ) → ℝ} {df : (Fin (n + k) → ℝ) → Fin (n + k) → ℝ} {s : Subspaces}
  {V1 : Matrix (Fin (n + k)) (Fin n) ℝ} {V2 : Matrix (Fin (n + k)) (Fin k) ℝ}

/-- C116: for every value of the active variables, the variance over the inactive variables is at most the mean of the squared derivatives in
the inactive directions. -/
theorem C116_conditional (hf : Smooth f df) (y : Fin n → ℝ) :
    Var[fun z => f (V1.mulVec y + V2.mulVec z); Measure.pi fun _ : Fin k => gaussianReal 0 1]
      ≤ ∑ b, ∫ z, (∑ i, V2 i b * df (V1.mulVec y + V2.mulVec z) i) ^ 2 ∂(Measure.pi fun _ : Fin k => gaussianReal 0 1) :=
  variance_le (smooth_affine hf (V1.mulVec y) V2)

/-! ## The conditional mean -/

theorem norm_point_le (V1 : Matrix (Fin m) (Fin n) ℝ) (V2 : Matrix (Fin m) (Fin k) ℝ) :
    ∃ C : ℝ, 0 ≤ C ∧ ∀ p : (Fin n → ℝ) × (Fin k → ℝ), ‖V1.mulVec p.1 + V2.mulVec p.2‖ ≤ C * (1 + ‖p‖) := by
  let L : (Fin n → ℝ) →L[ℝ] (Fin m → ℝ) := LinearMap.toContinuousLinearMap V1.mulVecLin
  obtain ⟨C, hC, h⟩ := norm_affine_le (0 : Fin m → ℝ) V2
  refine ⟨‖L‖ + C, by positivity, fun p => (norm_add_le _ _).trans ?_⟩
  have h1 : ‖V1.mulVec p.1‖ ≤ ‖L‖ * ‖p.1‖ := L.le_opNorm p.1
  have h2 := h p.2
  rw [zero_add] at h2
  have h3 := mul_le_mul_of_nonneg_left (norm_fst_le p) (norm_nonneg L)
  have h4 := mul_le_mul_of_nonneg_left (norm_snd_le p) hC
  nlinarith [norm_nonneg L]

theorem continuous_point (V1 : Matrix (Fin m) (Fin n) ℝ) (V2 : Matrix (Fin m) (Fin k) ℝ) :
    Continuous fun p : (Fin n → ℝ) × (Fin k → ℝ) => V1.mulVec p.1 + V2.mulVec p.2 :=
  ((continuous_mulVec V1).comp continuous_fst).add ((continuous_mulVec V2).comp continuous_snd)

theorem condMean_measurable (hc : Continuous f) : StronglyMeasurable (condMean f V1 V2) :=
  StronglyMeasurable.integral_prod_right' (f := fun p : (Fin n → ℝ) × (Fin k → ℝ) => f (V1.mulVec p.1 + V2.mulVec p.2))
    (hc.comp (continuous_point V1 V2)).stronglyMeasurable

theorem condMean_growth (hg : PolyGrowth f) (hc : Continuous f) : PolyGrowth (condMean f V1 V2) := by
  obtain ⟨C, hC, hp⟩ := norm_point_le V1 V2
  obtain ⟨K, p, hK, hb⟩ := (hg.comp (fun p : (Fin n → ℝ) × (Fin k → ℝ) => V1.mulVec p.1 + V2.mulVec p.2) C hp).bound
  have hz : PolyGrowth fun z : Fin k → ℝ => (1 + ‖z‖) ^ p := ⟨1, p, fun z => by rw [one_mul, abs_of_nonneg (by positivity)]⟩
  have hzi := hz.integrable (by fun_prop) (normal k)
  refine ⟨K * ∫ z, (1 + ‖z‖) ^ p ∂(normal k), p, fun y => ?_⟩
  have hfz : Integrable (fun z => f (V1.mulVec y + V2.mulVec z)) (normal k) := by
    obtain ⟨C', -, h'⟩ := norm_affine_le (V1.mulVec y) V2
    exact (hg.comp _ C' h').integrable (hc.comp (continuous_const.add (continuous_mulVec V2))) _
  unfold condMean
  rw [← Real.norm_eq_abs]
  refine (norm_integral_le_integral_norm _).trans ?_
  calc ∫ z, ‖f (V1.mulVec y + V2.mulVec z)‖ ∂(normal k) ≤ ∫ z, K * (1 + ‖y‖) ^ p * (1 + ‖z‖) ^ p ∂(normal k) := by
        refine integral_mono hfz.norm (hzi.const_mul _) fun z => ?_
        dsimp only
        rw [Real.norm_eq_abs, mul_assoc, ← mul_pow]
        refine (hb (y, z)).trans (mul_le_mul_of_nonneg_left (pow_le_pow_left₀ (by positivity) ?_ _) hK)
        rw [Prod.norm_def]
        rcases max_cases ‖y‖ ‖z‖ with ⟨h, -⟩ | ⟨h, -⟩ <;> dsimp only at h ⊢ <;> rw [h] <;> nlinarith [norm_nonneg y, norm_nonneg z, mul_nonneg (norm_nonneg y) (norm_nonneg z)]
    _ = _ := by
        rw [integral_const_mul]
        ring

/-- The active variables of the point made of `y` and `z`. -/
theorem active_of_point (h : Split s V1 V2) (y : Fin n → ℝ) (z : Fin k → ℝ) : V1.transpose.mulVec (V1.mulVec y + V2.mulVec z) = y := by
  funext a
  simp only [Matrix.mulVec_add, Matrix.mulVec_mulVec]
  have h1 : V1.transpose * V1 = 1 := by
    ext a b
    rw [Matrix.mul_apply, Matrix.one_apply]
    exact h.orth11 a b
  have h2 : V1.transpose * V2 = 0 := by
    ext a b
    rw [Matrix.mul_apply]
    exact h.orth12 a b
  rw [h1, h2]
  simp

theorem sq_growth {E : Type*} [NormedAddCommGroup E] {g : E → ℝ} (h : PolyGrowth g) : PolyGrowth fun x => g x ^ 2 := by
  simpa [pow_two] using h.mul h

/-- Integrals over all inputs as integrals over active and inactive variables. -/
theorem integral_split (h : Split s V1 V2) {u : (Fin (n + k) → ℝ) → ℝ} (hu : AEStronglyMeasurable u (normal (n + k))) :
    ∫ x, u x ∂normal (n + k) = ∫ p, u (V1.mulVec p.1 + V2.mulVec p.2) ∂((normal n).prod (normal k)) := by
  have hrot := rotate h.orth11 h.orth12 h.orth22
  rw [← hrot.map_eq]
  exact integral_map hrot.aemeasurable (by rw [hrot.map_eq]; exact hu)

theorem active_preserving (h : Split s V1 V2) : MeasurePreserving (fun x => V1.transpose.mulVec x) (normal (n + k)) (normal n) := by
  have hrot := rotate h.orth11 h.orth12 h.orth22
  have hm : Measurable fun x : Fin (n + k) → ℝ => V1.transpose.mulVec x := (continuous_mulVec _).measurable
  refine ⟨hm, ?_⟩
  rw [← hrot.map_eq, Measure.map_map hm hrot.measurable]
  have e : (fun x => V1.transpose.mulVec x) ∘ (fun p : (Fin n → ℝ) × (Fin k → ℝ) => V1.mulVec p.1 + V2.mulVec p.2) = Prod.fst :=
    funext fun p => active_of_point h p.1 p.2
  rw [e]
  exact measurePreserving_fst.map_eq

theorem ridge_error_eq (h : Split s V1 V2) (hf : Smooth f df) {g : (Fin n → ℝ) → ℝ} (hg : MemLp g 2 (normal n)) :
    Integrable (fun y => ∫ z, (f (V1.mulVec y + V2.mulVec z) - g y) ^ 2 ∂(normal k)) (normal n) ∧
    ∫ x, (f x - g (V1.transpose.mulVec x)) ^ 2 ∂normal (n + k)
      = ∫ y, ∫ z, (f (V1.mulVec y + V2.mulVec z) - g y) ^ 2 ∂(normal k) ∂(normal n) := by
  have hrot := rotate h.orth11 h.orth12 h.orth22
  have hm : MemLp (fun x => f x - g (V1.transpose.mulVec x)) 2 (normal (n + k)) :=
    (smooth_memLp hf).sub (hg.comp_measurePreserving (active_preserving h))
  have hi := (memLp_two_iff_integrable_sq hm.aestronglyMeasurable).mp hm
  have hi2 := hrot.integrable_comp_of_integrable hi
  have e : ((fun x => (f x - g (V1.transpose.mulVec x)) ^ 2) ∘ fun p : (Fin n → ℝ) × (Fin k → ℝ) => V1.mulVec p.1 + V2.mulVec p.2)
      = fun p => (f (V1.mulVec p.1 + V2.mulVec p.2) - g p.1) ^ 2 := funext fun p => by
    simp only [Function.comp_apply, active_of_point h]
  rw [e] at hi2
  refine ⟨hi2.integral_prod_left, ?_⟩
  rw [integral_split h hi.aestronglyMeasurable, ← integral_prod _ hi2]
  refine integral_congr_ae (ae_of_all _ fun p => ?_)
  simp only [active_of_point h]

theorem condMean_memLp (hf : Smooth f df) : MemLp (condMean f V1 V2) 2 (normal n) := by
  have hm : AEStronglyMeasurable (condMean f V1 V2) (normal n) := (condMean_measurable hf.continuous).aestronglyMeasurable
  rw [memLp_two_iff_integrable_sq hm]
  exact (sq_growth (condMean_growth hf.polyGrowth hf.continuous)).integrable' _ (hm.pow 2)

theorem var_eq (hf : Smooth f df) (y : Fin n → ℝ) :
    ∫ z, (f (V1.mulVec y + V2.mulVec z) - condMean f V1 V2 y) ^ 2 ∂(normal k) = Var[fun z => f (V1.mulVec y + V2.mulVec z); normal k] :=
  (variance_eq_integral (smooth_memLp (smooth_affine hf (V1.mulVec y) V2)).aestronglyMeasurable.aemeasurable).symm

/-- C116: among the functions of the active variables, the mean over the inactive variables has the least mean square error. -/
theorem C116_best (h : Split s V1 V2) (hf : Smooth f df) (g : (Fin n → ℝ) → ℝ) (hg : MemLp g 2 (Measure.pi fun _ : Fin n => gaussianReal 0 1)) :
    ∫ x, (f x - condMean f V1 V2 (V1.transpose.mulVec x)) ^ 2 ∂(Measure.pi fun _ : Fin (n + k) => gaussianReal 0 1)
      ≤ ∫ x, (f x - g (V1.transpose.mulVec x)) ^ 2 ∂(Measure.pi fun _ : Fin (n + k) => gaussianReal 0 1) := by
  obtain ⟨i1, e1⟩ := ridge_error_eq h hf (condMean_memLp (V1 := V1) (V2 := V2) hf)
  obtain ⟨i2, e2⟩ := ridge_error_eq h hf hg
  refine e1.trans_le (le_trans ?_ e2.ge)
  refine integral_mono i1 i2 fun y => ?_
  have hm := smooth_memLp (smooth_affine hf (V1.mulVec y) V2)
  have h3 : Var[fun z => f (V1.mulVec y + V2.mulVec z) - g y; normal k] ≤ ∫ z, (f (V1.mulVec y + V2.mulVec z) - g y) ^ 2 ∂(normal k) :=
    variance_le_expectation_sq (hm.aestronglyMeasurable.sub aestronglyMeasurable_const)
  rw [variance_sub_const hm.aestronglyMeasurable] at h3
  exact (var_eq hf y).trans_le h3

/-- C116: the mean square error of the conditional mean is at most the sum of the mean squared derivatives in the inactive directions. -/
theorem C116_ridge (h : Split s V1 V2) (hf : Smooth f df) :
    ∫ x, (f x - condMean f V1 V2 (V1.transpose.mulVec x)) ^ 2 ∂(Measure.pi fun _ : Fin (n + k) => gaussianReal 0 1)
      ≤ ∑ b, ∫ x, (∑ i, V2 i b * df x i) ^ 2 ∂(Measure.pi fun _ : Fin (n + k) => gaussianReal 0 1) := by
  obtain ⟨i1, e1⟩ := ridge_error_eq h hf (condMean_memLp (V1 := V1) (V2 := V2) hf)
  have hrot := rotate h.orth11 h.orth12 h.orth22
  have hc : ∀ b, Continuous fun x => (∑ i, V2 i b * df x i) ^ 2 := fun b =>
    (continuous_finsetSum _ fun i _ => continuous_const.mul (hf.cont i)).pow 2
  have hi : ∀ b, Integrable (fun x => (∑ i, V2 i b * df x i) ^ 2) (normal (n + k)) := fun b =>
    (sq_growth (PolyGrowth.sum _ fun i => (PolyGrowth.const (V2 i b)).mul (hf.growth i))).integrable (hc b) _
  have hip : ∀ b, Integrable (fun p : (Fin n → ℝ) × (Fin k → ℝ) => (∑ i, V2 i b * df (V1.mulVec p.1 + V2.mulVec p.2) i) ^ 2)
    ((normal n).prod (normal k)) := fun b => hrot.integrable_comp_of_integrable (hi b)
  have e2 : ∑ b, ∫ x, (∑ i, V2 i b * df x i) ^ 2 ∂normal (n + k)
      = ∫ y, ∑ b, ∫ z, (∑ i, V2 i b * df (V1.mulVec y + V2.mulVec z) i) ^ 2 ∂(normal k) ∂(normal n) := by
    rw [integral_finsetSum _ (f := fun (b : Fin k) y => ∫ z, (∑ i, V2 i b * df (V1.mulVec y + V2.mulVec z) i) ^ 2 ∂(normal k))
      fun b _ => (hip b).integral_prod_left]
    refine Finset.sum_congr rfl fun b _ => ?_
    rw [integral_split h (hi b).aestronglyMeasurable, integral_prod _ (hip b)]
  refine e1.trans_le (le_trans ?_ e2.ge)
  refine integral_mono i1 (integrable_finsetSum _ fun b _ => (hip b).integral_prod_left) fun y => ?_
  exact (var_eq hf y).trans_le (C116_conditional hf y)

/-- C116: the squared error of the conditional mean has a finite mean. -/
theorem C116_integrable (h : Split s V1 V2) (hf : Smooth f df) :
    Integrable (fun x => (f x - condMean f V1 V2 (V1.transpose.mulVec x)) ^ 2) (Measure.pi fun _ : Fin (n + k) => gaussianReal 0 1) := by
  have hm : MemLp (fun x => f x - condMean f V1 V2 (V1.transpose.mulVec x)) 2 (normal (n + k)) :=
    (smooth_memLp hf).sub ((condMean_memLp hf).comp_measurePreserving (active_preserving h))
  exact (memLp_two_iff_integrable_sq hm.aestronglyMeasurable).mp hm

/-! ## Eigenvalues -/

/-- The mean products of the partial derivatives. -/
noncomputable def meanOuter (df : (Fin m → ℝ) → Fin m → ℝ) : Matrix (Fin m) (Fin m) ℝ := secondMoment (normal m) df

theorem meanOuter_form {df : (Fin m → ℝ) → Fin m → ℝ} (hc : ∀ j, Continuous fun x => df x j) (hg : ∀ j, PolyGrowth fun x => df x j) (v : Fin m → ℝ) :
    ∫ x, (∑ i, v i * df x i) ^ 2 ∂normal m = ∑ i, ∑ j, v i * v j * meanOuter df i j := by
  have hi : ∀ i j, Integrable (fun x => df x i * df x j) (normal m) := fun i j => ((hg i).mul (hg j)).integrable ((hc i).mul (hc j)) _
  have e : ∀ x, (∑ i, v i * df x i) ^ 2 = ∑ i, ∑ j, v i * v j * (df x i * df x j) := fun x => by
    rw [pow_two, Finset.sum_mul_sum]
    exact Finset.sum_congr rfl fun i _ => Finset.sum_congr rfl fun j _ => by ring
  simp only [e]
  rw [integral_finsetSum _ (f := fun (i : Fin m) x => ∑ j, v i * v j * (df x i * df x j))
    fun i _ => integrable_finsetSum _ fun j _ => (hi i j).const_mul _]
  refine Finset.sum_congr rfl fun i _ => ?_
  rw [integral_finsetSum _ (f := fun (j : Fin m) x => v i * v j * (df x i * df x j)) fun j _ => (hi i j).const_mul _]
  refine Finset.sum_congr rfl fun j _ => ?_
  rw [integral_const_mul]
  rfl

/-- The quadratic form at an eigenvector. -/
theorem eig_form {A : Matrix (Fin m) (Fin m) ℝ} {e : Fin m → ℝ} {W : Matrix (Fin m) (Fin m) ℝ} (h : IsSortedEigh A e W) (b : Fin m) :
    ∑ i, ∑ j, W i b * W j b * A i j = e b := by
  have h1 : ∀ i, ∑ j, W i b * W j b * A i j = W i b * (e b * W i b) := fun i => by
    have := congrFun (h.vec b) i
    simp only [Matrix.mulVec, dotProduct, Pi.smul_apply, smul_eq_mul] at this
    rw [← this, Finset.mul_sum]
    exact Finset.sum_congr rfl fun j _ => by ring
  simp only [h1]
  have h2 := h.orth b b
  rw [if_pos rfl] at h2
  calc ∑ i, W i b * (e b * W i b) = e b * ∑ i, W i b * W i b := by
        rw [Finset.mul_sum]
        exact Finset.sum_congr rfl fun i _ => by ring
    _ = e b := by rw [h2, mul_one]

/-- Perturbation of a quadratic form at a unit vector. -/
theorem form_close {A B : Matrix (Fin m) (Fin m) ℝ} {ε : ℝ} (hε : ∀ i j, |A i j - B i j| ≤ ε) (v : Fin m → ℝ) (hv : ∑ i, v i * v i = 1) :
    ∑ i, ∑ j, v i * v j * B i j ≤ ∑ i, ∑ j, v i * v j * A i j + m * ε := by
  have h1 : ∑ i, ∑ j, v i * v j * B i j - ∑ i, ∑ j, v i * v j * A i j ≤ ∑ i, ∑ j, |v i| * |v j| * ε := by
    rw [← Finset.sum_sub_distrib]
    refine Finset.sum_le_sum fun i _ => ?_
    rw [← Finset.sum_sub_distrib]
    refine Finset.sum_le_sum fun j _ => ?_
    rw [← mul_sub]
    refine (le_abs_self _).trans ?_
    rw [abs_mul, abs_mul, abs_sub_comm]
    exact mul_le_mul_of_nonneg_left (hε i j) (by positivity)
  have h2 : ∑ i, ∑ j, |v i| * |v j| * ε ≤ m * ε := by
    rcases Nat.eq_zero_or_pos m with rfl | hm
    · simp
    have hε0 : 0 ≤ ε := (abs_nonneg _).trans (hε ⟨0, hm⟩ ⟨0, hm⟩)
    have e : ∑ i, ∑ j, |v i| * |v j| * ε = (∑ i, |v i|) ^ 2 * ε := by
      rw [pow_two, Finset.sum_mul_sum, Finset.sum_mul]
      exact Finset.sum_congr rfl fun i _ => by rw [Finset.sum_mul]
    rw [e]
    refine mul_le_mul_of_nonneg_right ?_ hε0
    have := sq_sum_le_card_mul_sum_sq (s := (Finset.univ : Finset (Fin m))) (f := fun i => |v i|)
    have e2 : ∑ i, |v i| ^ 2 = 1 := by
      rw [← hv]
      exact Finset.sum_congr rfl fun i _ => by rw [sq_abs, pow_two]
    rw [e2, Finset.card_univ, Fintype.card_fin, mul_one] at this
    exact this
  linarith

/-- C116: if the columns of `W1`, `W2` are the eigenvectors of the matrix `∫ ∇f ∇fᵀ`, the error is at most the sum of the eigenvalues that
are left out. -/
theorem C116_eigenvalues (h : Split s V1 V2) (hf : Smooth f df) {e : Fin (n + k) → ℝ}
    (he : IsSortedEigh (Matrix.of fun i j => ∫ x, df x i * df x j ∂(Measure.pi fun _ : Fin (n + k) => gaussianReal 0 1)) e (Np.hstack V1 V2)) :
    ∫ x, (f x - condMean f V1 V2 (V1.transpose.mulVec x)) ^ 2 ∂(Measure.pi fun _ : Fin (n + k) => gaussianReal 0 1) ≤ ∑ b, e (Fin.natAdd n b) := by
  refine (C116_ridge h hf).trans_eq (Finset.sum_congr rfl fun b _ => ?_)
  rw [meanOuter_form hf.cont hf.growth fun i => V2 i b, ← eig_form he (Fin.natAdd n b)]
  simp only [Np.hstack_natAdd]
  rfl

/-- C116: if they are the eigenvectors of a matrix whose entries differ from those of `∫ ∇f ∇fᵀ` by at most `ε`, the error is at most the sum
of its eigenvalues that are left out plus `ε` times the number of inputs times the number of inactive variables. -/
theorem C116_perturbed (h : Split s V1 V2) (hf : Smooth f df) {A : Matrix (Fin (n + k)) (Fin (n + k)) ℝ} {e : Fin (n + k) → ℝ} {ε : ℝ}
    (he : IsSortedEigh A e (Np.hstack V1 V2))
    (hε : ∀ i j, |A i j - ∫ x, df x i * df x j ∂(Measure.pi fun _ : Fin (n + k) => gaussianReal 0 1)| ≤ ε) :
    ∫ x, (f x - condMean f V1 V2 (V1.transpose.mulVec x)) ^ 2 ∂(Measure.pi fun _ : Fin (n + k) => gaussianReal 0 1)
      ≤ ∑ b, e (Fin.natAdd n b) + k * (n + k : ℕ) * ε := by
  refine (C116_ridge h hf).trans ?_
  have hb : ∀ b, ∫ x, (∑ i, V2 i b * df x i) ^ 2 ∂normal (n + k) ≤ e (Fin.natAdd n b) + (n + k : ℕ) * ε := fun b => by
    rw [meanOuter_form hf.cont hf.growth fun i => V2 i b, ← eig_form he (Fin.natAdd n b)]
    simp only [Np.hstack_natAdd]
    exact form_close hε _ ((h.orth22 b b).trans (if_pos rfl))
  refine (Finset.sum_le_sum fun b _ => hb b).trans_eq ?_
  rw [Finset.sum_add_distrib, Finset.sum_const, Finset.card_univ, Fintype.card_fin, nsmul_eq_mul]
  ring

theorem compute_error {lib : Model.Subspaces.Lib} (hl : SubLibOK lib) (rng : Rng S) (hm : 2 ≤ m) (hM : 0 < M) {f : (Fin m → ℝ) → ℝ}
    {df : (Fin m → ℝ) → Fin m → ℝ} (hf : Smooth f df) (X : Matrix (Fin M) (Fin m) ℝ) (wt : Option (Fin M → ℝ))
    (hw : ∀ i, 0 ≤ weightsOf wt i) {ε : ℝ}
    (hε : ∀ i j, |∑ l, weightsOf wt l * (df (X l) i * df (X l) j) - ∫ x, df x i * df x j ∂(Measure.pi fun _ : Fin m => gaussianReal 0 1)| ≤ ε)
    (w : S × Subspaces) :
    ∃ (n : ℕ) (V1 : Matrix (Fin m) (Fin n) ℝ) (e : Fin m → ℝ) (g : (Fin n → ℝ) → ℝ) (w' : S × Subspaces), 1 ≤ n ∧ n ≤ m ∧
      (compute lib rng none none (some (.mat (NpMat.of (Matrix.of fun l => df (X l))))) (wt.map wcol) "AS" "EVG" 0).run w = (.ok (), w') ∧
      w'.2.eigenvals = some (NpVec.of e) ∧ w'.2.W1 = some (NpMat.of V1) ∧
      Measurable g ∧ Integrable (fun x => (f x - g (V1.transpose.mulVec x)) ^ 2) (Measure.pi fun _ : Fin m => gaussianReal 0 1) ∧
      ∫ x, (f x - g (V1.transpose.mulVec x)) ^ 2 ∂(Measure.pi fun _ : Fin m => gaussianReal 0 1)
        ≤ (∑ j : Fin m, if n ≤ (j : ℕ) then e j else 0) + (m - n : ℕ) * m * ε := by
  obtain ⟨e, V, h1, h2⟩ := C34_posSemidef lib hl (by omega) _ (gradOuter_posSemidef (Matrix.of fun l => df (X l)) (weightsOf wt) hw)
  obtain ⟨e', V', w', hp, hc, hsplit, he', hV', -, -, -⟩ := compute_ok hl rng hm hM none none (some (Matrix.of fun l => df (X l))) wt
    (.inr (by simp)) "AS" "EVG" .AS rfl 0 w w ⟨m, e, V⟩ (by
      change (active_subspace lib (.mat (NpMat.of (Matrix.of fun l => df (X l)))) (wcol (weightsOf wt)), w) = _
      rw [active_subspace_eq, h1]) (fun h => absurd h (lt_irrefl _)) (.inl rfl)
  cases hp
  obtain ⟨n, k, V1, V2, hn, hs⟩ := split_of_isSplit hsplit fun m' V' h => by
    rw [hV'] at h
    cases h
    ext a b
    rw [Matrix.mul_apply, Matrix.one_apply]
    exact h2.orth a b
  have hm' : m = n + k := by
    have := hV'.symm.trans hs.eig
    have := congrArg NpMat.rows (Option.some.inj this)
    exact this
  subst hm'
  have hVs : V = Np.hstack V1 V2 := by
    have := hV'.symm.trans hs.eig
    cases this
    rfl
  refine ⟨n, V1, e, condMean f V1 V2, w', hn, by omega, hc, he', hs.w1, (condMean_measurable hf.continuous).measurable, C116_integrable hs hf, ?_⟩
  refine (C116_perturbed hs hf (hVs ▸ h2) hε).trans_eq ?_
  congr 1
  · rw [Fin.sum_univ_add]
    have h0 : ∀ i : Fin n, (if n ≤ ((Fin.castAdd k i : Fin (n + k)) : ℕ) then e (Fin.castAdd k i) else 0) = 0 := fun i => if_neg (by simp)
    rw [Finset.sum_eq_zero fun i _ => h0 i, zero_add]
    exact Finset.sum_congr rfl fun b _ => (if_pos (by simp)).symm
  · rw [Nat.add_sub_cancel_left]

/-- C116: `compute` with gradients as data: whatever dimension is chosen, there is a function of the active variables whose mean square error is
at most the sum of the eigenvalues left out, up to the error of the samples in the matrix `∫ ∇f ∇fᵀ`. -/
theorem C116_compute {lib : Model.Subspaces.Lib} (hl : SubLibOK lib) (rng : Rng S) (hm : 2 ≤ m) (hM : 0 < M) {f : (Fin m → ℝ) → ℝ}
    {df : (Fin m → ℝ) → Fin m → ℝ} (hf : Smooth f df) (X : Matrix (Fin M) (Fin m) ℝ) (wt : Fin M → ℝ) (hw : ∀ i, 0 ≤ wt i) {ε : ℝ}
    (hε : ∀ i j, |∑ l, wt l * (df (X l) i * df (X l) j) - ∫ x, df x i * df x j ∂(Measure.pi fun _ : Fin m => gaussianReal 0 1)| ≤ ε)
    (w : S × Subspaces) :
    ∃ (n : ℕ) (V1 : Matrix (Fin m) (Fin n) ℝ) (e : Fin m → ℝ) (g : (Fin n → ℝ) → ℝ) (w' : S × Subspaces), 1 ≤ n ∧ n ≤ m ∧
      (compute lib rng none none (some (.mat (NpMat.of (Matrix.of fun l => df (X l))))) (some (NpMat.of (Matrix.of fun l (_ : Fin 1) => wt l)))
        "AS" "EVG" 0).run w = (.ok (), w') ∧
      w'.2.eigenvals = some (NpVec.of e) ∧ w'.2.W1 = some (NpMat.of V1) ∧
      Measurable g ∧ Integrable (fun x => (f x - g (V1.transpose.mulVec x)) ^ 2) (Measure.pi fun _ : Fin m => gaussianReal 0 1) ∧
      ∫ x, (f x - g (V1.transpose.mulVec x)) ^ 2 ∂(Measure.pi fun _ : Fin m => gaussianReal 0 1)
        ≤ (∑ j : Fin m, if n ≤ (j : ℕ) then e j else 0) + (m - n : ℕ) * m * ε := by
  exact compute_error hl rng hm hM hf X (some wt) hw hε w

theorem sample_of_law {μ : Measure Ω} {f : (Fin m → ℝ) → ℝ} {df : (Fin m → ℝ) → Fin m → ℝ} (hf : Smooth f df) {x : ℕ → Ω → Fin m → ℝ}
    (hx : Pairwise fun i j => IndepFun (x i) (x j) μ) (hlaw : ∀ i, HasLaw (x i) (normal m) μ) : IsSample μ fun i ω => df (x i ω) := by
  have hc : Continuous df := continuous_pi hf.cont
  refine ⟨fun k => ?_, fun i j hij => (hx hij).comp hc.measurable hc.measurable, fun i => ?_⟩
  · have : MemLp (fun y => df y k) 2 (normal m) :=
      (memLp_two_iff_integrable_sq (hf.cont k).aestronglyMeasurable).mpr ((sq_growth (hf.growth k)).integrable ((hf.cont k).pow 2) _)
    rw [← (hlaw 0).map_eq] at this
    exact this.comp_of_map (hlaw 0).aemeasurable
  · exact (IdentDistrib.mk (hlaw i).aemeasurable (hlaw 0).aemeasurable ((hlaw i).map_eq.trans (hlaw 0).map_eq.symm)).comp hc.measurable

/-- C116: for gradients at independent standard normal points without weights, almost surely for every large sample the function of the
active variables found by `compute` has mean square error at most the sum of the computed eigenvalues left out plus `ε`. -/
theorem C116_monte_carlo {μ : Measure Ω} {lib : Model.Subspaces.Lib} (hl : SubLibOK lib) (rng : Rng S) (hm : 2 ≤ m) {f : (Fin m → ℝ) → ℝ}
    {df : (Fin m → ℝ) → Fin m → ℝ} (hf : Smooth f df) {x : ℕ → Ω → Fin m → ℝ} (hx : Pairwise fun i j => IndepFun (x i) (x j) μ)
    (hlaw : ∀ i, HasLaw (x i) (Measure.pi fun _ : Fin m => gaussianReal 0 1) μ) :
    ∀ᵐ ω ∂μ, ∀ ε : ℝ, 0 < ε → ∀ᶠ M : ℕ in Filter.atTop, ∀ w : S × Subspaces,
      ∃ (n : ℕ) (V1 : Matrix (Fin m) (Fin n) ℝ) (e : Fin m → ℝ) (g : (Fin n → ℝ) → ℝ) (w' : S × Subspaces), 1 ≤ n ∧ n ≤ m ∧
        (compute lib rng none none (some (.mat (NpMat.of (Matrix.of fun l : Fin M => df (x l ω))))) none "AS" "EVG" 0).run w = (.ok (), w') ∧
        w'.2.eigenvals = some (NpVec.of e) ∧ w'.2.W1 = some (NpMat.of V1) ∧
        Measurable g ∧ Integrable (fun x => (f x - g (V1.transpose.mulVec x)) ^ 2) (Measure.pi fun _ : Fin m => gaussianReal 0 1) ∧
        ∫ x, (f x - g (V1.transpose.mulVec x)) ^ 2 ∂(Measure.pi fun _ : Fin m => gaussianReal 0 1)
          ≤ (∑ j : Fin m, if n ≤ (j : ℕ) then e j else 0) + ε := by
  filter_upwards [sample_law (sample_of_law hf hx hlaw)] with ω hω ε hε
  have hm0 : (0 : ℝ) < m := by exact_mod_cast (by omega : 0 < m)
  have hδ : 0 < ε / (m * m) := by positivity
  have hev : ∀ᶠ M : ℕ in Filter.atTop, ∀ i j, |gradOuter (rowsOf (fun i ω => df (x i ω)) M ω) (fun _ => 1 / (M : ℝ)) i j
      - secondMoment μ (fun ω => df (x 0 ω)) i j| < ε / (m * m) := by
    rw [Filter.eventually_all]
    intro i
    rw [Filter.eventually_all]
    intro j
    exact (Metric.tendsto_nhds.mp (hω i j) _ hδ)
  filter_upwards [hev, Filter.eventually_gt_atTop 0] with M hM hM0 w
  obtain ⟨n, V1, e, g, w', a1, a2, a3, a4, a5, g1, g2, a6⟩ := compute_error hl rng hm hM0 hf (Matrix.of fun (l : Fin M) => x l ω) none
    (fun i => by simp only [weightsOf, Option.getD_none]; positivity) (ε := ε / (m * m)) (fun i j => by
      have h1 := (hM i j).le
      have h2 : secondMoment μ (fun ω => df (x 0 ω)) i j = ∫ x, df x i * df x j ∂(normal m) :=
        (hlaw 0).integral_comp (f := fun y => df y i * df y j) ((hf.cont i).mul (hf.cont j)).aestronglyMeasurable
      rw [h2] at h1
      exact h1) w
  refine ⟨n, V1, e, g, w', a1, a2, a3, a4, a5, g1, g2, a6.trans (add_le_add_right ?_ _)⟩
  have h3 : ((m - n : ℕ) : ℝ) ≤ m := by exact_mod_cast Nat.sub_le m n
  calc ((m - n : ℕ) : ℝ) * m * (ε / (m * m)) ≤ m * m * (ε / (m * m)) := by gcongr
    _ = ε := by field_simp

/-! ## Polynomials -/

theorem pderiv_sum (P : MvPolynomial (Fin m) ℝ) (i : Fin m) :
    MvPolynomial.pderiv i P = ∑ s ∈ P.support, MvPolynomial.monomial (s - Finsupp.single i 1) (MvPolynomial.coeff s P * s i) := by
  conv_lhs => rw [P.as_sum, map_sum]
  exact Finset.sum_congr rfl fun s _ => MvPolynomial.pderiv_monomial

theorem degreeOf_pderiv (P : MvPolynomial (Fin m) ℝ) (i j : Fin m) : (MvPolynomial.pderiv i P).degreeOf j ≤ P.degreeOf j := by
  rw [pderiv_sum]
  refine (MvPolynomial.degreeOf_sum_le _ _ _).trans (Finset.sup_le fun s hs => ?_)
  refine le_trans ?_ (MvPolynomial.monomial_le_degreeOf j hs)
  rcases eq_or_ne (MvPolynomial.coeff s P * (s i : ℝ)) 0 with h0 | h0
  · rw [h0, map_zero, MvPolynomial.degreeOf_zero]
    exact Nat.zero_le _
  · rw [MvPolynomial.degreeOf_monomial_eq _ _ h0]
    simp

theorem totalDegree_pderiv (P : MvPolynomial (Fin m) ℝ) (i : Fin m) : (MvPolynomial.pderiv i P).totalDegree ≤ P.totalDegree - 1 := by
  rw [pderiv_sum]
  refine MvPolynomial.totalDegree_finsetSum_le fun s hs => ?_
  have h1 := MvPolynomial.le_totalDegree hs
  rcases Nat.eq_zero_or_pos (s i) with h0 | h0
  · rw [h0, Nat.cast_zero, mul_zero, map_zero, MvPolynomial.totalDegree_zero]
    exact Nat.zero_le _
  · refine (MvPolynomial.totalDegree_monomial_le _ _).trans ?_
    have e : s = (s - Finsupp.single i 1) + Finsupp.single i 1 := by
      ext j
      simp only [Finsupp.add_apply, Finsupp.tsub_apply, Finsupp.single_apply]
      split_ifs with h
      · subst h; omega
      · omega
    have e2 : (s.sum fun _ c => c) = ((s - Finsupp.single i 1).sum fun _ c => c) + 1 := by
      conv_lhs => rw [e]
      rw [Finsupp.sum_add_index' (fun _ => rfl) fun _ _ _ => rfl]
      simp
    have e3 : ((s - Finsupp.single i 1).sum fun _ => id) = (s - Finsupp.single i 1).sum fun _ c => c := rfl
    omega

theorem poly_growth (P : MvPolynomial (Fin m) ℝ) : PolyGrowth fun x => MvPolynomial.eval x P := by
  induction P using MvPolynomial.induction_on with
  | C a => simpa using PolyGrowth.const a
  | add p q hp hq => simpa using hp.add hq
  | mul_X p i hp =>
    have hx : PolyGrowth fun x : Fin m → ℝ => x i := ⟨1, 1, fun x => by
      have := norm_le_pi_norm x i
      rw [Real.norm_eq_abs] at this
      linarith⟩
    simpa using hp.mul hx

theorem poly_smooth (P : MvPolynomial (Fin m) ℝ) : Smooth (fun x => MvPolynomial.eval x P) fun x i => MvPolynomial.eval x (MvPolynomial.pderiv i P) :=
  ⟨Proofs.PolyApprox.hasFDerivAt_eval P, fun i => continuous_iff_continuousAt.mpr fun x =>
    (Proofs.PolyApprox.hasFDerivAt_eval (MvPolynomial.pderiv i P) x).continuousAt, fun _ => poly_growth _⟩

/-- C116: for a polynomial of degree less than `N_j` in variable `j` and gradients at the nodes of the Gauss-Hermite rule with `N_j` nodes, with
its weights, the error is at most the sum of the eigenvalues left out by `compute`. -/
theorem C116_gauss {lib : Model.Subspaces.Lib} (hl : SubLibOK lib) {qlib : Model.Quadrature.Lib} (hq : Proofs.Quadrature.LibOK qlib) (rng : Rng S)
    (hm : 2 ≤ m) (ns : Fin m → ℕ) (hns : ∀ j, 1 ≤ ns j ∧ ns j ≤ 10 ^ 11) {r : Rule}
    (hr : gauss_hermite qlib (.list (List.ofFn fun j => .int (ns j))) = .ok r) (P : MvPolynomial (Fin m) ℝ) (hP : ∀ j, P.degreeOf j < ns j)
    (w : S × Subspaces) :
    ∃ (n : ℕ) (V1 : Matrix (Fin m) (Fin n) ℝ) (e : Fin m → ℝ) (g : (Fin n → ℝ) → ℝ) (w' : S × Subspaces), 1 ≤ n ∧ n ≤ m ∧
      (compute lib rng none none (some (.mat (NpMat.of (Matrix.of fun (l : Fin r.x.rows) i =>
        MvPolynomial.eval (fun j : Fin m => r.x.get l j) (MvPolynomial.pderiv i P)))))
        (some (NpMat.of (Matrix.of fun (l : Fin r.x.rows) (_ : Fin 1) => r.w.get l 0))) "AS" "EVG" 0).run w = (.ok (), w') ∧
      w'.2.eigenvals = some (NpVec.of e) ∧ w'.2.W1 = some (NpMat.of V1) ∧
      Measurable g ∧ Integrable (fun x => (MvPolynomial.eval x P - g (V1.transpose.mulVec x)) ^ 2) (Measure.pi fun _ : Fin m => gaussianReal 0 1) ∧
      ∫ x, (MvPolynomial.eval x P - g (V1.transpose.mulVec x)) ^ 2 ∂(Measure.pi fun _ : Fin m => gaussianReal 0 1)
        ≤ ∑ j : Fin m, if n ≤ (j : ℕ) then e j else 0 := by
  obtain ⟨h1, -, h3, -⟩ := C24_weights hq (List.ofFn fun j => (ns j : ℤ)) (r := r) (.inl (by rw [List.map_ofFn]; exact hr))
  have hM : 0 < r.x.rows := by
    rw [h1, List.map_ofFn, List.prod_ofFn]
    exact Finset.prod_pos fun j _ => by simp
  obtain ⟨n, V1, e, g, w', a1, a2, a3, a4, a5, g1, g2, a6⟩ := C116_compute hl rng hm hM (poly_smooth P) (Matrix.of fun (l : Fin r.x.rows) (j : Fin m) => r.x.get l j)
    (fun l => r.w.get l 0) (fun l => (h3 l).le) (ε := 0) (fun i j => by
      have hex := C24_hermite_exact hq ns hns hr (MvPolynomial.pderiv i P * MvPolynomial.pderiv j P) fun l => by
        refine (MvPolynomial.degreeOf_mul_le _ _ _).trans ?_
        have q1 := degreeOf_pderiv P i l
        have q2 := degreeOf_pderiv P j l
        have q3 := hP l
        omega
      simp only [map_mul] at hex
      refine le_of_eq (abs_eq_zero.mpr (sub_eq_zero.mpr ?_))
      exact hex) w
  refine ⟨n, V1, e, g, w', a1, a2, a3, a4, a5, g1, g2, a6.trans_eq ?_⟩
  rw [mul_zero, add_zero]

/-! ## The integral estimate -/

section law

variable {μ : Measure Ω} {a : AVMap S E} {rng : Rng S} {st : Ω → S} {F : Files × E} {lib : Model.Integrals.Lib} {N : ℤ} {Yp : Matrix (Fin G) (Fin n) ℝ}
  {Yw : Fin G → ℝ} {mu lb ub : Ω → ℝ}

/-- C116: `integrate` on an unbounded domain, for polynomials of degree at most the number `q` of nodes in each active variable: the mean square
error of the estimate is at most the sum of the eigenvalues left out, over the number of points for each node. -/
theorem C116_integral (h : Split a.subspaces V1 V2) (hz : a.regularize_z = fun Y N => unboundedZ rng a.subspaces Y N) (hd : a.dom = .unbounded)
    (hn : 1 ≤ n) (hq : Proofs.Quadrature.LibOK lib.base.quad) (hN : 1 ≤ N) (hs : (n : ℤ) * 2 ^ n * N ≤ 2 ^ 45)
    (hroot : DoubleRoot N n (lib.base.root N n)) (hT : 0 < T) [IsProbabilityMeasure μ] (hD : StdNormal μ fun ω => (rng.normal (G * k) T (st ω)).1)
    (hr : ∀ ω, (av_quadrature_rule lib rng a N).run (st ω, F)
      = (.ok ⟨NpMat.of Yp, NpMat.of (Matrix.of fun i (_ : Fin 1) => Yw i)⟩, (st ω, F)))
    {q : ℕ} (hqG : q ^ n = G) (hq3 : q ≤ 10 ^ 11) (P : MvPolynomial (Fin (n + k)) ℝ) (hP : P.totalDegree ≤ q)
    {g : (m : ℕ) → (Fin m → ℝ) → ℝ} (hg : ∀ x, g (n + k) x = MvPolynomial.eval x P) {e : Fin (n + k) → ℝ}
    (he : IsSortedEigh (Matrix.of fun i j => ∫ x, MvPolynomial.eval x (MvPolynomial.pderiv i P) * MvPolynomial.eval x (MvPolynomial.pderiv j P)
      ∂(Measure.pi fun _ : Fin (n + k) => gaussianReal 0 1)) e (Np.hstack V1 V2))
    (hrun : ∀ ω, ∃ w', (integrate lib rng (fun m x => pure (g m x)) (some a) (.int N) (.int T)).run (st ω, F)
      = (.ok (some (mu ω, lb ω, ub ω)), w')) :
    MemLp mu 2 μ ∧
      ∫ ω, (mu ω - ∫ x, MvPolynomial.eval x P ∂(Measure.pi fun _ : Fin (n + k) => gaussianReal 0 1)) ^ 2 ∂μ ≤ (∑ b, e (Fin.natAdd n b)) / T := by
  have hne : Nonempty Ω := μ.nonempty_of_neZero
  obtain ⟨ω⟩ := id hne
  obtain ⟨-, q', h1, -, -, -, h2, -, h3, h4, -⟩ := C60_rule_partial hd h.w1 hn hq rng hN hs hroot (hr ω)
  have h2' : G = q' ^ n := h2
  obtain rfl : q' = q := Nat.pow_left_injective (by omega : n ≠ 0) (h2'.symm.trans hqG.symm)
  have hG : 0 < G := by
    rw [h2']
    exact Nat.pow_pos h1
  have ew : ∀ i : Fin G, (NpMat.of (Matrix.of fun i (_ : Fin 1) => Yw i)).get i 0 = Yw i := fun i => NpMat.get_of _ i 0
  have hw0 : ∀ i, 0 < Yw i := fun i => (h3 i).trans_eq (ew i)
  have hw1 : ∑ i, Yw i = 1 := by
    rw [← h4]
    exact Finset.sum_congr (s₁ := (Finset.univ : Finset (Fin G))) rfl fun i _ => (ew i).symm
  have hwle : ∀ i, Yw i ≤ 1 := fun i => by
    rw [← hw1]
    exact Finset.single_le_sum (fun j _ => (hw0 j).le) (Finset.mem_univ i)
  have hsm := poly_smooth P
  have hgf : g (n + k) = fun x => MvPolynomial.eval x P := funext hg
  have hmem : ∀ i, MemLp (fun z => g (n + k) (V1.mulVec (Yp i) + V2.mulVec z)) 2 (normal k) := fun i => by
    rw [hgf]
    exact smooth_memLp (smooth_affine hsm (V1.mulVec (Yp i)) V2)
  have hmean := C111_polynomial h hz hd hn hq hN hs hroot hT hD hr hqG hq3 P (by omega) hg hrun
  have hvar := C111_variance h hz hG hT hD hr hmem hrun
  have hint := (C111_unbiased h hz hG hT hD hr (fun i => (hmem i).integrable (by norm_num)) hrun).1
  refine ⟨C111_square h hz hG hT hD hr hmem hrun, ?_⟩
  rw [← hmean, ← variance_eq_integral hint.aestronglyMeasurable.aemeasurable, hvar]
  refine div_le_div_of_nonneg_right ?_ (Nat.cast_nonneg T)
  -- the rule is exact for the mean squared derivatives
  let Q : Fin k → MvPolynomial (Fin (n + k)) ℝ := fun b => (∑ i, MvPolynomial.C (V2 i b) * MvPolynomial.pderiv i P) ^ 2
  have hQ : ∀ b x, MvPolynomial.eval x (Q b) = (∑ i, V2 i b * MvPolynomial.eval x (MvPolynomial.pderiv i P)) ^ 2 := fun b x => by simp [Q]
  have hQd : ∀ b, (Q b).totalDegree ≤ 2 * q' - 1 := fun b => by
    refine (MvPolynomial.totalDegree_pow _ _).trans ?_
    have : (∑ i, MvPolynomial.C (V2 i b) * MvPolynomial.pderiv i P).totalDegree ≤ q' - 1 :=
      MvPolynomial.totalDegree_finsetSum_le fun i _ => (MvPolynomial.totalDegree_mul _ _).trans (by
        rw [MvPolynomial.totalDegree_C]
        have := totalDegree_pderiv P i
        omega)
    omega
  have hQi : ∀ b, ∑ i, Yw i * ∫ z, MvPolynomial.eval (V1.mulVec (Yp i) + V2.mulVec z) (Q b) ∂(normal k) = ∫ x, MvPolynomial.eval x (Q b) ∂normal (n + k) := by
    intro b
    let gb : (m : ℕ) → (Fin m → ℝ) → ℝ := fun m x => if hm : m = n + k then MvPolynomial.eval (fun i => x (Fin.cast hm.symm i)) (Q b) else 0
    have hgb : ∀ x, gb (n + k) x = MvPolynomial.eval x (Q b) := fun x => dif_pos rfl
    obtain ⟨mu', lb', ub', hrun'⟩ := C111_returns h hz hG hT hr gb
    have q1 := C111_polynomial h hz hd hn hq hN hs hroot hT hD hr hqG hq3 (Q b) (hQd b) hgb hrun'
    have q2 := (C111_unbiased h hz hG hT hD hr (fun i => by
      simp only [hgb]
      exact (smooth_memLp (smooth_affine (poly_smooth (Q b)) (V1.mulVec (Yp i)) V2)).integrable (by norm_num)) hrun').2
    simp only [hgb] at q2
    exact q2.symm.trans q1
  have hb : ∀ b, ∫ x, MvPolynomial.eval x (Q b) ∂normal (n + k) = e (Fin.natAdd n b) := fun b => by
    simp only [hQ]
    rw [meanOuter_form hsm.cont hsm.growth fun i => V2 i b, ← eig_form he (Fin.natAdd n b)]
    simp only [Np.hstack_natAdd]
    rfl
  calc ∑ i, Yw i ^ 2 * Var[fun z => g (n + k) (V1.mulVec (Yp i) + V2.mulVec z); normal k]
      ≤ ∑ i, Yw i * ∑ b, ∫ z, MvPolynomial.eval (V1.mulVec (Yp i) + V2.mulVec z) (Q b) ∂(normal k) := by
        refine Finset.sum_le_sum fun i _ => ?_
        have hv : Var[fun z => g (n + k) (V1.mulVec (Yp i) + V2.mulVec z); normal k]
            ≤ ∑ b, ∫ z, MvPolynomial.eval (V1.mulVec (Yp i) + V2.mulVec z) (Q b) ∂(normal k) := by
          rw [hgf]
          simp only [hQ]
          exact C116_conditional hsm (Yp i)
        refine mul_le_mul ?_ hv (variance_nonneg _ _) (hw0 i).le
        nlinarith [hw0 i, hwle i]
    _ = ∑ b, ∑ i, Yw i * ∫ z, MvPolynomial.eval (V1.mulVec (Yp i) + V2.mulVec z) (Q b) ∂(normal k) := by
        simp only [Finset.mul_sum]
        exact Finset.sum_comm
    _ = ∑ b, e (Fin.natAdd n b) := Finset.sum_congr rfl fun b _ => (hQi b).trans (hb b)

end law

/-! ## The hypotheses can be met -/

/-- The polynomial `x² + y`. -/
noncomputable def sampleP : MvPolynomial (Fin (1 + 1)) ℝ := MvPolynomial.X 0 ^ 2 + MvPolynomial.X 1

theorem sampleP_eval (x : Fin (1 + 1) → ℝ) : MvPolynomial.eval x sampleP = x 0 ^ 2 + x 1 := by
  simp [sampleP]

theorem sampleP_grad (x : Fin (1 + 1) → ℝ) (i : Fin (1 + 1)) :
    MvPolynomial.eval x (MvPolynomial.pderiv i sampleP) = if i = 0 then 2 * x 0 else 1 := by
  revert i
  refine Fin.forall_fin_two.mpr ⟨?_, ?_⟩ <;> simp [sampleP, MvPolynomial.pderiv_X, Pi.single_apply]

theorem integral_coord (i : Fin (1 + 1)) : ∫ x, x i ∂(Measure.pi fun _ : Fin (1 + 1) => gaussianReal 0 1) = 0 := by
  have hp := measurePreserving_eval (fun _ : Fin (1 + 1) => gaussianReal 0 1) i
  exact (hp.hasLaw.integral_comp (f := fun x => x) (by fun_prop)).trans integral_id_gaussianReal

theorem integral_coord_sq (i : Fin (1 + 1)) : ∫ x, x i ^ 2 ∂(Measure.pi fun _ : Fin (1 + 1) => gaussianReal 0 1) = 1 := by
  have hp := measurePreserving_eval (fun _ : Fin (1 + 1) => gaussianReal 0 1) i
  have h1 := variance_fun_id_gaussianReal (μ := 0) (v := 1)
  rw [variance_eq_integral (by fun_prop), integral_id_gaussianReal] at h1
  simp only [sub_zero] at h1
  exact (hp.hasLaw.integral_comp (f := fun x => x ^ 2) (by fun_prop)).trans (by simpa using h1)

theorem sampleP_eigh : IsSortedEigh (Matrix.of fun i j => ∫ x, MvPolynomial.eval x (MvPolynomial.pderiv i sampleP)
      * MvPolynomial.eval x (MvPolynomial.pderiv j sampleP) ∂(Measure.pi fun _ : Fin (1 + 1) => gaussianReal 0 1)) ![4, 1]
    (Np.hstack (Matrix.of fun (i : Fin (1 + 1)) (_ : Fin 1) => if i = 0 then 1 else 0)
      (Matrix.of fun (i : Fin (1 + 1)) (_ : Fin 1) => if i = 1 then 1 else 0)) := by
  have hV : Np.hstack (Matrix.of fun (i : Fin (1 + 1)) (_ : Fin 1) => if i = 0 then (1 : ℝ) else 0)
      (Matrix.of fun (i : Fin (1 + 1)) (_ : Fin 1) => if i = 1 then 1 else 0) = 1 := by
    ext i j
    revert i j
    refine Fin.forall_fin_two.mpr ⟨Fin.forall_fin_two.mpr ⟨?_, ?_⟩, Fin.forall_fin_two.mpr ⟨?_, ?_⟩⟩ <;>
      simp [Np.hstack, Matrix.one_apply, Fin.append, Fin.addCases]
  have hC : (Matrix.of fun i j => ∫ x, MvPolynomial.eval x (MvPolynomial.pderiv i sampleP)
      * MvPolynomial.eval x (MvPolynomial.pderiv j sampleP) ∂(Measure.pi fun _ : Fin (1 + 1) => gaussianReal 0 1)) = Matrix.diagonal ![4, 1] := by
    have e : ∀ x : Fin (1 + 1) → ℝ, 2 * x 0 * (2 * x 0) = 4 * x 0 ^ 2 := fun x => by ring
    ext i j
    revert i j
    refine Fin.forall_fin_two.mpr ⟨Fin.forall_fin_two.mpr ⟨?_, ?_⟩, Fin.forall_fin_two.mpr ⟨?_, ?_⟩⟩ <;>
      simp [sampleP_grad, e, integral_const_mul, integral_coord, integral_coord_sq]
  rw [hV, hC]
  refine ⟨fun j => ?_, fun j k => ?_, fun j => ?_, ?_, fun i j _ => ?_⟩
  · ext i
    revert i j
    refine Fin.forall_fin_two.mpr ⟨Fin.forall_fin_two.mpr ⟨?_, ?_⟩, Fin.forall_fin_two.mpr ⟨?_, ?_⟩⟩ <;> simp [Matrix.mulVec, dotProduct]
  · have := congrFun (congrFun (Matrix.one_mul (1 : Matrix (Fin (1 + 1)) (Fin (1 + 1)) ℝ)) j) k
    rw [Matrix.mul_apply, Matrix.one_apply] at this
    rw [← this]
    exact Finset.sum_congr rfl fun i _ => by rw [Matrix.one_apply, Matrix.one_apply, Matrix.one_apply]; simp only [eq_comm]
  · revert j
    refine Fin.forall_fin_two.mpr ⟨?_, ?_⟩ <;> norm_num
  · intro a b
    revert a b
    refine Fin.forall_fin_two.mpr ⟨Fin.forall_fin_two.mpr ⟨?_, ?_⟩, Fin.forall_fin_two.mpr ⟨?_, ?_⟩⟩ <;> intro hab <;>
      first | exact absurd hab (by decide) | norm_num
  · rw [Matrix.one_apply]
    split_ifs <;> norm_num

/-- C116: for `x² + y` with `x` active, the bound is attained: both sides are 1. -/
example : Split toySubspaces (Matrix.of fun (i : Fin (1 + 1)) (_ : Fin 1) => if i = 0 then 1 else 0)
      (Matrix.of fun (i : Fin (1 + 1)) (_ : Fin 1) => if i = 1 then 1 else 0) ∧
    Smooth (fun x => MvPolynomial.eval x sampleP) (fun x i => MvPolynomial.eval x (MvPolynomial.pderiv i sampleP)) ∧
    (∑ b : Fin 1, (![4, 1] : Fin (1 + 1) → ℝ) (Fin.natAdd 1 b)) = 1 ∧
    ∫ x, (MvPolynomial.eval x sampleP - condMean (fun x => MvPolynomial.eval x sampleP)
        (Matrix.of fun (i : Fin (1 + 1)) (_ : Fin 1) => if i = 0 then 1 else 0) (Matrix.of fun (i : Fin (1 + 1)) (_ : Fin 1) => if i = 1 then 1 else 0)
        ((Matrix.of fun (i : Fin (1 + 1)) (_ : Fin 1) => if i = 0 then (1 : ℝ) else 0).transpose.mulVec x)) ^ 2
      ∂(Measure.pi fun _ : Fin (1 + 1) => gaussianReal 0 1) = 1 := by
  refine ⟨toySplit, poly_smooth _, by simp, ?_⟩
  have h1 : ∀ y : Fin 1 → ℝ, condMean (fun x => MvPolynomial.eval x sampleP)
      (Matrix.of fun (i : Fin (1 + 1)) (_ : Fin 1) => if i = 0 then 1 else 0)
      (Matrix.of fun (i : Fin (1 + 1)) (_ : Fin 1) => if i = 1 then 1 else 0) y = y 0 ^ 2 := fun y => by
    have hp := measurePreserving_eval (fun _ : Fin 1 => gaussianReal 0 1) 0
    have h0 : ∫ z : Fin 1 → ℝ, z 0 ∂(Measure.pi fun _ : Fin 1 => gaussianReal 0 1) = 0 :=
      (hp.hasLaw.integral_comp (f := fun x => x) (by fun_prop)).trans integral_id_gaussianReal
    have hi : Integrable (fun z : Fin 1 → ℝ => z 0) (Measure.pi fun _ : Fin 1 => gaussianReal 0 1) :=
      ((memLp_id_gaussianReal' 1 (by simp)).comp_measurePreserving hp).integrable le_rfl
    have e : ∀ z : Fin 1 → ℝ, MvPolynomial.eval ((Matrix.of fun (i : Fin (1 + 1)) (_ : Fin 1) => if i = 0 then (1 : ℝ) else 0).mulVec y
        + (Matrix.of fun (i : Fin (1 + 1)) (_ : Fin 1) => if i = 1 then (1 : ℝ) else 0).mulVec z) sampleP = y 0 ^ 2 + z 0 := fun z => by
      rw [sampleP_eval]
      simp [Matrix.mulVec, dotProduct]
    unfold condMean
    simp only [e]
    rw [integral_add (integrable_const _) hi, h0]
    simp
  refine Eq.trans (integral_congr_ae (.of_forall fun x => ?_)) (integral_coord_sq 1)
  beta_reduce
  rw [h1, sampleP_eval]
  simp [Matrix.mulVec, dotProduct, Matrix.transpose_apply]

theorem sampleP_degree : sampleP.totalDegree ≤ 2 := by
  refine (MvPolynomial.totalDegree_add _ _).trans (max_le ((MvPolynomial.totalDegree_pow _ _).trans ?_) ?_) <;> simp

/-- C116: `compute` with the gradients of `x² + y` at the nodes of the tensor rule with three nodes in each variable. -/
example {qlib : Model.Quadrature.Lib} (heig : ∀ {n : ℕ} (A : Matrix (Fin n) (Fin n) ℝ), A.transpose = A → ∃ eV, qlib.eig A = .ok eV) :
    (∃ r, gauss_hermite qlib (.list (List.ofFn fun _ : Fin (1 + 1) => .int (3 : ℕ))) = .ok r) ∧ ∀ j, sampleP.degreeOf j < 3 := by
  refine ⟨?_, fun j => lt_of_le_of_lt (MvPolynomial.degreeOf_le_totalDegree _ j) (lt_of_le_of_lt sampleP_degree (by norm_num))⟩
  exact ((C24_cases qlib).2.2.2.2.2 heig [3, 3]).1

/-- C116: independent standard normal points. -/
example : (Pairwise fun i j => IndepFun (fun ω : ℕ → Fin 2 → ℝ => ω i) (fun ω => ω j) (Measure.infinitePi fun _ : ℕ => normal 2)) ∧
    ∀ i, HasLaw (fun ω : ℕ → Fin 2 → ℝ => ω i) (Measure.pi fun _ : Fin 2 => gaussianReal 0 1) (Measure.infinitePi fun _ : ℕ => normal 2) :=
  ⟨fun _ _ hij => (iIndepFun_infinitePi (P := fun _ : ℕ => normal 2) (X := fun _ x => x) fun _ => measurable_id).indepFun hij,
    fun i => (measurePreserving_eval_infinitePi (fun _ : ℕ => normal 2) i).hasLaw⟩

/-- C116: `integrate` with three nodes in `x` and two points for each: the mean square error for `x² + y` is at most 1/2. -/
example {lib : Model.Integrals.Lib} (hq : Proofs.Quadrature.LibOK lib.base.quad)
    (heig : ∀ {n : ℕ} (A : Matrix (Fin n) (Fin n) ℝ), A.transpose = A → ∃ eV, lib.base.quad.eig A = .ok eV)
    (hroot : DoubleRoot 3 1 (lib.base.root 3 1)) (F : Files × E) : ∃ mu lb ub : (ℕ → ℝ) → ℝ,
      (∀ ω, ∃ w', (integrate lib streamRng (fun m x => pure (if h : m = 1 + 1 then MvPolynomial.eval (h ▸ x) sampleP else 0)) (some (normalMap E))
        (.int 3) (.int (2 : ℕ))).run (ω, F) = (.ok (some (mu ω, lb ω, ub ω)), w')) ∧
      ∫ ω, (mu ω - ∫ x, MvPolynomial.eval x sampleP ∂(Measure.pi fun _ : Fin (1 + 1) => gaussianReal 0 1)) ^ 2
        ∂(Measure.infinitePi fun _ : ℕ => gaussianReal 0 1) ≤ 1 / 2 := by
  obtain ⟨Yp, Yw, -, hr⟩ := normalMap_rule hq heig hroot ((0 : ℕ → ℝ), F)
  obtain ⟨mu, lb, ub, hrun⟩ := C111_returns (Ω := ℕ → ℝ) (s := id) (a := normalMap E) (T := 2) toySplit rfl (by norm_num) (by norm_num)
    (fun ω => hr (ω, F)) fun m x => if h : m = 1 + 1 then MvPolynomial.eval (h ▸ x) sampleP else 0
  refine ⟨mu, lb, ub, hrun, ?_⟩
  refine (And.right (C116_integral (st := id) (a := normalMap E) (T := 2) (q := 3) (k := 1) toySplit rfl rfl le_rfl hq (by norm_num) (by norm_num) hroot
    (by norm_num) (streamRng_normal (3 * 1) 2) (fun ω => hr (ω, F)) (by norm_num) (by norm_num) sampleP (sampleP_degree.trans (by norm_num)) (fun x => dif_pos rfl) sampleP_eigh hrun)).trans ?_
  simp

end Props
