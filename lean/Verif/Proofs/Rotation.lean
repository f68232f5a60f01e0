import Mathlib.Algebra.MvPolynomial.Monad
import Mathlib.Probability.Distributions.Gaussian.Multivariate
import Mathlib.Probability.HasLaw
import Verif.Proofs.HermitePoly

/-!
# The standard normal distribution in orthogonal coordinates
-/

open MeasureTheory ProbabilityTheory

namespace Proofs.Rotation

variable {n k m : ℕ}

/-- The standard normal distribution of `m` numbers. -/
noncomputable abbrev normal (m : ℕ) : Measure (Fin m → ℝ) := Measure.pi fun _ => gaussianReal 0 1

/-- Columns of two matrices as vectors. -/
noncomputable def vecs (V1 : Matrix (Fin m) (Fin n) ℝ) (V2 : Matrix (Fin m) (Fin k) ℝ) : Fin n ⊕ Fin k → EuclideanSpace ℝ (Fin m)
  | .inl a => WithLp.toLp 2 fun i => V1 i a
  | .inr b => WithLp.toLp 2 fun i => V2 i b

/-- If the columns of `V1` and `V2` are orthonormal and span the space, then `V1 y + V2 z` is standard normal for independent standard
normal `y` and `z`. -/
theorem rotate {V1 : Matrix (Fin (n + k)) (Fin n) ℝ} {V2 : Matrix (Fin (n + k)) (Fin k) ℝ}
    (h11 : ∀ a b, ∑ i, V1 i a * V1 i b = if a = b then 1 else 0) (h12 : ∀ a b, ∑ i, V1 i a * V2 i b = 0)
    (h22 : ∀ a b, ∑ i, V2 i a * V2 i b = if a = b then 1 else 0) :
    MeasurePreserving (fun p : (Fin n → ℝ) × (Fin k → ℝ) => V1.mulVec p.1 + V2.mulVec p.2) ((normal n).prod (normal k)) (normal (n + k)) := by
  have hon : Orthonormal ℝ (vecs V1 V2) := by
    rw [orthonormal_iff_ite]
    rintro (a | a) (b | b)
    · simp only [vecs, PiLp.inner_apply, RCLike.inner_apply, conj_trivial, Sum.inl.injEq]
      rw [← h11 a b]
      exact Finset.sum_congr rfl fun i _ => mul_comm _ _
    · simp only [vecs, PiLp.inner_apply, RCLike.inner_apply, conj_trivial, reduceCtorEq, if_false]
      rw [← h12 a b]
      exact Finset.sum_congr rfl fun i _ => mul_comm _ _
    · simp only [vecs, PiLp.inner_apply, RCLike.inner_apply, conj_trivial, reduceCtorEq, if_false]
      rw [← h12 b a]
    · simp only [vecs, PiLp.inner_apply, RCLike.inner_apply, conj_trivial, Sum.inr.injEq]
      rw [← h22 a b]
      exact Finset.sum_congr rfl fun i _ => mul_comm _ _
  have hcard : Fintype.card (Fin n ⊕ Fin k) = Module.finrank ℝ (EuclideanSpace ℝ (Fin (n + k))) := by simp
  let b : OrthonormalBasis (Fin n ⊕ Fin k) ℝ (EuclideanSpace ℝ (Fin (n + k))) :=
    OrthonormalBasis.mk hon (hon.linearIndependent.span_eq_top_of_card_eq_finrank' hcard).ge
  have hb : ∀ i, b i = vecs V1 V2 i := fun i => by rw [OrthonormalBasis.coe_mk]
  have h1 := (map_pi_eq_stdGaussian (ι := Fin (n + k))).trans (stdGaussian_eq_map_pi_orthonormalBasis b)
  have hs : Measurable (WithLp.ofLp : EuclideanSpace ℝ (Fin (n + k)) → _) := by fun_prop
  have ht : Measurable (WithLp.toLp 2 : (Fin (n + k) → ℝ) → EuclideanSpace ℝ (Fin (n + k))) := by fun_prop
  have hm : Measurable fun x : Fin n ⊕ Fin k → ℝ => ∑ i, x i • b i := by fun_prop
  have h2 := congrArg (Measure.map (WithLp.ofLp : EuclideanSpace ℝ (Fin (n + k)) → _)) h1
  rw [Measure.map_map hs ht, Measure.map_map hs hm] at h2
  have h3 : (WithLp.ofLp : EuclideanSpace ℝ (Fin (n + k)) → _) ∘ (WithLp.toLp 2) = id := rfl
  rw [h3, Measure.map_id] at h2
  have h4 := (measurePreserving_sumPiEquivProdPi (fun _ : Fin n ⊕ Fin k => gaussianReal 0 1)).symm
  have h5 : MeasurePreserving ((WithLp.ofLp : EuclideanSpace ℝ (Fin (n + k)) → _) ∘ fun x : Fin n ⊕ Fin k → ℝ => ∑ i, x i • b i)
      (Measure.pi fun _ : Fin n ⊕ Fin k => gaussianReal 0 1) (normal (n + k)) := ⟨hs.comp hm, h2.symm⟩
  have h6 := h5.comp h4
  convert h6 using 1
  funext p i
  simp only [Function.comp_apply, Fintype.sum_sum_type, hb, vecs]
  rw [WithLp.ofLp_add]
  simp only [Pi.add_apply, Matrix.mulVec, dotProduct, WithLp.ofLp_sum, Finset.sum_apply, WithLp.ofLp_smul, Pi.smul_apply, smul_eq_mul]
  congr 1 <;> refine Finset.sum_congr rfl fun j _ => mul_comm _ _

/-- Polynomials in several variables are integrable. -/
theorem integrable_poly (p : MvPolynomial (Fin m) ℝ) : Integrable (fun x => MvPolynomial.eval x p) (normal m) := by
  induction p using MvPolynomial.induction_on' with
  | monomial s c =>
    simp only [MvPolynomial.eval_monomial]
    refine Integrable.const_mul ?_ c
    have e : (fun x : Fin m → ℝ => s.prod fun i e => x i ^ e) = fun x => ∏ i, x i ^ s i := by
      funext x
      exact Finsupp.prod_fintype s (fun i e => x i ^ e) fun i => pow_zero _
    rw [e]
    exact Integrable.fintype_prod (f := fun i t => t ^ s i) fun i => by
      simpa using Proofs.HermitePoly.integrable_poly (Polynomial.X ^ s i)
  | add p q hp hq =>
    simp only [map_add]
    exact hp.add hq

/-- Replacing the variables by polynomials of degree one does not raise the degree. -/
theorem totalDegree_bind (f : Fin m → MvPolynomial (Fin n) ℝ) (hf : ∀ i, (f i).totalDegree ≤ 1) (p : MvPolynomial (Fin m) ℝ) :
    (MvPolynomial.bind₁ f p).totalDegree ≤ p.totalDegree := by
  conv_lhs => rw [p.as_sum, map_sum]
  refine MvPolynomial.totalDegree_finsetSum_le fun s hs => ?_
  rw [MvPolynomial.bind₁_monomial]
  refine (MvPolynomial.totalDegree_mul _ _).trans ?_
  rw [MvPolynomial.totalDegree_C, zero_add]
  refine (MvPolynomial.totalDegree_finset_prod _ _).trans (le_trans ?_ (MvPolynomial.le_totalDegree hs))
  refine Finset.sum_le_sum fun i _ => (MvPolynomial.totalDegree_pow _ _).trans ?_
  exact (Nat.mul_le_mul_left _ (hf i)).trans (by simp)

theorem eval_bind (f : Fin m → MvPolynomial (Fin n) ℝ) (y : Fin n → ℝ) (p : MvPolynomial (Fin m) ℝ) :
    MvPolynomial.eval y (MvPolynomial.bind₁ f p) = MvPolynomial.eval (fun l => MvPolynomial.eval y (f l)) p := by
  have := MvPolynomial.aeval_bind₁ y f p
  simpa only [MvPolynomial.coe_aeval_eq_eval, MvPolynomial.aeval_eq_eval] using this

/-- A linear combination of the variables plus a number has degree at most one. -/
theorem totalDegree_affine (v : Fin n → ℝ) (t : ℝ) :
    (∑ j, MvPolynomial.C (v j) * MvPolynomial.X j + MvPolynomial.C t : MvPolynomial (Fin n) ℝ).totalDegree ≤ 1 := by
  refine (MvPolynomial.totalDegree_add _ _).trans (max_le ?_ (by simp))
  refine MvPolynomial.totalDegree_finsetSum_le fun j _ => (MvPolynomial.totalDegree_mul _ _).trans ?_
  simp

end Proofs.Rotation
