import Mathlib.MeasureTheory.Integral.Pi
import Mathlib.Algebra.MvPolynomial.Degrees
import Verif.Props.Tensor

/-!
# Property C24: exactness of the tensor-product rules for polynomials in several variables
-/

open Py Spec Model.Quadrature Proofs.Quadrature Polynomial MeasureTheory ProbabilityTheory

namespace Props

theorem prodFun_ofFn {d : ℕ} (f : Fin d → ℝ → ℝ) (x : Fin d → ℝ) : prodFun (List.ofFn f) (List.ofFn x) = ∏ j, f j (x j) := by
  induction d with
  | zero => simp [prodFun]
  | succ d ih => rw [List.ofFn_succ, List.ofFn_succ, prodFun, ih, Fin.prod_univ_succ]

/-- A rule whose sums of products factor into one-dimensional sums that are exact for powers is exact for polynomials. -/
theorem tensor_exact (ν : Measure ℝ) [SigmaFinite ν] (hint : ∀ k : ℕ, Integrable (fun t : ℝ => t ^ k) ν) {d : ℕ} (D : Fin d → ℕ)
    (R : Fin d → Rule) (r : Rule)
    (hprod : ∀ f : Fin d → ℝ → ℝ, ∑ i : Fin r.x.rows, r.w.get i 0 * ∏ j : Fin d, f j (r.x.get i j)
      = ∏ j, ∑ i : Fin (R j).x.rows, (R j).w.get i 0 * f j ((R j).x.get i 0))
    (hex : ∀ j, ∀ k ≤ D j, ∑ i : Fin (R j).x.rows, (R j).w.get i 0 * ((R j).x.get i 0) ^ k = ∫ t, t ^ k ∂ν)
    (p : MvPolynomial (Fin d) ℝ) (hp : ∀ j, p.degreeOf j ≤ D j) :
    ∑ i : Fin r.x.rows, r.w.get i 0 * MvPolynomial.eval (fun j : Fin d => r.x.get i j) p
      = ∫ y, MvPolynomial.eval y p ∂(Measure.pi fun _ : Fin d => ν) := by
  have h1 : ∀ s : Fin d →₀ ℕ, Integrable (fun y : Fin d → ℝ => ∏ j, y j ^ s j) (Measure.pi fun _ : Fin d => ν) :=
    fun s => Integrable.fintype_prod (f := fun j t => t ^ s j) fun j => hint _
  simp only [MvPolynomial.eval_eq']
  rw [integral_finsetSum _ fun s _ => (h1 s).const_mul _]
  simp only [Finset.mul_sum]
  rw [Finset.sum_comm]
  refine Finset.sum_congr rfl fun s hs => ?_
  rw [integral_const_mul, integral_fintype_prod_eq_prod (f := fun j t => t ^ s j)]
  have h2 := hprod fun j t => t ^ s j
  have h3 : ∀ j, ∑ i : Fin (R j).x.rows, (R j).w.get i 0 * ((R j).x.get i 0) ^ s j = ∫ t, t ^ s j ∂ν :=
    fun j => hex j _ ((MvPolynomial.monomial_le_degreeOf j hs).trans (hp j))
  simp only [h3] at h2
  rw [← h2, Finset.mul_sum]
  exact Finset.sum_congr rfl fun i _ => by ring

/-- The rules listed by `Forall₂`, as a function. -/
theorem forall₂_ofFn {α : Type} {d : ℕ} {f : α → Except Err Rule} {ns : Fin d → α} {rs : List Rule}
    (h : List.Forall₂ (fun n ri => f n = .ok ri) (List.ofFn ns) rs) : ∃ R : Fin d → Rule, rs = List.ofFn R ∧ ∀ j, f (ns j) = .ok (R j) := by
  induction d generalizing rs with
  | zero =>
    rw [List.ofFn_zero, List.forall₂_nil_left_iff] at h
    exact ⟨fun j => j.elim0, by simp [h], fun j => j.elim0⟩
  | succ d ih =>
    rw [List.ofFn_succ] at h
    cases h with
    | @cons _ b _ _ h1 h2 =>
      obtain ⟨R, rfl, h3⟩ := ih h2
      refine ⟨Fin.cons b R, ?_, fun j => ?_⟩
      · rw [List.ofFn_succ]
        simp
      · refine Fin.cases ?_ (fun j => ?_) j
        · simpa using h1
        · simpa using h3 j

theorem zipWith_ofFn_prod {α β : Type} {d : ℕ} (g : α → β → ℝ) (R : Fin d → α) (f : Fin d → β) :
    (List.zipWith g (List.ofFn R) (List.ofFn f)).prod = ∏ j, g (R j) (f j) := by
  induction d with
  | zero => simp
  | succ d ih => rw [List.ofFn_succ, List.ofFn_succ, List.zipWith_cons_cons, List.prod_cons, ih, Fin.prod_univ_succ]

theorem isCol_sum {r : Rule} {N : ℕ} {x w : Fin N → ℝ} (hx : IsCol r.x x) (hw : IsCol r.w w) (f : ℝ → ℝ) :
    ∑ i : Fin r.x.rows, r.w.get i 0 * f (r.x.get i 0) = ∑ i, w i * f (x i) := by
  have h := congrArg (fun l => quad l f) (points1_isCol hx hw)
  simpa [points1, quad, List.map_ofFn, List.sum_ofFn, Function.comp_def] using h

/-- The uniform distribution on the interval from -1 to 1. -/
noncomputable def unifMeasure : Measure ℝ := (2⁻¹ : NNReal) • volume.restrict (Set.Ioc (-1) 1)

instance : SigmaFinite unifMeasure := by unfold unifMeasure; infer_instance

theorem unifMeasure_pow (k : ℕ) : Integrable (fun t : ℝ => t ^ k) unifMeasure ∧ ∫ t, t ^ k ∂unifMeasure = (∫ t in (-1 : ℝ)..1, t ^ k) / 2 := by
  have h1 : IntegrableOn (fun t : ℝ => t ^ k) (Set.Ioc (-1) 1) :=
    ((continuous_pow k).intervalIntegrable (-1) 1).1
  refine ⟨h1.integrable.smul_measure_nnreal, ?_⟩
  rw [unifMeasure, integral_smul_nnreal_measure, intervalIntegral.integral_of_le (by norm_num)]
  simp [NNReal.smul_def]
  ring

instance : IsProbabilityMeasure unifMeasure := ⟨by
  rw [unifMeasure, Measure.smul_apply, Measure.restrict_apply_univ, Real.volume_Ioc]
  rw [ENNReal.smul_def, smul_eq_mul, ENNReal.coe_inv (by norm_num), show (1 : ℝ) - -1 = 2 by norm_num]
  simpa using ENNReal.inv_mul_cancel (a := 2) (by norm_num) (by norm_num)⟩

/-- The sums of products over a tensor rule factor into sums over the one-dimensional rules. -/
theorem tensor_prod {d : ℕ} {R : Fin d → Rule} {r : Rule} (h2 : IsTensor r (List.ofFn R)) (f : Fin d → ℝ → ℝ) :
    ∑ i : Fin r.x.rows, r.w.get i 0 * ∏ j : Fin d, f j (r.x.get i j)
      = ∏ j, ∑ i : Fin (R j).x.rows, (R j).w.get i 0 * f j ((R j).x.get i 0) := by
  have h4 : ∑ i : Fin r.x.rows, r.w.get i 0 * prodFun (List.ofFn f) (List.ofFn fun j => r.x.val i j) = quad (points r) (prodFun (List.ofFn f)) := by
    rw [points, quad, List.map_ofFn, List.sum_ofFn]
    rfl
  have h5 : r.x.cols = d := by rw [h2.cols, List.length_ofFn]
  obtain ⟨⟨rr, rc, rx⟩, rw'⟩ := r
  change rc = d at h5
  subst h5
  have h6 : ∀ i : Fin rr, ∏ j : Fin rc, f j (NpMat.get ⟨rr, rc, rx⟩ i j) = prodFun (List.ofFn f) (List.ofFn fun j => rx i j) := by
    intro i
    rw [prodFun_ofFn]
    exact Finset.prod_congr rfl fun j _ => by rw [show NpMat.get ⟨rr, rc, rx⟩ i j = rx i j from NpMat.get_of rx i j]
  change ∑ i : Fin rr, rw'.get i 0 * ∏ j : Fin rc, f j (NpMat.get ⟨rr, rc, rx⟩ i j) = _
  simp only [h6]
  rw [h4, h2.pts, Spec.quad_tensor]
  · rw [List.map_ofFn, zipWith_ofFn_prod]
    refine Finset.prod_congr rfl fun j _ => ?_
    simp [points1, quad, List.map_ofFn, List.sum_ofFn, Function.comp_def]
  · simp

theorem gauss_exact {d : ℕ} (ns : Fin d → Num) (g : Num → Except Err Rule) (ν : Measure ℝ) [SigmaFinite ν]
    (hint : ∀ k : ℕ, Integrable (fun t : ℝ => t ^ k) ν) (D : Fin d → ℕ) {r : Rule} {rs : List Rule}
    (h1 : List.Forall₂ (fun n ri => g n = .ok ri) (List.ofFn ns) rs) (h2 : IsTensor r rs)
    (hex : ∀ j ri, g (ns j) = .ok ri → ∀ k ≤ D j, ∑ i : Fin ri.x.rows, ri.w.get i 0 * (ri.x.get i 0) ^ k = ∫ t, t ^ k ∂ν)
    (p : MvPolynomial (Fin d) ℝ) (hp : ∀ j, p.degreeOf j ≤ D j) :
    ∑ i : Fin r.x.rows, r.w.get i 0 * MvPolynomial.eval (fun j : Fin d => r.x.get i j) p
      = ∫ y, MvPolynomial.eval y p ∂(Measure.pi fun _ : Fin d => ν) := by
  obtain ⟨R, rfl, h3⟩ := forall₂_ofFn h1
  exact tensor_exact ν hint D R r (tensor_prod h2) (fun j => hex j _ (h3 j)) p hp

/-- C24: the tensor-product Gauss-Hermite rule integrates every polynomial of degree at most `2 N_j - 1` in variable `j`
exactly against the standard Gaussian distribution in `d` dimensions. -/
theorem C24_hermite_exact {lib : Lib} (h : LibOK lib) {d : ℕ} (ns : Fin d → ℕ) (hns : ∀ j, 1 ≤ ns j ∧ ns j ≤ 10 ^ 11) {r : Rule}
    (hr : gauss_hermite lib (.list (List.ofFn fun j => .int (ns j))) = .ok r) (p : MvPolynomial (Fin d) ℝ) (hp : ∀ j, p.degreeOf j ≤ 2 * ns j - 1) :
    ∑ i : Fin r.x.rows, r.w.get i 0 * MvPolynomial.eval (fun j : Fin d => r.x.get i j) p
      = ∫ y, MvPolynomial.eval y p ∂(Measure.pi fun _ : Fin d => gaussianReal 0 1) := by
  obtain ⟨rs, h1, h2⟩ := (C24_tensor lib _ r).1 hr
  refine gauss_exact _ _ _ (fun k => ?_) (fun j => 2 * ns j - 1) h1 h2 (fun j ri hri k hk => ?_) p hp
  · simpa using Proofs.HermitePoly.integrable_poly (X ^ k)
  · obtain ⟨x, w, hx, hw, h3⟩ := C21_exact h (hns j).1 (hns j).2 hri
    rw [isCol_sum hx hw fun t => t ^ k]
    simpa using h3 (X ^ k) (by simpa using hk)

/-- C24: the tensor-product Gauss-Legendre rule, for the uniform distribution on the cube. -/
theorem C24_legendre_exact {lib : Lib} (h : LibOK lib) {d : ℕ} (ns : Fin d → ℕ) (hns : ∀ j, 1 ≤ ns j ∧ ns j ≤ 10 ^ 11) {r : Rule}
    (hr : gauss_legendre lib (.list (List.ofFn fun j => .int (ns j))) = .ok r) (p : MvPolynomial (Fin d) ℝ) (hp : ∀ j, p.degreeOf j ≤ 2 * ns j - 1) :
    ∑ i : Fin r.x.rows, r.w.get i 0 * MvPolynomial.eval (fun j : Fin d => r.x.get i j) p
      = ∫ y, MvPolynomial.eval y p ∂(Measure.pi fun _ : Fin d => unifMeasure) := by
  obtain ⟨rs, h1, h2⟩ := (C24_tensor lib _ r).2 hr
  refine gauss_exact _ _ _ (fun k => (unifMeasure_pow k).1) (fun j => 2 * ns j - 1) h1 h2 (fun j ri hri k hk => ?_) p hp
  obtain ⟨x, w, hx, hw, h3⟩ := C22_exact h (hns j).1 (hns j).2 hri
  rw [isCol_sum hx hw fun t => t ^ k, (unifMeasure_pow k).2]
  simpa using h3 (X ^ k) (by simpa using hk)

/-- C24: a three by two rule integrates `x^5 y^3` exactly. -/
example {lib : Lib} (h : LibOK lib) {r : Rule} (hr : gauss_hermite lib (.list [.int 3, .int 2]) = .ok r) :
    ∑ i : Fin r.x.rows, r.w.get i 0 * (r.x.get i 0 ^ 5 * r.x.get i 1 ^ 3)
      = ∫ y : Fin 2 → ℝ, y 0 ^ 5 * y 1 ^ 3 ∂(Measure.pi fun _ => gaussianReal 0 1) := by
  have h1 := C24_hermite_exact h (d := 2) ![3, 2] (by intro j; fin_cases j <;> norm_num) (r := r) (by simpa [List.ofFn_succ] using hr)
    (MvPolynomial.X 0 ^ 5 * MvPolynomial.X 1 ^ 3) (by
      intro j
      refine (MvPolynomial.degreeOf_mul_le _ _ _).trans ?_
      refine (Nat.add_le_add (MvPolynomial.degreeOf_pow_le _ _ _) (MvPolynomial.degreeOf_pow_le _ _ _)).trans ?_
      fin_cases j <;> simp [MvPolynomial.degreeOf_X])
  simpa using h1

end Props
