import Mathlib.Algebra.MvPolynomial.PDeriv
import Mathlib.Analysis.Calculus.FDeriv.Mul
import Mathlib.Analysis.Calculus.FDeriv.Pi
import Mathlib.Analysis.Calculus.FDeriv.Linear
import Verif.Proofs.LeastSquares
import Verif.Props.IndexSet

/-! Polynomials as MvPolynomial. -/

open Py Model.ResponseSurfaces MvPolynomial

namespace Proofs.PolyApprox

variable {m M N : ℕ}

/-- A multi-index as a finitely supported function. -/
noncomputable abbrev fin (α : Fin m → ℕ) : Fin m →₀ ℕ := Finsupp.equivFunOnFinite.symm α

theorem fin_injective : Function.Injective (fin : (Fin m → ℕ) → Fin m →₀ ℕ) := Finsupp.equivFunOnFinite.symm.injective

theorem fin_coe (s : Fin m →₀ ℕ) : fin (s : Fin m → ℕ) = s := Finsupp.equivFunOnFinite.symm_apply_apply s

/-- The polynomial with coefficients `c` for the multi-indices `I`. -/
noncomputable def fitted (I : List (Fin m → ℕ)) (c : Fin I.length → ℝ) : MvPolynomial (Fin m) ℝ :=
  ∑ j, monomial (fin (I.get j)) (c j)

theorem eval_monomial' (x : Fin m → ℝ) (α : Fin m → ℕ) (a : ℝ) : eval x (monomial (fin α) a) = a * ∏ k, x k ^ α k := by
  rw [eval_monomial, Finsupp.prod_fintype _ _ (fun k => pow_zero _)]
  rfl

theorem eval_fitted (I : List (Fin m → ℕ)) (c : Fin I.length → ℝ) (x : Fin m → ℝ) :
    eval x (fitted I c) = ∑ j, c j * ∏ k, x k ^ I.get j k := by
  rw [fitted, map_sum]
  exact Finset.sum_congr rfl fun j _ => eval_monomial' x _ _

theorem mulVec_monomials (X : Matrix (Fin M) (Fin m) ℝ) (I : List (Fin m → ℕ)) (c : Fin I.length → ℝ) :
    (monomials X I).mulVec c = fun i => eval (X i) (fitted I c) := by
  funext i
  rw [eval_fitted, Matrix.mulVec, dotProduct]
  exact Finset.sum_congr rfl fun j _ => by rw [monomials, Matrix.of_apply, mul_comm]

theorem fin_sub_single (α : Fin m → ℕ) (k : Fin m) : fin α - Finsupp.single k 1 = fin (Function.update α k (α k - 1)) := by
  ext l
  rw [Finsupp.tsub_apply]
  change α l - _ = Function.update α k (α k - 1) l
  rcases eq_or_ne l k with rfl | h
  · simp
  · rw [Function.update_of_ne h, Finsupp.single_eq_of_ne h, Nat.sub_zero]

theorem mulVec_gradMonomials (X : Matrix (Fin M) (Fin m) ℝ) (I : List (Fin m → ℕ)) (c : Fin I.length → ℝ) (k : Fin m) :
    (gradMonomials X I k).mulVec c = fun i => eval (X i) (pderiv k (fitted I c)) := by
  funext i
  rw [fitted, map_sum, map_sum, Matrix.mulVec, dotProduct]
  refine Finset.sum_congr rfl fun j _ => ?_
  rw [pderiv_monomial, fin_sub_single, eval_monomial', gradMonomials, Matrix.of_apply]
  simp only
  split_ifs with h
  · have : (fin (I.get j)) k = 0 := h
    rw [this]
    simp
  · change _ = c j * ((I.get j k : ℕ) : ℝ) * _
    ring

theorem totalDegree_fitted (I : List (Fin m → ℕ)) (c : Fin I.length → ℝ) (h : ∀ α ∈ I, ∑ k, α k ≤ N) :
    (fitted I c).totalDegree ≤ N := by
  refine (totalDegree_finset_sum _ _).trans (Finset.sup_le fun j _ => ?_)
  refine (totalDegree_monomial_le _ _).trans ?_
  rw [Finsupp.sum_fintype _ _ (fun _ => rfl)]
  exact h _ (List.get_mem I j)

theorem coeff_fitted (I : List (Fin m → ℕ)) (hI : I.Nodup) (c : Fin I.length → ℝ) (j : Fin I.length) :
    coeff (fin (I.get j)) (fitted I c) = c j := by
  rw [fitted, coeff_sum, Finset.sum_eq_single j]
  · rw [coeff_monomial, if_pos rfl]
  · intro b _ hb
    rw [coeff_monomial, if_neg]
    intro h
    exact hb (List.nodup_iff_injective_get.mp hI (fin_injective h))
  · intro h
    exact absurd (Finset.mem_univ j) h

theorem coeff_fitted_not_mem (I : List (Fin m → ℕ)) (c : Fin I.length → ℝ) (α : Fin m → ℕ) (h : α ∉ I) :
    coeff (fin α) (fitted I c) = 0 := by
  rw [fitted, coeff_sum]
  refine Finset.sum_eq_zero fun j _ => ?_
  rw [coeff_monomial, if_neg]
  intro he
  exact h (fin_injective he ▸ List.get_mem I j)

theorem eq_fitted (I : List (Fin m → ℕ)) (hI : I.Nodup) (hmem : ∀ α, ∑ k, α k ≤ N → α ∈ I) (p : MvPolynomial (Fin m) ℝ)
    (hp : p.totalDegree ≤ N) : p = fitted I fun j => coeff (fin (I.get j)) p := by
  ext s
  by_cases h : (s : Fin m → ℕ) ∈ I
  · obtain ⟨j, hj⟩ := List.get_of_mem h
    rw [← fin_coe s, ← hj, coeff_fitted I hI]
  · rw [← fin_coe s, coeff_fitted_not_mem I _ _ h, fin_coe]
    by_contra hne
    apply h
    apply hmem
    have := le_totalDegree (mem_support_iff.mpr hne)
    rw [Finsupp.sum_fintype _ _ (fun _ => rfl)] at this
    exact this.trans hp

/-- The formal partial derivatives are the analytic ones. -/
theorem hasFDerivAt_eval (p : MvPolynomial (Fin m) ℝ) (x : Fin m → ℝ) :
    HasFDerivAt (fun x : Fin m → ℝ => eval x p)
      (∑ k, eval x (pderiv k p) • (ContinuousLinearMap.proj k : (Fin m → ℝ) →L[ℝ] ℝ)) x := by
  induction p using MvPolynomial.induction_on with
  | C a =>
    simp only [eval_C, pderiv_C, map_zero, zero_smul, Finset.sum_const_zero]
    exact hasFDerivAt_const _ _
  | add p q hp hq =>
    simp only [map_add, add_smul, Finset.sum_add_distrib]
    exact hp.add hq
  | mul_X p i hp =>
    simp only [map_mul, eval_X, pderiv_mul, pderiv_X, map_add]
    have hi : HasFDerivAt (fun x : Fin m → ℝ => x i) (ContinuousLinearMap.proj i : (Fin m → ℝ) →L[ℝ] ℝ) x :=
      (ContinuousLinearMap.proj (R := ℝ) (φ := fun _ : Fin m => ℝ) i).hasFDerivAt
    refine (hp.mul hi).congr_fderiv ?_
    ext v
    simp only [ContinuousLinearMap.add_apply, ContinuousLinearMap.smul_apply, ContinuousLinearMap.sum_apply,
      ContinuousLinearMap.proj_apply, smul_eq_mul, add_mul, Finset.sum_add_distrib, Finset.mul_sum]
    rw [add_comm]
    congr 1
    · exact Finset.sum_congr rfl fun k _ => by ring
    · rw [Finset.sum_eq_single i]
      · simp
      · intro k _ hk
        simp [hk]
      · intro h
        exact absurd (Finset.mem_univ i) h

theorem mapM_ok {α β : Type} (f : α → Except Err β) (g : α → β) (l : List α) (h : ∀ a ∈ l, f a = .ok (g a)) :
    l.mapM f = .ok (l.map g) := by
  induction l with
  | nil => rfl
  | cons a l ih =>
    rw [List.mapM_cons, h a List.mem_cons_self, ih fun b hb => h b (List.mem_cons_of_mem _ hb)]
    rfl

theorem getD_map_finRange {β : Type} (g : Fin m → β) (d : β) (k : Fin m) : ((List.finRange m).map g).getD k d = g k := by
  rw [List.getD_eq_getElem?_getD, List.getElem?_map, List.getElem?_eq_getElem (by simp)]
  simp

theorem predictMat_eq (s : PolyApprox) {I : List (Fin m → ℕ)} (hI : index_set s.N m = .ok I) (c : Fin I.length → ℝ)
    (hc : s.poly_weights = some (NpVec.of c)) (X : Matrix (Fin M) (Fin m) ℝ) :
    s.predictMat X false = .ok (fun i => eval (X i) (fitted I c), none) ∧
    s.predictMat X true = .ok (fun i => eval (X i) (fitted I c),
      some (Matrix.of fun i k => eval (X i) (pderiv k (fitted I c)))) := by
  have h1 : polynomial_bases X s.N = .ok ⟨I, monomials X I⟩ := by rw [polynomial_bases, hI]
  have h2 : grad_polynomial_bases X s.N = .ok ⟨I, gradMonomials X I⟩ := by rw [grad_polynomial_bases, hI]
  have h3 : ((List.finRange m).mapM fun k => NpVec.dot (gradMonomials X I k) (NpVec.of c))
      = .ok ((List.finRange m).map fun k => fun i => eval (X i) (pderiv k (fitted I c))) :=
    mapM_ok _ _ _ fun k _ => by rw [NpVec.dot_of, mulVec_gradMonomials]
  constructor
  · unfold PolyApprox.predictMat
    rw [h1]
    change (match s.poly_weights with
      | none => _
      | some c => _) = _
    rw [hc]
    change (NpVec.dot (monomials X I) (NpVec.of c) >>= _) = _
    rw [NpVec.dot_of, mulVec_monomials]
    rfl
  · unfold PolyApprox.predictMat
    rw [h1]
    change (match s.poly_weights with
      | none => _
      | some c => _) = _
    rw [hc]
    change (NpVec.dot (monomials X I) (NpVec.of c) >>= _) = _
    rw [NpVec.dot_of, mulVec_monomials]
    change (grad_polynomial_bases X s.N >>= _) = _
    rw [h2]
    change (((List.finRange m).mapM fun k => NpVec.dot (gradMonomials X I k) (NpVec.of c)) >>= _) = _
    rw [h3]
    change Except.ok _ = Except.ok _
    congr 3
    ext i k
    rw [Matrix.of_apply, getD_map_finRange, Matrix.of_apply]

theorem predict_eq (s : PolyApprox) {I : List (Fin m → ℕ)} (hI : index_set s.N m = .ok I) (c : Fin I.length → ℝ)
    (hc : s.poly_weights = some (NpVec.of c)) (X : Matrix (Fin M) (Fin m) ℝ) :
    s.predict (.mat (NpMat.of X)) false = .ok (NpVec.of fun i => eval (X i) (fitted I c), none) ∧
    s.predict (.mat (NpMat.of X)) true = .ok (NpVec.of fun i => eval (X i) (fitted I c),
      some (NpMat.of (Matrix.of fun i k => eval (X i) (pderiv k (fitted I c))))) := by
  obtain ⟨h1, h2⟩ := predictMat_eq s hI c hc X
  constructor
  · simp only [PolyApprox.predict, Model.Misc.process_inputs, NpMat.of_val]
    erw [h1]
    rfl
  · simp only [PolyApprox.predict, Model.Misc.process_inputs, NpMat.of_val]
    erw [h2]
    rfl

end Proofs.PolyApprox
