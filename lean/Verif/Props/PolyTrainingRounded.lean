import Verif.Model.RoundedTraining
import Verif.Props.SurfacesRounded
import Verif.Spec.StableSolve
import Verif.Proofs.LeastSquares
import Mathlib.Analysis.InnerProductSpace.PiL2

/-!
# Property C157: training of polynomial surfaces in double precision
-/

open Py Model.Misc Model.ResponseSurfaces Model.Rounded Spec Proofs.Rounding Proofs.FloatSum Proofs.Near Proofs.FloatProd Proofs.PolyApprox

namespace Props

variable {M m p : ℕ}

theorem length_near {a b : Fin M → ℝ} {t : ℝ} (ht : ∀ i, |a i - b i| ≤ t) :
    Real.sqrt (∑ i, a i ^ 2) ≤ Real.sqrt (∑ i, b i ^ 2) + Real.sqrt M * t := by
  have key : ∀ v : Fin M → ℝ, Real.sqrt (∑ i, v i ^ 2) = ‖WithLp.toLp 2 v‖ := fun v => by
    rw [EuclideanSpace.norm_eq]
    simp
  rcases Nat.eq_zero_or_pos M with rfl | hM
  · simp
  have ht0 : 0 ≤ t := (abs_nonneg _).trans (ht ⟨0, hM⟩)
  have h1 : Real.sqrt (∑ i, (a i - b i) ^ 2) ≤ Real.sqrt M * t := by
    rw [← Real.sqrt_sq ht0, ← Real.sqrt_mul (Nat.cast_nonneg M)]
    refine Real.sqrt_le_sqrt ?_
    calc ∑ i, (a i - b i) ^ 2 ≤ ∑ _i : Fin M, t ^ 2 := Finset.sum_le_sum fun i _ => sq_le_sq' (neg_le_of_abs_le (ht i)) (le_of_abs_le (ht i))
      _ = M * t ^ 2 := by simp
  have h2 : ‖WithLp.toLp 2 a‖ ≤ ‖WithLp.toLp 2 b‖ + ‖WithLp.toLp 2 fun i => a i - b i‖ := by
    have : WithLp.toLp 2 a = WithLp.toLp 2 b + WithLp.toLp 2 fun i => a i - b i := by
      ext i
      simp
    rw [this]
    exact norm_add_le _ _
  rw [key, key]
  rw [key] at h1
  linarith

/-- The residuals of a perturbed system. -/
theorem residual_near {A A' : Fin M → Fin p → ℝ} {b b' : Fin M → ℝ} {δ τ : ℝ} (hA : ∀ i t, |A i t - A' i t| ≤ δ) (hb : ∀ i, |b i - b' i| ≤ τ) (x : Fin p → ℝ) (i : Fin M) :
    |(∑ t, A i t * x t - b i) - (∑ t, A' i t * x t - b' i)| ≤ δ * ∑ t, |x t| + τ := by
  have e : (∑ t, A i t * x t - b i) - (∑ t, A' i t * x t - b' i) = ∑ t, (A i t - A' i t) * x t - (b i - b' i) := by
    simp only [sub_mul, Finset.sum_sub_distrib]
    ring
  rw [e]
  refine (abs_sub _ _).trans (add_le_add ?_ (hb i))
  rw [Finset.mul_sum]
  refine (Finset.abs_sum_le_sum_abs _ _).trans (Finset.sum_le_sum fun t _ => ?_)
  rw [abs_mul]
  exact mul_le_mul_of_nonneg_right (hA i t) (abs_nonneg _)

/-- **C157.** The polynomial that training computes in double precision with a backward stable solver fits the data nearly as well as any polynomial of the degree. -/
theorem C157_training {fl : Fl} (h : FlOK fl) {lstsq : Lstsq} {η : ℝ} (hsol : ∀ r c A b, StableLstsq η A b (lstsq r c A b)) (N m : ℕ) (hm : 1 ≤ m) :
    ∃ e : Fin ((N + m).choose m) → (Fin m → ℕ), Function.Injective e ∧ Set.range e = {α | ∑ k, α k ≤ N} ∧
      ∀ (M : ℕ) (X : Matrix (Fin M) (Fin m) ℝ) (f w : Fin M → ℝ) (weights : Option (Fin M → ℝ)), (N + m).choose m ≤ M →
        (weights = some w ∨ weights = none ∧ ∀ i, w i = 1) →
        ∃ P : MvPolynomial (Fin m) ℝ, P.totalDegree ≤ N ∧
          polyWeights fl lstsq N X f weights = .ok (NpVec.of fun j => P.coeff (Finsupp.equivFunOnFinite.symm (e j))) ∧
          ∀ (β φ δ τ : ℝ), (∀ i (α : Fin m → ℕ), ∑ k, α k ≤ N → |w i| * ∏ k, |X i k| ^ α k ≤ β) → (∀ i, |w i * f i| ≤ φ) →
            δ = ((1 + 1 / 2 ^ 53) ^ (3 * m + 1) - 1 + η * (1 + 1 / 2 ^ 53) ^ (3 * m + 1)) * β → τ = (1 / 2 ^ 53 + η * (1 + 1 / 2 ^ 53)) * φ →
            ∀ Q : MvPolynomial (Fin m) ℝ, Q.totalDegree ≤ N →
              Real.sqrt (∑ i, (w i * (MvPolynomial.eval (X i) P - f i)) ^ 2) ≤ Real.sqrt (∑ i, (w i * (MvPolynomial.eval (X i) Q - f i)) ^ 2) +
                Real.sqrt M * (δ * (∑ j, |P.coeff (Finsupp.equivFunOnFinite.symm (e j))| + ∑ j, |Q.coeff (Finsupp.equivFunOnFinite.symm (e j))|) + 2 * τ) := by
  obtain ⟨I, hI, hnd, hmem, -, hlen⟩ := C25_enumerates N m hm
  rw [← hlen]
  refine ⟨I.get, List.nodup_iff_injective_get.mp hnd, ?_, ?_⟩
  · ext α
    rw [Set.mem_ofPred_eq, ← hmem α, List.mem_iff_get]
    rfl
  · intro M X f w weights hM hw
    have hdeg : ∀ t : Fin I.length, ∑ j, I.get t j ≤ N := fun t => (hmem _).mp (List.get_mem I t)
    set Bf := Model.Rounded.applyWeights fl weights (Model.Rounded.monomials fl X I) f with hBf
    set c := lstsq M I.length Bf.1 Bf.2 with hc
    have hcoef : ∀ j, (fitted I c).coeff (Finsupp.equivFunOnFinite.symm (I.get j)) = c j := fun j => coeff_fitted I hnd c j
    refine ⟨fitted I c, totalDegree_fitted I c fun α hα => (hmem α).mp hα, ?_, fun β φ δ τ hβ hφ hδ hτ Q hQ => ?_⟩
    · unfold polyWeights
      rw [if_neg (by omega), hI]
      simp only [hcoef]
      rfl
    · simp only [hcoef]
      change δ = ((1 + u) ^ (3 * m + 1) - 1 + η * (1 + u) ^ (3 * m + 1)) * β at hδ
      change τ = (u + η * (1 + u)) * φ at hτ
      have hBe : ∀ i t, Near (3 * m + 1) (Bf.1 i t) (w i * ∏ k, X i k ^ I.get t k) (|w i| * ∏ k, |X i k| ^ I.get t k) := fun i t => by
        have b1 := monomial_near h.rd (h.prod (List.ofFn fun k => fl.power (X i k) (I.get t k))) fun k => h.power (X i k) (I.get t k)
        rcases hw with rfl | ⟨rfl, hw⟩
        · have := ((Proofs.Near.refl (le_refl |w i|)).mul b1).round h.rd
          rw [zero_add] at this
          exact this
        · rw [hw, one_mul, abs_one, one_mul]
          exact b1.mono (Nat.le_succ _)
      have hfe : ∀ i, Near 1 (Bf.2 i) (w i * f i) |w i * f i| := fun i => by
        rcases hw with rfl | ⟨rfl, hw⟩
        · exact (Proofs.Near.refl (le_refl |w i * f i|)).round h.rd
        · rw [hw, one_mul]
          exact (Proofs.Near.refl (le_refl |f i|)).mono (Nat.zero_le _)
      have hu1 := one_le_pow (3 * m + 1)
      obtain ⟨E, d, hE, hd, hmin⟩ := hsol M I.length Bf.1 Bf.2
      have hE' := hE ((1 + u) ^ (3 * m + 1) * β) fun i t => (hBe i t).abs_le.trans (mul_le_mul_of_nonneg_left (hβ i _ (hdeg t)) (by linarith))
      have hd' := hd ((1 + u) * φ) fun i => by
        have := (hfe i).abs_le
        rw [pow_one] at this
        exact this.trans (mul_le_mul_of_nonneg_left (hφ i) (by linarith [u_pos]))
      have hA : ∀ i t, |(w i * ∏ k, X i k ^ I.get t k) - (Bf.1 + E) i t| ≤ δ := fun i t => by
        have h1 := (hBe i t).err.trans (mul_le_mul_of_nonneg_left (hβ i _ (hdeg t)) (by linarith))
        have e : (w i * ∏ k, X i k ^ I.get t k) - (Bf.1 + E) i t = -((Bf.1 i t - w i * ∏ k, X i k ^ I.get t k) + E i t) := by
          rw [Matrix.add_apply]
          ring
        rw [e, abs_neg, hδ]
        refine (abs_add_le _ _).trans ((add_le_add h1 (hE' i t)).trans (le_of_eq ?_))
        ring
      have hb : ∀ i, |w i * f i - (Bf.2 + d) i| ≤ τ := fun i => by
        have h1 := (hfe i).err.trans (mul_le_mul_of_nonneg_left (hφ i) (by linarith [one_le_pow 1]))
        have e : w i * f i - (Bf.2 + d) i = -((Bf.2 i - w i * f i) + d i) := by
          rw [Pi.add_apply]
          ring
        rw [e, abs_neg, hτ]
        refine (abs_add_le _ _).trans ((add_le_add h1 (hd' i)).trans (le_of_eq ?_))
        ring
      set q : Fin I.length → ℝ := fun j => Q.coeff (Finsupp.equivFunOnFinite.symm (I.get j)) with hq
      have hQf : Q = fitted I q := eq_fitted I hnd (fun α hα => (hmem α).mpr hα) Q hQ
      have ev : ∀ (x : Fin I.length → ℝ) i, w i * (MvPolynomial.eval (X i) (fitted I x) - f i) = ∑ t, (w i * ∏ k, X i k ^ I.get t k) * x t - w i * f i := fun x i => by
        rw [eval_fitted, mul_sub, Finset.mul_sum]
        congr 1
        exact Finset.sum_congr rfl fun t _ => by ring
      have hopt := Real.sqrt_le_sqrt (hmin q)
      have n1 := length_near (residual_near hA hb c)
      have n2 := length_near fun i => (abs_sub_comm _ _).trans_le (residual_near hA hb q i)
      change Real.sqrt (∑ i, (∑ t, (Bf.1 + E) i t * c t - (Bf.2 + d) i) ^ 2) ≤ Real.sqrt (∑ i, (∑ t, (Bf.1 + E) i t * q t - (Bf.2 + d) i) ^ 2) at hopt
      have g1 : ∀ i, w i * (MvPolynomial.eval (X i) Q - f i) = ∑ t, (w i * ∏ k, X i k ^ I.get t k) * q t - w i * f i := fun i => by
        rw [← ev q i, ← hQf]
      simp only [ev, g1]
      have e : Real.sqrt M * (δ * (∑ j, |c j| + ∑ j, |q j|) + 2 * τ) = Real.sqrt M * (δ * ∑ j, |c j| + τ) + Real.sqrt M * (δ * ∑ j, |q j| + τ) := by ring
      rw [e]
      linarith

/-- Data that are values of a polynomial of the degree are reproduced up to rounding. -/
theorem C157_reproduces {fl : Fl} (h : FlOK fl) {lstsq : Lstsq} {η : ℝ} (hη : 0 ≤ η) (hsol : ∀ r c A b, StableLstsq η A b (lstsq r c A b)) (N m : ℕ) (hm : 1 ≤ m) :
    ∃ e : Fin ((N + m).choose m) → (Fin m → ℕ), Function.Injective e ∧ Set.range e = {α | ∑ k, α k ≤ N} ∧
      ∀ (M : ℕ) (X : Matrix (Fin M) (Fin m) ℝ) (Q : MvPolynomial (Fin m) ℝ) (β : ℝ), Q.totalDegree ≤ N → (N + m).choose m ≤ M → (∀ i k, |X i k| ≤ β) → 1 ≤ β →
        ∃ P : MvPolynomial (Fin m) ℝ, P.totalDegree ≤ N ∧
          polyWeights fl lstsq N X (fun i => MvPolynomial.eval (X i) Q) none = .ok (NpVec.of fun j => P.coeff (Finsupp.equivFunOnFinite.symm (e j))) ∧
          ∀ i, |MvPolynomial.eval (X i) P - MvPolynomial.eval (X i) Q| ≤ Real.sqrt M * (((1 + 1 / 2 ^ 53) ^ (3 * m + 1) - 1 + η * (1 + 1 / 2 ^ 53) ^ (3 * m + 1)) * β ^ N *
            (∑ j, |P.coeff (Finsupp.equivFunOnFinite.symm (e j))| + 3 * ∑ j, |Q.coeff (Finsupp.equivFunOnFinite.symm (e j))|)) := by
  obtain ⟨e, he, hr, H⟩ := C157_training h hsol N m hm
  refine ⟨e, he, hr, fun M X Q β hQ hM hX hβ => ?_⟩
  obtain ⟨P, hP, hrun, hall⟩ := H M X (fun i => MvPolynomial.eval (X i) Q) (fun _ => 1) none hM (Or.inr ⟨rfl, fun _ => rfl⟩)
  refine ⟨P, hP, hrun, fun i => ?_⟩
  have hmon : ∀ i (α : Fin m → ℕ), ∑ k, α k ≤ N → ∏ k, |X i k| ^ α k ≤ β ^ N := fun i α hα => by
    calc ∏ k, |X i k| ^ α k ≤ ∏ k, β ^ α k := Finset.prod_le_prod (fun k _ => by positivity) fun k _ => pow_le_pow_left₀ (abs_nonneg _) (hX i k) _
      _ = β ^ ∑ k, α k := Finset.prod_pow_eq_pow_sum _ _ _
      _ ≤ β ^ N := pow_le_pow_right₀ hβ hα
  set q := ∑ j, |Q.coeff (Finsupp.equivFunOnFinite.symm (e j))| with hq
  have hq0 : 0 ≤ q := Finset.sum_nonneg fun _ _ => abs_nonneg _
  have hval : ∀ i, |MvPolynomial.eval (X i) Q| ≤ β ^ N * q := fun i => by
    rw [MvPolynomial.eval_eq']
    refine (Finset.abs_sum_le_sum_abs _ _).trans ?_
    have hsub : ∀ s ∈ Q.support, |Q.coeff s * ∏ k, X i k ^ s k| ≤ β ^ N * |Q.coeff s| := fun s hs => by
      rw [abs_mul, Finset.abs_prod, mul_comm]
      refine mul_le_mul_of_nonneg_right ?_ (abs_nonneg _)
      have h1 : ∑ k, s k ≤ N := by
        refine le_trans ?_ hQ
        have := MvPolynomial.le_totalDegree hs
        rwa [Finsupp.sum_fintype _ _ fun _ => rfl] at this
      have := hmon i s h1
      simpa only [abs_pow] using this
    refine (Finset.sum_le_sum hsub).trans ?_
    rw [← Finset.mul_sum]
    refine mul_le_mul_of_nonneg_left ?_ (by positivity)
    have himg : Q.support ⊆ Finset.univ.image fun j => Finsupp.equivFunOnFinite.symm (e j) := fun s hs => by
      have h1 : ∑ k, s k ≤ N := by
        refine le_trans ?_ hQ
        have := MvPolynomial.le_totalDegree hs
        rwa [Finsupp.sum_fintype _ _ fun _ => rfl] at this
      have h2 : (s : Fin m → ℕ) ∈ Set.range e := by rw [hr]; exact h1
      obtain ⟨j, hj⟩ := h2
      refine Finset.mem_image.mpr ⟨j, Finset.mem_univ _, ?_⟩
      rw [hj]
      exact Finsupp.equivFunOnFinite.symm_apply_apply s
    refine (Finset.sum_le_sum_of_subset_of_nonneg himg fun _ _ _ => abs_nonneg _).trans (le_of_eq ?_)
    rw [Finset.sum_image fun a _ b _ hab => he (Finsupp.equivFunOnFinite.symm.injective hab)]
  have hmain := hall (β ^ N) (β ^ N * q) _ _ (fun i α hα => by rw [abs_one, one_mul]; exact hmon i α hα) (fun i => by rw [one_mul]; exact hval i) rfl rfl Q hQ
  simp only [sub_self, mul_zero, one_mul, ne_eq, OfNat.ofNat_ne_zero, not_false_eq_true, zero_pow, Finset.sum_const_zero, Real.sqrt_zero, zero_add] at hmain
  have h1 : |MvPolynomial.eval (X i) P - MvPolynomial.eval (X i) Q| ≤ Real.sqrt (∑ i, (MvPolynomial.eval (X i) P - MvPolynomial.eval (X i) Q) ^ 2) := by
    rw [← Real.sqrt_sq_eq_abs]
    exact Real.sqrt_le_sqrt (Finset.single_le_sum (f := fun i => (MvPolynomial.eval (X i) P - MvPolynomial.eval (X i) Q) ^ 2) (fun _ _ => sq_nonneg _) (Finset.mem_univ i))
  refine h1.trans (hmain.trans (mul_le_mul_of_nonneg_left ?_ (Real.sqrt_nonneg _)))
  change _ * (_ + q) + 2 * ((u + η * (1 + u)) * (β ^ N * q)) ≤ ((1 + u) ^ (3 * m + 1) - 1 + η * (1 + u) ^ (3 * m + 1)) * β ^ N * (_ + 3 * q)
  have h2 : 1 + u ≤ (1 + u) ^ (3 * m + 1) := le_self_pow₀ (by linarith [u_pos]) (by omega)
  have h3 : (u + η * (1 + u)) * (β ^ N * q) ≤ ((1 + u) ^ (3 * m + 1) - 1 + η * (1 + u) ^ (3 * m + 1)) * (β ^ N * q) := by
    refine mul_le_mul_of_nonneg_right ?_ (by positivity)
    have := mul_le_mul_of_nonneg_left h2 hη
    linarith
  change ((1 + u) ^ (3 * m + 1) - 1 + η * (1 + u) ^ (3 * m + 1)) * β ^ N * (_ + q) + _ ≤ _
  linarith

/-- A library and a solver that keep the contracts. -/
example : ∃ (fl : Fl) (lstsq : Lstsq), FlOK fl ∧ ∀ r c A b, StableLstsq (1 / 2 ^ 40) A b (lstsq r c A b) := by
  obtain ⟨fl, hfl⟩ := fl_exists
  obtain ⟨lstsq, hl⟩ := Proofs.LeastSquares.lstsqContract_satisfiable
  refine ⟨fl, fun r c A b => lstsq A b, hfl, fun r c A b => ⟨0, 0, fun Λ hΛ i j => ?_, fun Λ hΛ i => ?_, ?_⟩⟩
  · rw [Matrix.zero_apply, abs_zero]
    exact mul_nonneg (by positivity) ((abs_nonneg _).trans (hΛ i j))
  · rw [Pi.zero_apply, abs_zero]
    exact mul_nonneg (by positivity) ((abs_nonneg _).trans (hΛ i))
  · rw [add_zero, add_zero]
    exact (hl A b).1

/-- Three points on a line meet the conditions of the second theorem for degree one. -/
example : (MvPolynomial.X 0 : MvPolynomial (Fin 1) ℝ).totalDegree ≤ 1 ∧ (1 + 1).choose 1 ≤ 3 ∧
    (∀ i k, |(Matrix.of ![![-1], ![0], ![2]] : Matrix (Fin 3) (Fin 1) ℝ) i k| ≤ 2) ∧ (1 : ℝ) ≤ 2 := by
  refine ⟨(MvPolynomial.totalDegree_X _).le, by norm_num, fun i k => ?_, by norm_num⟩
  fin_cases i <;> fin_cases k <;> norm_num [Matrix.of_apply]

end Props
