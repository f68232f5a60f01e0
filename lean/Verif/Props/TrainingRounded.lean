import Verif.Model.RoundedTraining
import Verif.Props.SurfacesRounded
import Verif.Proofs.RBF
import Verif.Spec.StableSolve

/-!
# Property C156: training of radial basis surfaces in double precision
-/

open Py Model.Misc Model.ResponseSurfaces Model.Rounded Spec Proofs.Rounding Proofs.FloatSum Proofs.Near Proofs.FloatProd Proofs.PolyApprox Proofs.RBF

namespace Props

variable {M m p : ℕ}

theorem saddle_entries (K : Matrix (Fin M) (Fin M) ℝ) (B : Matrix (Fin M) (Fin p) ℝ) :
    (∀ i j, saddle K B (Fin.castAdd p i) (Fin.castAdd p j) = K i j) ∧ (∀ i t, saddle K B (Fin.castAdd p i) (Fin.natAdd M t) = B i t) ∧
    (∀ t j, saddle K B (Fin.natAdd M t) (Fin.castAdd p j) = B j t) ∧ ∀ t s, saddle K B (Fin.natAdd M t) (Fin.natAdd M s) = 0 := by
  refine ⟨fun i j => ?_, fun i t => ?_, fun t j => ?_, fun t s => ?_⟩ <;>
    simp [saddle, Np.zeros]

/-- The residual of a nearly solved row. -/
theorem row_bound {ι κ : Type*} [Fintype ι] [Fintype κ] {a A E r : ι → ℝ} {b B F c : κ → ℝ} {y α β η : ℝ} (h : ∑ i, (A i + E i) * r i + ∑ j, (B j + F j) * c j = y)
    (hA : ∀ i, |A i - a i| ≤ α) (hE : ∀ i, |E i| ≤ η) (hB : ∀ j, |B j - b j| ≤ β) (hF : ∀ j, |F j| ≤ η) :
    |∑ i, a i * r i + ∑ j, b j * c j - y| ≤ (α + η) * ∑ i, |r i| + (β + η) * ∑ j, |c j| := by
  have e : ∑ i, a i * r i + ∑ j, b j * c j - y = -(∑ i, (A i - a i + E i) * r i + ∑ j, (B j - b j + F j) * c j) := by
    rw [← h]
    have e1 : ∑ i, (A i + E i) * r i = ∑ i, a i * r i + ∑ i, (A i - a i + E i) * r i := by
      rw [← Finset.sum_add_distrib]
      exact Finset.sum_congr rfl fun i _ => by ring
    have e2 : ∑ j, (B j + F j) * c j = ∑ j, b j * c j + ∑ j, (B j - b j + F j) * c j := by
      rw [← Finset.sum_add_distrib]
      exact Finset.sum_congr rfl fun i _ => by ring
    rw [e1, e2]
    ring
  rw [e, abs_neg]
  refine (abs_add_le _ _).trans (add_le_add ?_ ?_)
  · rw [Finset.mul_sum]
    refine (Finset.abs_sum_le_sum_abs _ _).trans (Finset.sum_le_sum fun i _ => ?_)
    rw [abs_mul]
    exact mul_le_mul_of_nonneg_right ((abs_add_le _ _).trans (add_le_add (hA i) (hE i))) (abs_nonneg _)
  · rw [Finset.mul_sum]
    refine (Finset.abs_sum_le_sum_abs _ _).trans (Finset.sum_le_sum fun i _ => ?_)
    rw [abs_mul]
    exact mul_le_mul_of_nonneg_right ((abs_add_le _ _).trans (add_le_add (hB i) (hF i))) (abs_nonneg _)

/-- **C156.** The weights that training computes in double precision with a backward stable solver: the stored expansion reproduces the data, up to the regularisation
and a residual that does not depend on the condition of the system, and the radial weights are nearly orthogonal to the monomials. -/
theorem C156_training {fl : Fl} (h : FlOK fl) {solve : Solve} {η : ℝ} (hsol : ∀ n C b x, solve n C b = .ok x → StableSolve η C b x)
    (N m : ℕ) (hm : 1 ≤ m) (hm' : m + 4 ≤ 2 ^ 51) :
    ∃ e : Fin ((N + m).choose m) → (Fin m → ℕ), Function.Injective e ∧ Set.range e = {α | ∑ k, α k ≤ N} ∧
      ∀ (M : ℕ) (X : Matrix (Fin M) (Fin m) ℝ) (f : Fin M → ℝ) (ell : Fin m → ℝ) (v : Fin M → ℝ) (R C : NpVec), 0 < M → (∀ k, 0 < ell k) →
        rbfWeights fl solve N X f ell v = .ok (R, C) →
        ∃ (r : Fin M → ℝ) (c : Fin ((N + m).choose m) → ℝ), R = NpVec.of r ∧ C = NpVec.of c ∧
        ∀ (ε β V Λ : ℝ) (reg : Fin M → ℝ), ε = ((1 + 1 / 2 ^ 53) ^ (m + 4) - 1) + ((1 + 1 / 2 ^ 53) ^ 3 - 1) →
          (∀ i (α : Fin m → ℕ), ∑ k, α k ≤ N → ∏ k, |X i k| ^ α k ≤ β) → (∀ i, reg i = max (v i) (fl.rd 1e-6)) → (∀ i, reg i ≤ V) →
          Λ = (1 + 1 / 2 ^ 53) ^ (3 * m + 1) * (β + ε + V) →
          (∀ P : MvPolynomial (Fin m) ℝ, P.totalDegree ≤ N → (∀ j, c j = P.coeff (Finsupp.equivFunOnFinite.symm (e j))) → ∀ i,
            |expansion ell X r P (X i) + reg i * r i - f i|
              ≤ (ε + (1 + ε + V) / 2 ^ 53 + η * Λ) * ∑ j, |r j| + (((1 + 1 / 2 ^ 53) ^ (3 * m) - 1) * β + η * Λ) * ∑ t, |c t|) ∧
          ∀ α : Fin m → ℕ, ∑ k, α k ≤ N →
            |∑ i, r i * ∏ k, X i k ^ α k| ≤ (((1 + 1 / 2 ^ 53) ^ (3 * m) - 1) * β + η * Λ) * ∑ j, |r j| + η * Λ * ∑ t, |c t| := by
  obtain ⟨I, hI, hnd, hmem, -, hlen⟩ := C25_enumerates N m hm
  rw [← hlen]
  refine ⟨I.get, List.nodup_iff_injective_get.mp hnd, ?_, ?_⟩
  · ext α
    rw [Set.mem_ofPred_eq, ← hmem α, List.mem_iff_get]
    rfl
  · intro M X f ell v R C hMpos hell hrun
    unfold rbfWeights at hrun
    rw [hI] at hrun
    obtain ⟨W, hW, hrun⟩ := bind_ok (show (solve (M + I.length) (saddle (Model.Rounded.covMat fl X ell fun i => max (v i) (fl.rd 1e-6)) (Model.Rounded.monomials fl X I))
      (Np.vstack (colMat f) (Np.zeros I.length 1)) >>= fun weights => _) = _ from hrun)
    obtain ⟨rfl, rfl⟩ := Prod.mk.inj (Except.ok.inj hrun)
    refine ⟨_, _, rfl, rfl, fun ε β V Λ reg hε hβ hreg hV hΛ => ?_⟩
    obtain ⟨E, hE, hsys⟩ := hsol _ _ _ _ hW
    have hfun : (fun i => max (v i) (fl.rd 1e-6)) = reg := funext fun i => (hreg i).symm
    rw [hfun] at hE hsys
    set K := Model.Rounded.covMat fl X ell reg with hK
    set B := Model.Rounded.monomials fl X I with hB
    set r : Fin M → ℝ := fun i => W (Fin.castAdd _ i) 0 with hr
    set c : Fin I.length → ℝ := fun j => W (Fin.natAdd M j) 0 with hc
    obtain ⟨s1, s2, s3, s4⟩ := saddle_entries K B
    change ε = ((1 + u) ^ (m + 4) - 1) + ((1 + u) ^ 3 - 1) at hε
    change Λ = (1 + u) ^ (3 * m + 1) * (β + ε + V) at hΛ
    have hε0 : 0 ≤ ε := by linarith [one_le_pow (m + 4), one_le_pow 3]
    have hdeg : ∀ t : Fin I.length, ∑ j, I.get t j ≤ N := fun t => (hmem _).mp (List.get_mem I t)
    have hreg0 : ∀ i, 0 ≤ reg i := fun i => by
      rw [hreg]
      exact le_max_of_le_right (nonneg h.rd (by norm_num))
    -- entries of the kernel matrix
    have hKe : ∀ i j, |K i j - (gauss ell (X i) (X j) + if i = j then reg i else 0)| ≤ ε + (1 + ε + V) / 2 ^ 53 ∧ |K i j| ≤ (1 + u) * (1 + ε + V) := fun i j => by
      have k1 := C151_kernel h hm' X X hell i j
      rw [show ((1 + 1 / 2 ^ 53) ^ (m + 4) - 1) + ((1 + 1 / 2 ^ 53) ^ 3 - 1) = ε from hε.symm] at k1
      have k2 : |gauss ell (X i) (X j)| ≤ 1 := by
        rw [gauss, abs_of_pos (Real.exp_pos _)]
        exact Real.exp_le_one_iff.mpr (neg_nonpos.mpr (Finset.sum_nonneg fun k _ => div_nonneg (sq_nonneg _) (hell k).le))
      have hVi := (hreg0 i).trans (hV i)
      set δ : ℝ := if i = j then reg i else 0 with hδ
      have hδV : |δ| ≤ V := by
        rw [hδ]
        split_ifs
        · rw [abs_of_nonneg (hreg0 i)]; exact hV i
        · rw [abs_zero]; exact hVi
      set κ := Model.Rounded.exponential_squared fl X X 1 ell i j with hκ
      have k3 : |κ + δ| ≤ 1 + ε + V := by
        have : κ + δ = (κ - gauss ell (X i) (X j)) + gauss ell (X i) (X j) + δ := by ring
        rw [this]
        refine (abs_add_le _ _).trans ?_
        have := abs_add_le (κ - gauss ell (X i) (X j)) (gauss ell (X i) (X j))
        linarith
      have k4 := error h.rd (κ + δ)
      have k5 : K i j = fl.rd (κ + δ) := rfl
      have k6 : |κ + δ| / 2 ^ 53 ≤ (1 + ε + V) / 2 ^ 53 := div_le_div_of_nonneg_right k3 (by positivity)
      rw [k5]
      constructor
      · have : fl.rd (κ + δ) - (gauss ell (X i) (X j) + δ) = (κ - gauss ell (X i) (X j)) + (fl.rd (κ + δ) - (κ + δ)) := by ring
        rw [this]
        exact (abs_add_le _ _).trans (add_le_add k1 (k4.trans k6))
      · have : fl.rd (κ + δ) = (κ + δ) + (fl.rd (κ + δ) - (κ + δ)) := by ring
        rw [this]
        refine (abs_add_le _ _).trans ((add_le_add k3 (k4.trans k6)).trans (le_of_eq ?_))
        unfold u
        ring
    -- entries of the monomials
    have hBe : ∀ i t, |B i t - ∏ k, X i k ^ I.get t k| ≤ ((1 + u) ^ (3 * m) - 1) * β ∧ |B i t| ≤ (1 + u) ^ (3 * m) * β := fun i t => by
      have b1 := monomial_near h.rd (h.prod (List.ofFn fun k => fl.power (X i k) (I.get t k))) fun k => h.power (X i k) (I.get t k)
      have b2 := hβ i (I.get t) (hdeg t)
      exact ⟨b1.err.trans (mul_le_mul_of_nonneg_left b2 (by linarith [one_le_pow (3 * m)])), b1.abs_le.trans (mul_le_mul_of_nonneg_left b2 (by linarith [one_le_pow (3 * m)]))⟩
    have hβ1 : 1 ≤ β := by
      have := hβ ⟨0, hMpos⟩ 0 (by simp)
      simpa using this
    have hV0 : 0 ≤ V := (hreg0 ⟨0, hMpos⟩).trans (hV _)
    have hu1 := one_le_pow (3 * m)
    have hΛK : (1 + u) * (1 + ε + V) ≤ Λ := by
      rw [hΛ, pow_succ, mul_comm ((1 + u) ^ (3 * m)), mul_assoc]
      refine mul_le_mul_of_nonneg_left ?_ (by linarith [u_pos])
      nlinarith
    have hΛB : (1 + u) ^ (3 * m) * β ≤ Λ := by
      rw [hΛ, pow_succ, mul_assoc]
      refine mul_le_mul_of_nonneg_left ?_ (by linarith)
      nlinarith [u_pos]
    have hΛ0 : 0 ≤ Λ := (by positivity : (0 : ℝ) ≤ (1 + u) ^ (3 * m) * β).trans hΛB
    have hE' := hE Λ fun i j => by
      refine Fin.addCases (fun i => ?_) (fun t => ?_) i <;> refine Fin.addCases (fun j => ?_) (fun s => ?_) j
      · rw [s1]; exact (hKe i j).2.trans hΛK
      · rw [s2]; exact (hBe i s).2.trans hΛB
      · rw [s3]; exact (hBe j t).2.trans hΛB
      · rw [s4, abs_zero]; exact hΛ0
    constructor
    · intro P hP hcP i
      have hPf : P = fitted I c := by
        rw [eq_fitted I hnd (fun α hα => (hmem α).mpr hα) P hP]
        congr 1
        funext j
        exact (hcP j).symm
      have h1 := congrFun (congrFun hsys (Fin.castAdd I.length i)) 0
      rw [Np.vstack_castAdd, Matrix.mul_apply, Fin.sum_univ_add] at h1
      simp only [Matrix.add_apply, s1, s2] at h1
      have h2 := row_bound (r := r) (c := c) h1 (fun j => (hKe i j).1) (fun j => hE' _ _) (fun t => (hBe i t).1) (fun t => hE' _ _)
      have e1 : ∑ j, (gauss ell (X i) (X j) + if i = j then reg i else 0) * r j + ∑ t, (∏ k, X i k ^ I.get t k) * c t - colMat f i 0
          = expansion ell X r P (X i) + reg i * r i - f i := by
        rw [hPf, expansion, bumps, eval_fitted]
        have : ∑ j, (gauss ell (X i) (X j) + if i = j then reg i else 0) * r j = ∑ j, r j * gauss ell (X i) (X j) + reg i * r i := by
          simp only [add_mul, ite_mul, zero_mul, Finset.sum_add_distrib, Finset.sum_ite_eq, Finset.mem_univ, if_true]
          congr 1
          exact Finset.sum_congr rfl fun j _ => mul_comm _ _
        rw [this, show ∑ t, (∏ k, X i k ^ I.get t k) * c t = ∑ t, c t * ∏ k, X i k ^ I.get t k from Finset.sum_congr rfl fun j _ => mul_comm _ _]
        change _ - f i = _
        ring
      rw [e1] at h2
      exact h2
    · intro α hα
      obtain ⟨t, rfl⟩ := List.mem_iff_get.mp ((hmem α).mpr hα)
      have h1 := congrFun (congrFun hsys (Fin.natAdd M t)) 0
      rw [Np.vstack_natAdd, Matrix.mul_apply, Fin.sum_univ_add] at h1
      simp only [Matrix.add_apply, s3, s4] at h1
      have h2 := row_bound (r := r) (c := c) (b := fun _ => 0) (β := 0) h1 (fun j => (hBe j t).1) (fun j => hE' _ _) (fun s => by simp) (fun s => hE' _ _)
      have e1 : ∑ j, (∏ k, X j k ^ I.get t k) * r j + ∑ s : Fin I.length, (0 : ℝ) * c s - Np.zeros I.length 1 t 0 = ∑ i, r i * ∏ k, X i k ^ I.get t k := by
        simp only [zero_mul, Finset.sum_const_zero, add_zero, Np.zeros]
        rw [Matrix.of_apply, sub_zero]
        exact Finset.sum_congr rfl fun j _ => mul_comm _ _
      rw [e1, zero_add] at h2
      exact h2

open Classical in
/-- A library and a solver that keep the contracts, with which training at one point succeeds. -/
example : ∃ (fl : Fl) (solve : Solve) (R C : NpVec), FlOK fl ∧ (∀ n C b x, solve n C b = .ok x → StableSolve (1 / 2 ^ 40) C b x) ∧
    rbfWeights fl solve 0 (Matrix.of ![![1 / 2]] : Matrix (Fin 1) (Fin 1) ℝ) ![3] ![2] ![0] = .ok (R, C) := by
  obtain ⟨fl, hfl⟩ := fl_exists
  let solve : Solve := fun n C b => if hx : ∃ x, C * x = b then .ok hx.choose else .error .valueError
  obtain ⟨I, hI, -, hmem, -, hlen⟩ := C25_enumerates 0 1 le_rfl
  have h1 : I.length = 1 := by rw [hlen]; rfl
  let t0 : Fin I.length := ⟨0, by omega⟩
  have ht : ∀ t : Fin I.length, t = t0 := fun t => Fin.ext (by have := t.2; simp only [t0]; omega)
  let X : Matrix (Fin 1) (Fin 1) ℝ := Matrix.of ![![1 / 2]]
  let K := Model.Rounded.covMat fl X ![2] fun i => max ((![0] : Fin 1 → ℝ) i) (fl.rd 1e-6)
  let B := Model.Rounded.monomials fl X I
  have hB : B 0 t0 ≠ 0 := by
    have h2 := (monomial_near hfl.rd (hfl.prod (List.ofFn fun k => fl.power (X 0 k) (I.get t0 k))) fun k => hfl.power (X 0 k) (I.get t0 k)).err
    have h3 : I.get t0 0 = 0 := by
      have := (hmem (I.get t0)).mp (List.get_mem I t0)
      simpa using this
    simp only [Finset.univ_unique, Fin.default_eq_zero, Fin.isValue, Finset.prod_singleton, h3, pow_zero, mul_one] at h2
    have h4 := gamma_le (n := 3) (by norm_num)
    intro h0
    change |B 0 t0 - 1| ≤ _ at h2
    rw [h0] at h2
    norm_num at h2
    linarith
  have hex : ∃ x : Matrix (Fin (1 + I.length)) (Fin 1) ℝ, saddle K B * x = Np.vstack (colMat ![3]) (Np.zeros I.length 1) := by
    obtain ⟨s1, s2, s3, s4⟩ := saddle_entries K B
    refine ⟨Np.vstack (Np.zeros 1 1) (Matrix.of fun _ _ => 3 / B 0 t0), ?_⟩
    ext a b
    have hu : (Finset.univ : Finset (Fin I.length)) = {t0} := by
      ext t
      simp [ht t]
    refine Fin.addCases (fun i => ?_) (fun t => ?_) a
    · have hi : i = 0 := Subsingleton.elim _ _
      subst hi
      rw [Np.vstack_castAdd, Matrix.mul_apply, Fin.sum_univ_add, hu, Finset.sum_singleton]
      simp only [s1, s2, Np.vstack_castAdd, Np.vstack_natAdd, Np.zeros, Matrix.of_apply, mul_zero, Finset.sum_const_zero, zero_add]
      rw [mul_div_cancel₀ _ hB]
      rfl
    · rw [Np.vstack_natAdd, Matrix.mul_apply, Fin.sum_univ_add]
      simp only [s3, s4, Np.vstack_castAdd, Np.vstack_natAdd, Np.zeros, Matrix.of_apply, mul_zero, zero_mul, Finset.sum_const_zero, zero_add]
  refine ⟨fl, solve, NpVec.of fun i : Fin 1 => hex.choose (Fin.castAdd _ i) 0, NpVec.of fun j : Fin I.length => hex.choose (Fin.natAdd 1 j) 0, hfl,
    fun n C b x hx => ?_, ?_⟩
  · by_cases hs : ∃ x, C * x = b
    · rw [show solve n C b = .ok hs.choose from dif_pos hs] at hx
      obtain rfl := Except.ok.inj hx
      refine ⟨0, fun Λ hΛ i j => ?_, by rw [add_zero]; exact hs.choose_spec⟩
      rw [Matrix.zero_apply, abs_zero]
      exact mul_nonneg (by positivity) ((abs_nonneg _).trans (hΛ i j))
    · rw [show solve n C b = .error .valueError from dif_neg hs] at hx
      cases hx
  · unfold rbfWeights
    rw [hI]
    change (solve (1 + I.length) (saddle K B) (Np.vstack (colMat ![3]) (Np.zeros I.length 1)) >>= fun weights => _) = _
    rw [show solve (1 + I.length) (saddle K B) (Np.vstack (colMat ![3]) (Np.zeros I.length 1)) = .ok hex.choose from dif_pos hex]
    rfl

end Props
