import Verif.Model.RoundedSurfaces
import Verif.Proofs.FloatProd
import Verif.Props.PolyApprox
import Verif.Spec.NativeSpace

/-!
# Properties C150 and C151: predictions of response surfaces in double precision
-/

open Py Model.Misc Model.ResponseSurfaces Model.Rounded Spec Proofs.Rounding Proofs.FloatSum Proofs.Near Proofs.FloatProd Proofs.PolyApprox

namespace Props

variable {M m : ℕ}

/-- The contract of the library: products of matrices and of numbers with rounding in any order, powers and exponentials within one unit in the last place. -/
structure FlOK (fl : Fl) : Prop where
  rd : Rounding fl.rd
  dot : ∀ p n q A B, FloatDot fl.rd A B (fl.d p n q A B)
  prod : ∀ l, FloatProd fl.rd l (fl.prod l)
  power : ∀ x n, OneUlp (fl.power x n) (x ^ n)
  exp : ∀ x, OneUlp (fl.exp x) (Real.exp x)

theorem fl_exists : ∃ fl : Fl, FlOK fl := by
  obtain ⟨rd, hr⟩ := exists_rounding
  exact ⟨⟨rd, fun p n q A B => Matrix.of fun i j => (exists_floatSum rd (List.ofFn fun k => (A i k, B k j))).choose,
      fun l => (exists_floatProd rd l).choose, fun x n => rd (x ^ n), fun x => rd (Real.exp x)⟩,
    ⟨hr, fun p n q A B i j => (exists_floatSum rd (List.ofFn fun k => (A i k, B k j))).choose_spec,
      fun l => (exists_floatProd rd l).choose_spec, fun x n => oneUlp_rounding hr _, fun x => oneUlp_rounding hr _⟩⟩

theorem vecDot_of (d : Dot) {p : ℕ} (B : Matrix (Fin M) (Fin p) ℝ) (w : Fin p → ℝ) : vecDot d B (NpVec.of w) = .ok fun i => d M p 1 B (colMat w) i 0 :=
  dif_pos rfl

theorem vecDot_near {fl : Fl} (h : FlOK fl) {p n : ℕ} {B : Matrix (Fin M) (Fin p) ℝ} (w : Fin p → ℝ) {b μ : Fin p → ℝ} {i : Fin M}
    (hB : ∀ j, Near n (B i j) (b j) (μ j)) : Near (p + n) (fl.d M p 1 B (colMat w) i 0) (∑ j, b j * w j) (∑ j, μ j * |w j|) :=
  near_dot h.rd (h.dot M p 1 B (colMat w) i 0) fun j => by
    have := (hB j).mul (refl (b := w j) (m := |w j|) le_rfl)
    simpa [colMat] using this

theorem gradMonomial_near {fl : Fl} (h : FlOK fl) (X : Matrix (Fin M) (Fin m) ℝ) (I : List (Fin m → ℕ)) (k : Fin m) (i : Fin M) (j : Fin I.length) :
    Near (3 * m + 1) (Model.Rounded.gradMonomials fl X I k i j) (Model.ResponseSurfaces.gradMonomials X I k i j)
      (I.get j k * ∏ l, |X i l| ^ (I.get j l - if l = k then 1 else 0)) := by
  unfold Model.Rounded.gradMonomials Model.ResponseSurfaces.gradMonomials
  simp only [Matrix.of_apply]
  split_ifs with h0
  · rw [h0]
    simpa using (refl (b := (0 : ℝ)) (m := 0) (by simp)).mono (Nat.zero_le _)
  · have h1 := monomial_near h.rd (h.prod (List.ofFn fun l => fl.power (X i l) (Function.update (I.get j) k (I.get j k - 1) l)))
      (fun l => h.power (X i l) (Function.update (I.get j) k (I.get j k - 1) l))
    have h2 := ((refl (b := (I.get j k : ℝ)) (m := (I.get j k : ℝ)) (by simp)).mul h1).round h.rd
    rw [Nat.zero_add] at h2
    have e : ∀ l, Function.update (I.get j) k (I.get j k - 1) l = I.get j l - if l = k then 1 else 0 := fun l => by
      rcases eq_or_ne l k with rfl | hl
      · simp
      · rw [Function.update_of_ne hl, if_neg hl, Nat.sub_zero]
    have e2 : ∏ l, |X i l| ^ Function.update (I.get j) k (I.get j k - 1) l = ∏ l, |X i l| ^ (I.get j l - if l = k then 1 else 0) :=
      Finset.prod_congr rfl fun l _ => by rw [e l]
    rw [e2] at h2
    exact h2

/-- What `predict` of a polynomial surface returns in floating point. -/
theorem polyPredict_eq (fl : Fl) (s : PolyApprox) {I : List (Fin m → ℕ)} (hI : index_set s.N m = .ok I) (c : Fin I.length → ℝ)
    (hc : s.poly_weights = some (NpVec.of c)) (X : Matrix (Fin M) (Fin m) ℝ) :
    polyPredict fl s (.mat (NpMat.of X)) false = .ok (NpVec.of fun i => fl.d M I.length 1 (Model.Rounded.monomials fl X I) (colMat c) i 0, none) ∧
    polyPredict fl s (.mat (NpMat.of X)) true = .ok (NpVec.of fun i => fl.d M I.length 1 (Model.Rounded.monomials fl X I) (colMat c) i 0,
      some (NpMat.of (Matrix.of fun i k => fl.d M I.length 1 (Model.Rounded.gradMonomials fl X I k) (colMat c) i 0))) := by
  have h3 : ((List.finRange m).mapM fun k => vecDot fl.d (Model.Rounded.gradMonomials fl X I k) (NpVec.of c))
      = .ok ((List.finRange m).map fun k => fun i => fl.d M I.length 1 (Model.Rounded.gradMonomials fl X I k) (colMat c) i 0) :=
    mapM_ok _ _ _ fun k _ => vecDot_of _ _ _
  have h1 : polyPredictMat fl s X false = .ok (fun i => fl.d M I.length 1 (Model.Rounded.monomials fl X I) (colMat c) i 0, none) := by
    unfold polyPredictMat
    rw [hI, hc]
    change (vecDot fl.d (Model.Rounded.monomials fl X I) (NpVec.of c) >>= fun f => _) = _
    rw [vecDot_of]
    rfl
  have h2 : polyPredictMat fl s X true = .ok (fun i => fl.d M I.length 1 (Model.Rounded.monomials fl X I) (colMat c) i 0,
      some (Matrix.of fun i k => fl.d M I.length 1 (Model.Rounded.gradMonomials fl X I k) (colMat c) i 0)) := by
    unfold polyPredictMat
    rw [hI, hc]
    change (vecDot fl.d (Model.Rounded.monomials fl X I) (NpVec.of c) >>= fun f => _) = _
    rw [vecDot_of]
    change (((List.finRange m).mapM fun k => vecDot fl.d (Model.Rounded.gradMonomials fl X I k) (NpVec.of c)) >>= fun cols => _) = _
    rw [h3]
    change Except.ok (_, some (Matrix.of fun i (k : Fin m) => (((List.finRange m).map fun k => fun i => fl.d M I.length 1
      (Model.Rounded.gradMonomials fl X I k) (colMat c) i 0).getD k fun _ => 0) i)) = _
    congr 3
    ext i k
    simp only [Matrix.of_apply, getD_map_finRange]
  constructor
  · simp only [polyPredict, Model.Misc.process_inputs, NpMat.of_val]
    erw [h1]
    rfl
  · simp only [polyPredict, Model.Misc.process_inputs, NpMat.of_val]
    erw [h2]
    rfl

/-- **C150.** In double precision the predictions of a polynomial surface with `n` coefficients in `m` variables differ from the values of the polynomial by at most
`(1 + 2^-53)^(n + 3m) - 1` relative to the sum of the absolute values of its terms, and the entries of the gradients from its partial derivatives by at most
`(1 + 2^-53)^(n + 3m + 1) - 1` relative to the sum of the absolute values of theirs. -/
theorem C150_predict {fl : Fl} (h : FlOK fl) (N m : ℕ) (hm : 1 ≤ m) :
    ∃ e : Fin ((N + m).choose m) → (Fin m → ℕ), Function.Injective e ∧ Set.range e = {α | ∑ k, α k ≤ N} ∧
      ∀ (c : Fin ((N + m).choose m) → ℝ) (s : PolyApprox), s.N = N → s.poly_weights = some (NpVec.of c) →
      ∀ (M : ℕ) (X : Matrix (Fin M) (Fin m) ℝ), ∃ (f : Fin M → ℝ) (df : Matrix (Fin M) (Fin m) ℝ),
        polyPredict fl s (.mat (NpMat.of X)) false = .ok (NpVec.of f, none) ∧
        polyPredict fl s (.mat (NpMat.of X)) true = .ok (NpVec.of f, some (NpMat.of df)) ∧
        ∀ P : MvPolynomial (Fin m) ℝ, P.totalDegree ≤ N → (∀ j, c j = P.coeff (Finsupp.equivFunOnFinite.symm (e j))) → ∀ i,
          |f i - MvPolynomial.eval (X i) P| ≤ ((1 + 1 / 2 ^ 53) ^ ((N + m).choose m + 3 * m) - 1) * ∑ j, |c j| * ∏ k, |X i k| ^ e j k ∧
          ∀ k, |df i k - MvPolynomial.eval (X i) (MvPolynomial.pderiv k P)|
            ≤ ((1 + 1 / 2 ^ 53) ^ ((N + m).choose m + 3 * m + 1) - 1) * ∑ j, |c j| * (e j k * ∏ l, |X i l| ^ (e j l - if l = k then 1 else 0)) := by
  obtain ⟨I, hI, hnd, hmem, -, hlen⟩ := C25_enumerates N m hm
  rw [← hlen]
  refine ⟨I.get, List.nodup_iff_injective_get.mp hnd, ?_, ?_⟩
  · ext α
    rw [Set.mem_ofPred_eq, ← hmem α, List.mem_iff_get]
    rfl
  · rintro c s rfl hc M X
    obtain ⟨h1, h2⟩ := polyPredict_eq fl s hI c hc X
    refine ⟨_, _, h1, h2, fun P hP hcP i => ?_⟩
    have hPf : P = fitted I c := by
      rw [eq_fitted I hnd (fun α hα => (hmem α).mpr hα) P hP]
      congr 1
      funext j
      exact (hcP j).symm
    subst hPf
    constructor
    · have := (vecDot_near h c (B := Model.Rounded.monomials fl X I) (i := i) fun j =>
        monomial_near h.rd (h.prod (List.ofFn fun k => fl.power (X i k) (I.get j k))) fun k => h.power (X i k) (I.get j k)).err
      rw [eval_fitted]
      simpa only [mul_comm (c _), mul_comm |c _|, u] using this
    · intro k
      have := (vecDot_near h c (B := Model.Rounded.gradMonomials fl X I k) (i := i) fun j => gradMonomial_near h X I k i j).err
      have e := congrFun (mulVec_gradMonomials X I c k) i
      rw [← e]
      simp only [Matrix.mulVec, dotProduct, Matrix.of_apply]
      simpa only [mul_comm |c _|, u, ← add_assoc] using this

/-- On the cube: errors at most `(1 + 2^-53)^(n + 3m) - 1` times the sum of the absolute values of the coefficients, and `N` times that for the gradients. -/
theorem C150_cube {fl : Fl} (h : FlOK fl) (N m : ℕ) (hm : 1 ≤ m) (P : MvPolynomial (Fin m) ℝ) (hP : P.totalDegree ≤ N) :
    ∃ c : Fin ((N + m).choose m) → ℝ, ∑ j, |c j| = ∑ α ∈ P.support, |P.coeff α| ∧ ∀ s : PolyApprox, s.N = N → s.poly_weights = some (NpVec.of c) →
      ∀ (M : ℕ) (X : Matrix (Fin M) (Fin m) ℝ), (∀ i k, |X i k| ≤ 1) → ∃ (f : Fin M → ℝ) (df : Matrix (Fin M) (Fin m) ℝ),
        polyPredict fl s (.mat (NpMat.of X)) true = .ok (NpVec.of f, some (NpMat.of df)) ∧ ∀ i,
          |f i - MvPolynomial.eval (X i) P| ≤ ((1 + 1 / 2 ^ 53) ^ ((N + m).choose m + 3 * m) - 1) * ∑ α ∈ P.support, |P.coeff α| ∧
          ∀ k, |df i k - MvPolynomial.eval (X i) (MvPolynomial.pderiv k P)|
            ≤ ((1 + 1 / 2 ^ 53) ^ ((N + m).choose m + 3 * m + 1) - 1) * (N * ∑ α ∈ P.support, |P.coeff α|) := by
  obtain ⟨e, he, hrange, hall⟩ := C150_predict h N m hm
  let φ : Fin ((N + m).choose m) → (Fin m →₀ ℕ) := fun j => Finsupp.equivFunOnFinite.symm (e j)
  have hφ : Function.Injective φ := Finsupp.equivFunOnFinite.symm.injective.comp he
  have hsum : ∑ j, |P.coeff (φ j)| = ∑ α ∈ P.support, |P.coeff α| := by
    rw [← Finset.sum_image (s := Finset.univ) (g := φ) (f := fun α => |P.coeff α|) fun a _ b _ hab => hφ hab]
    symm
    refine Finset.sum_subset (fun α hα => ?_) fun α _ hα => by rw [MvPolynomial.notMem_support_iff.mp hα, abs_zero]
    have h1 : ∑ k, α k ≤ N := by
      have := MvPolynomial.le_totalDegree hα
      rw [Finsupp.sum_fintype _ _ fun _ => rfl] at this
      exact this.trans hP
    have h2 : (α : Fin m → ℕ) ∈ Set.range e := by rw [hrange]; exact h1
    obtain ⟨j, hj⟩ := h2
    exact Finset.mem_image.mpr ⟨j, Finset.mem_univ j, by simp only [φ, hj]; exact Finsupp.equivFunOnFinite.symm_apply_apply α⟩
  refine ⟨fun j => P.coeff (φ j), hsum, fun s hs hc M X hX => ?_⟩
  obtain ⟨f, df, -, h2, h3⟩ := hall _ s hs hc M X
  refine ⟨f, df, h2, fun i => ?_⟩
  obtain ⟨h4, h5⟩ := h3 P hP (fun j => rfl) i
  have hpos : ∀ n : ℕ, (0 : ℝ) ≤ (1 + 1 / 2 ^ 53) ^ n - 1 := fun n => by
    have := one_le_pow n
    unfold u at this
    linarith
  have hmon : ∀ α : Fin m → ℕ, ∏ k, |X i k| ^ α k ≤ 1 := fun α =>
    Finset.prod_le_one (fun k _ => pow_nonneg (abs_nonneg _) _) fun k _ => pow_le_one₀ (abs_nonneg _) (hX i k)
  rw [← hsum]
  refine ⟨h4.trans (mul_le_mul_of_nonneg_left (Finset.sum_le_sum fun j _ => ?_) (hpos _)), fun k => (h5 k).trans (mul_le_mul_of_nonneg_left ?_ (hpos _))⟩
  · exact mul_le_of_le_one_right (abs_nonneg _) (hmon _)
  · rw [Finset.mul_sum]
    refine Finset.sum_le_sum fun j _ => ?_
    rw [mul_comm]
    refine mul_le_mul_of_nonneg_right ?_ (abs_nonneg _)
    have h6 : e j k ≤ N := by
      have h7 : e j ∈ {α : Fin m → ℕ | ∑ k, α k ≤ N} := by rw [← hrange]; exact ⟨j, rfl⟩
      exact (Finset.single_le_sum (f := e j) (fun _ _ => Nat.zero_le _) (Finset.mem_univ k)).trans h7
    exact (mul_le_of_le_one_right (Nat.cast_nonneg _) (hmon fun l => e j l - if l = k then 1 else 0)).trans (Nat.cast_le.mpr h6)

/-! ## C151 -/

theorem gamma_le {n : ℕ} (hn : n ≤ 2 ^ 51) : (1 + u) ^ n - 1 ≤ 1 / 2 := by
  have h1 : (1 + u) ^ n ≤ Real.exp (n * u) := by
    rw [Real.exp_nat_mul]
    exact pow_le_pow_left₀ (by linarith [u_pos]) (by linarith [Real.add_one_le_exp u]) n
  have h2 : (n : ℝ) * u ≤ 1 / 4 := by
    have : (n : ℝ) ≤ 2 ^ 51 := by exact_mod_cast hn
    calc (n : ℝ) * u ≤ 2 ^ 51 * u := mul_le_mul_of_nonneg_right this u_pos.le
      _ = 1 / 4 := by unfold u; norm_num
  have h3 : Real.exp (1 / 4) ≤ 1 / (1 - 1 / 4) := Real.exp_bound_div_one_sub_of_interval (by norm_num) (by norm_num)
  have h4 := Real.exp_le_exp.mpr h2
  norm_num at h3 ⊢
  linarith

theorem exp_near {S s γ : ℝ} (hS : 0 ≤ S) (h0 : 0 ≤ γ) (h1 : γ ≤ 1 / 2) (h : |s - -S| ≤ γ * S) : |Real.exp s - Real.exp (-S)| ≤ γ ∧ Real.exp s ≤ 1 := by
  obtain ⟨ha, hb⟩ := abs_le.mp h
  have hs : s ≤ -(S / 2) := by nlinarith
  refine ⟨abs_le.mpr ⟨?_, ?_⟩, Real.exp_le_one_iff.mpr (by linarith)⟩
  · have e1 : Real.exp s = Real.exp (-S) * Real.exp (s + S) := by rw [← Real.exp_add]; ring_nf
    have e2 := Real.add_one_le_exp (s + S)
    have e3 : S * Real.exp (-S) ≤ 1 := by
      rw [Real.exp_neg, ← div_eq_mul_inv, div_le_one (Real.exp_pos S)]
      linarith [Real.add_one_le_exp S]
    have e4 := mul_le_mul_of_nonneg_left e2 (Real.exp_pos (-S)).le
    have e5 : Real.exp (-S) * (γ * S) ≤ γ := by nlinarith
    have e6 : Real.exp (-S) * -(γ * S) ≤ Real.exp (-S) * (s + S) := mul_le_mul_of_nonneg_left (by linarith) (Real.exp_pos (-S)).le
    rw [e1]
    nlinarith
  · have e1 : Real.exp (-S) = Real.exp s * Real.exp (-S - s) := by rw [← Real.exp_add]; ring_nf
    have e2 := mul_le_mul_of_nonneg_left (Real.add_one_le_exp (-S - s)) (Real.exp_pos s).le
    have e3 : Real.exp s * (S + s) ≤ Real.exp s * (γ * S) := mul_le_mul_of_nonneg_left (by linarith) (Real.exp_pos s).le
    have e4 : Real.exp s * (γ * S) ≤ Real.exp (-(S / 2)) * (γ * S) := mul_le_mul_of_nonneg_right (Real.exp_le_exp.mpr hs) (mul_nonneg h0 hS)
    have e5 : S * Real.exp (-(S / 2)) ≤ 1 := by
      rw [Real.exp_neg, ← div_eq_mul_inv, div_le_one (Real.exp_pos _)]
      have := Real.quadratic_le_exp_of_nonneg (x := S / 2) (by linarith)
      nlinarith [sq_nonneg (S / 2 - 1)]
    rw [e1]
    nlinarith

/-- The kernel with the length scales `ell` and its value in double precision: the absolute error does not depend on the points or the length scales. -/
theorem C151_kernel {fl : Fl} (h : FlOK fl) {M1 M2 : ℕ} (hm : m + 4 ≤ 2 ^ 51) (X1 : Matrix (Fin M1) (Fin m) ℝ) (X2 : Matrix (Fin M2) (Fin m) ℝ) {ell : Fin m → ℝ}
    (hell : ∀ k, 0 < ell k) (i : Fin M1) (j : Fin M2) :
    |Model.Rounded.exponential_squared fl X1 X2 1 ell i j - gauss ell (X1 i) (X2 j)|
      ≤ ((1 + 1 / 2 ^ 53) ^ (m + 4) - 1) + ((1 + 1 / 2 ^ 53) ^ 3 - 1) := by
  have hterm : ∀ k, Near 4 (fl.rd (fl.rd (X1 i k - X2 j k) * fl.rd (X1 i k - X2 j k)) * fl.rd (-1 / ell k)) (-((X1 i k - X2 j k) ^ 2 / ell k))
      ((X1 i k - X2 j k) ^ 2 / ell k) := fun k => by
    have h1 := (refl (b := X1 i k - X2 j k) (m := |X1 i k - X2 j k|) le_rfl).round h.rd
    have h2 := (h1.mul h1).round h.rd
    have h3 := (refl (b := -1 / ell k) (m := 1 / ell k) (by rw [abs_div, abs_neg, abs_one, abs_of_pos (hell k)])).round h.rd
    have h4 := h2.mul h3
    rw [abs_mul_abs_self] at h4
    have e1 : (X1 i k - X2 j k) * (X1 i k - X2 j k) * (-1 / ell k) = -((X1 i k - X2 j k) ^ 2 / ell k) := by ring
    have e2 : (X1 i k - X2 j k) * (X1 i k - X2 j k) * (1 / ell k) = (X1 i k - X2 j k) ^ 2 / ell k := by ring
    rw [e1, e2] at h4
    exact h4
  have hsum := near_dot h.rd (h.dot M1 m 1 (Matrix.of fun i k => fl.rd (fl.rd (X1 i k - X2 j k) * fl.rd (X1 i k - X2 j k)))
    (colMat fun k => fl.rd (-1 / ell k)) i 0) hterm
  rw [Finset.sum_neg_distrib] at hsum
  have hS : 0 ≤ ∑ k, (X1 i k - X2 j k) ^ 2 / ell k := Finset.sum_nonneg fun k _ => div_nonneg (sq_nonneg _) (hell k).le
  obtain ⟨h1, h2⟩ := exp_near hS (by linarith [one_le_pow (m + 4)]) (gamma_le hm) hsum.err
  have h3 := ((refl (b := (1 : ℝ)) (m := 1) (by simp)).mul (near_of_oneUlp (h.exp (fl.d M1 m 1
    (Matrix.of fun i k => fl.rd (fl.rd (X1 i k - X2 j k) * fl.rd (X1 i k - X2 j k))) (colMat fun k => fl.rd (-1 / ell k)) i 0)))).round h.rd
  have h4 := h3.err
  rw [one_mul (Real.exp _), one_mul |Real.exp _|, abs_of_pos (Real.exp_pos _)] at h4
  have h5 : |Model.Rounded.exponential_squared fl X1 X2 1 ell i j - Real.exp (fl.d M1 m 1
      (Matrix.of fun i k => fl.rd (fl.rd (X1 i k - X2 j k) * fl.rd (X1 i k - X2 j k))) (colMat fun k => fl.rd (-1 / ell k)) i 0)| ≤ (1 + u) ^ 3 - 1 := by
    refine h4.trans ?_
    exact mul_le_of_le_one_right (by linarith [one_le_pow (0 + 2 + 1)]) h2
  rw [add_comm]
  refine (abs_sub_le _ _ _).trans (add_le_add h5 ?_)
  exact h1

theorem rbfPredict_rounded (fl : Fl) (s : RBF) {N M0 : ℕ} (hN : s.N = N) {I : List (Fin m → ℕ)} (hI : index_set N m = .ok I) {X0 : Matrix (Fin M0) (Fin m) ℝ}
    {ell : Fin m → ℝ} {r : Fin M0 → ℝ} {c : Fin I.length → ℝ} (hX : s.X = some (NpMat.of X0)) (hl : s.ell = some (NpVec.of ell))
    (hr : s.radial_weights = some (NpVec.of r)) (hc : s.poly_weights = some (NpVec.of c)) (X : Matrix (Fin M) (Fin m) ℝ) :
    rbfPredict fl s (.mat (NpMat.of X)) = .ok (NpVec.of fun i =>
      fl.rd (fl.d M M0 1 (Model.Rounded.exponential_squared fl X X0 1 ell) (colMat r) i 0 + fl.d M I.length 1 (Model.Rounded.monomials fl X I) (colMat c) i 0)) := by
  subst hN
  have h1 : Model.Rounded.rbfPredictMat fl s.N X0 ell (NpVec.of r) (NpVec.of c) X = .ok fun i =>
      fl.rd (fl.d M M0 1 (Model.Rounded.exponential_squared fl X X0 1 ell) (colMat r) i 0 + fl.d M I.length 1 (Model.Rounded.monomials fl X I) (colMat c) i 0) := by
    unfold Model.Rounded.rbfPredictMat
    rw [hI]
    change (vecDot fl.d (Model.Rounded.exponential_squared fl X X0 1 ell) (NpVec.of r) >>= fun fr =>
      vecDot fl.d (Model.Rounded.monomials fl X I) (NpVec.of c) >>= fun fp => _) = _
    rw [vecDot_of, vecDot_of]
    rfl
  simp only [rbfPredict, Model.Misc.process_inputs, hX, hl, hr, hc]
  rw [dif_pos ⟨rfl, rfl⟩]
  erw [h1]
  rfl

/-- **C151.** In double precision the predictions of a radial basis surface differ from the exact values of the stored expansion by at most
`(1 + 2^-53)^(M + 1) (1 + eps) - 1` times the sum of the absolute values of the radial weights, with `eps` the error of the kernel, plus `(1 + 2^-53)^(n + 3m + 1) - 1`
times the sum of the absolute values of the terms of the polynomial. -/
theorem C151_predict {fl : Fl} (h : FlOK fl) (N m : ℕ) (hm : 1 ≤ m) (hm' : m + 4 ≤ 2 ^ 51) :
    ∃ e : Fin ((N + m).choose m) → (Fin m → ℕ), Function.Injective e ∧ Set.range e = {α | ∑ k, α k ≤ N} ∧
      ∀ (s : RBF) (M0 : ℕ) (X0 : Matrix (Fin M0) (Fin m) ℝ) (ell : Fin m → ℝ) (r : Fin M0 → ℝ) (c : Fin ((N + m).choose m) → ℝ), s.N = N → (∀ k, 0 < ell k) →
      s.X = some (NpMat.of X0) → s.ell = some (NpVec.of ell) → s.radial_weights = some (NpVec.of r) → s.poly_weights = some (NpVec.of c) →
      ∀ (M : ℕ) (X : Matrix (Fin M) (Fin m) ℝ), ∃ f : Fin M → ℝ, rbfPredict fl s (.mat (NpMat.of X)) = .ok (NpVec.of f) ∧
        ∀ P : MvPolynomial (Fin m) ℝ, P.totalDegree ≤ N → (∀ j, c j = P.coeff (Finsupp.equivFunOnFinite.symm (e j))) → ∀ i,
          |f i - expansion ell X0 r P (X i)|
            ≤ ((1 + 1 / 2 ^ 53) ^ (M0 + 1) * (1 + (((1 + 1 / 2 ^ 53) ^ (m + 4) - 1) + ((1 + 1 / 2 ^ 53) ^ 3 - 1))) - 1) * ∑ j, |r j|
              + ((1 + 1 / 2 ^ 53) ^ ((N + m).choose m + 3 * m + 1) - 1) * ∑ j, |c j| * ∏ k, |X i k| ^ e j k := by
  obtain ⟨I, hI, hnd, hmem, -, hlen⟩ := C25_enumerates N m hm
  rw [← hlen]
  refine ⟨I.get, List.nodup_iff_injective_get.mp hnd, ?_, ?_⟩
  · ext α
    rw [Set.mem_ofPred_eq, ← hmem α, List.mem_iff_get]
    rfl
  · intro s M0 X0 ell r c hs hell hX hl hr hc M X
    refine ⟨_, rbfPredict_rounded fl s hs hI hX hl hr hc X, fun P hP hcP i => ?_⟩
    have hPf : P = fitted I c := by
      rw [eq_fitted I hnd (fun α hα => (hmem α).mpr hα) P hP]
      congr 1
      funext j
      exact (hcP j).symm
    subst hPf
    have hp := vecDot_near h c (B := Model.Rounded.monomials fl X I) (i := i) fun j =>
        monomial_near h.rd (h.prod (List.ofFn fun k => fl.power (X i k) (I.get j k))) fun k => h.power (X i k) (I.get j k)
    have e1 : ∑ j, (∏ k, X i k ^ I.get j k) * c j = MvPolynomial.eval (X i) (fitted I c) := by
      rw [eval_fitted]
      exact Finset.sum_congr rfl fun j _ => mul_comm _ _
    have e2 : ∑ j, (∏ k, |X i k| ^ I.get j k) * |c j| = ∑ j, |c j| * ∏ k, |X i k| ^ I.get j k := Finset.sum_congr rfl fun j _ => mul_comm _ _
    rw [e1, e2] at hp
    have hk := C151_kernel h hm' X X0 hell i
    change ∀ j, _ ≤ ((1 + u) ^ (m + 4) - 1) + ((1 + u) ^ 3 - 1) at hk
    change _ ≤ ((1 + u) ^ (M0 + 1) * (1 + (((1 + u) ^ (m + 4) - 1) + ((1 + u) ^ 3 - 1))) - 1) * ∑ j, |r j|
      + ((1 + u) ^ (I.length + 3 * m + 1) - 1) * ∑ j, |c j| * ∏ k, |X i k| ^ I.get j k
    set ε := ((1 + u) ^ (m + 4) - 1) + ((1 + u) ^ 3 - 1) with hε
    have hε0 : 0 ≤ ε := by linarith [one_le_pow (m + 4), one_le_pow 3]
    generalize hK : Model.Rounded.exponential_squared fl X X0 1 ell = K at hk ⊢
    generalize hfp : fl.d M I.length 1 (Model.Rounded.monomials fl X I) (colMat c) i 0 = fp at hp ⊢
    have hd := dot_bound h.rd (h.dot M M0 1 K (colMat r)) i 0
    generalize hfr : fl.d M M0 1 K (colMat r) i 0 = fr at hd ⊢
    set A := ∑ j, |r j| with hA
    have hKle : ∀ j, |K i j| ≤ 1 + ε := fun j => by
      have h1 : gauss ell (X i) (X0 j) ≤ 1 := Real.exp_le_one_iff.mpr (neg_nonpos.mpr (Finset.sum_nonneg fun k _ => div_nonneg (sq_nonneg _) (hell k).le))
      have h2 : 0 ≤ gauss ell (X i) (X0 j) := (Real.exp_pos _).le
      obtain ⟨h3, h4⟩ := abs_le.mp (hk j)
      exact abs_le.mpr ⟨by linarith, by linarith⟩
    have hmag : ∑ k, |K i k * colMat r k 0| ≤ (1 + ε) * A := by
      rw [hA, Finset.mul_sum]
      refine Finset.sum_le_sum fun j _ => ?_
      rw [abs_mul]
      exact mul_le_mul_of_nonneg_right (hKle j) (abs_nonneg _)
    have hval : |∑ k, K i k * colMat r k 0 - bumps ell X0 r (X i)| ≤ ε * A := by
      unfold bumps
      rw [← Finset.sum_sub_distrib, hA, Finset.mul_sum]
      refine (Finset.abs_sum_le_sum_abs _ _).trans (Finset.sum_le_sum fun j _ => ?_)
      have e3 : K i j * colMat r j 0 - r j * gauss ell (X i) (X0 j) = (K i j - gauss ell (X i) (X0 j)) * r j := by
        simp only [colMat, Matrix.of_apply]
        ring
      rw [e3, abs_mul]
      exact mul_le_mul_of_nonneg_right (hk j) (abs_nonneg _)
    have hM1 := one_le_pow M0
    have hfr1 : |fr - bumps ell X0 r (X i)| ≤ ((1 + u) ^ M0 * (1 + ε) - 1) * A := by
      refine (abs_sub_le _ _ _).trans ((add_le_add hd hval).trans ?_)
      have := mul_le_mul_of_nonneg_left hmag (by linarith : 0 ≤ (1 + u) ^ M0 - 1)
      nlinarith
    have hb : |bumps ell X0 r (X i)| ≤ A := by
      unfold bumps
      refine (Finset.abs_sum_le_sum_abs _ _).trans (Finset.sum_le_sum fun j _ => ?_)
      rw [abs_mul]
      refine mul_le_of_le_one_right (abs_nonneg _) ?_
      rw [gauss, abs_of_pos (Real.exp_pos _)]
      exact Real.exp_le_one_iff.mpr (neg_nonpos.mpr (Finset.sum_nonneg fun k _ => div_nonneg (sq_nonneg _) (hell k).le))
    have hfr2 : |fr| ≤ (1 + u) ^ M0 * (1 + ε) * A := by
      have : fr = (fr - bumps ell X0 r (X i)) + bumps ell X0 r (X i) := by ring
      rw [this]
      refine (abs_add_le _ _).trans ?_
      linarith
    have hz := error h.rd (fr + fp)
    have e4 : |fr + fp| / 2 ^ 53 = u * |fr + fp| := by unfold u; ring
    rw [e4] at hz
    have h5 : u * |fr + fp| ≤ u * ((1 + u) ^ M0 * (1 + ε) * A + (1 + u) ^ (I.length + 3 * m) * ∑ j, |c j| * ∏ k, |X i k| ^ I.get j k) :=
      mul_le_mul_of_nonneg_left ((abs_add_le _ _).trans (add_le_add hfr2 hp.abs_le)) u_pos.le
    have e5 : fl.rd (fr + fp) - expansion ell X0 r (fitted I c) (X i)
        = (fl.rd (fr + fp) - (fr + fp)) + ((fr - bumps ell X0 r (X i)) + (fp - MvPolynomial.eval (X i) (fitted I c))) := by
      unfold expansion
      ring
    rw [e5]
    refine (abs_add_le _ _).trans ((add_le_add (hz.trans h5) ((abs_add_le _ _).trans (add_le_add hfr1 hp.err))).trans (le_of_eq ?_))
    rw [pow_succ, pow_succ]
    ring

/-- A library that keeps the contract, and a surface with two centres and the trend `1 + 2 x`. -/
example : ∃ (fl : Fl) (s : RBF), FlOK fl ∧ s.N = 1 ∧ s.X = some (NpMat.of (Matrix.of ![![0], ![1]] : Matrix (Fin 2) (Fin 1) ℝ)) ∧ s.ell = some (NpVec.of ![(3 : ℝ)]) ∧
    s.radial_weights = some (NpVec.of ![(1 : ℝ), -1]) ∧ s.poly_weights = some (NpVec.of ![(1 : ℝ), 2]) ∧ (1 + 1).choose 1 = 2 := by
  obtain ⟨fl, hfl⟩ := fl_exists
  exact ⟨fl, { N := 1, X := some _, ell := some _, radial_weights := some _, poly_weights := some _ }, hfl, rfl, rfl, rfl, rfl, rfl, rfl⟩

/-- The predictions of `3 - 2 x + x^2` on `[-1, 1]`, in double precision. -/
example : ∃ (fl : Fl) (c : Fin 3 → ℝ), FlOK fl ∧ ∑ j, |c j| ≤ 6 ∧ ∀ (M : ℕ) (X : Matrix (Fin M) (Fin 1) ℝ), (∀ i k, |X i k| ≤ 1) → ∃ (f : Fin M → ℝ) (df : Matrix (Fin M) (Fin 1) ℝ),
    polyPredict fl { N := 2, poly_weights := some (NpVec.of c) } (.mat (NpMat.of X)) true = .ok (NpVec.of f, some (NpMat.of df)) ∧
    ∀ i, |f i - (3 - 2 * X i 0 + X i 0 ^ 2)| ≤ 1 / 10 ^ 14 := by
  obtain ⟨fl, hfl⟩ := fl_exists
  let P : MvPolynomial (Fin 1) ℝ := MvPolynomial.C 3 - MvPolynomial.C 2 * MvPolynomial.X 0 + MvPolynomial.X 0 ^ 2
  have hP : P.totalDegree ≤ 2 := by
    refine (MvPolynomial.totalDegree_add _ _).trans (max_le ((MvPolynomial.totalDegree_sub _ _).trans (max_le (by simp) ?_)) ?_)
    · refine (MvPolynomial.totalDegree_mul _ _).trans ?_
      simp
    · refine (MvPolynomial.totalDegree_pow _ _).trans ?_
      simp
  have hsum : ∑ α ∈ P.support, |P.coeff α| ≤ 6 := by
    have h1 : P = MvPolynomial.monomial 0 3 + MvPolynomial.monomial (Finsupp.single 0 1) (-2) + MvPolynomial.monomial (Finsupp.single 0 2) 1 := by
      simp only [P, MvPolynomial.monomial_eq, map_neg]
      simp
      ring
    have h2 : P.support ⊆ {0, Finsupp.single 0 1, Finsupp.single 0 2} := by
      intro α hα
      by_contra hn
      simp only [Finset.mem_insert, Finset.mem_singleton, not_or] at hn
      rw [MvPolynomial.mem_support_iff] at hα
      refine hα ?_
      rw [h1]
      simp only [MvPolynomial.coeff_add, MvPolynomial.coeff_monomial]
      rw [if_neg (Ne.symm hn.1), if_neg (Ne.symm hn.2.1), if_neg (Ne.symm hn.2.2)]
      simp
    have h3 : ∀ a b : ℕ, (Finsupp.single (0 : Fin 1) a = Finsupp.single 0 b) ↔ a = b := fun a b => (Finsupp.single_injective _).eq_iff
    have h4 : (0 : Fin 1 →₀ ℕ) = Finsupp.single 0 0 := by simp
    refine (Finset.sum_le_sum_of_subset_of_nonneg h2 fun _ _ _ => abs_nonneg _).trans ?_
    rw [Finset.sum_insert (by simp only [Finset.mem_insert, Finset.mem_singleton, h4, h3]; norm_num), Finset.sum_pair (by rw [Ne, h3]; norm_num), h1]
    simp only [MvPolynomial.coeff_add, MvPolynomial.coeff_monomial, h4, h3]
    norm_num
  obtain ⟨c, hc, h⟩ := C150_cube hfl 2 1 le_rfl P hP
  refine ⟨fl, c, hfl, hc.le.trans hsum, fun M X hX => ?_⟩
  obtain ⟨f, df, h1, h2⟩ := h { N := 2, poly_weights := some (NpVec.of c) } rfl rfl M X hX
  refine ⟨f, df, h1, fun i => ?_⟩
  have h3 := (h2 i).1
  have e : MvPolynomial.eval (X i) P = 3 - 2 * X i 0 + X i 0 ^ 2 := by simp [P]
  rw [e] at h3
  refine h3.trans ((mul_le_mul_of_nonneg_left hsum ?_).trans ?_)
  · have := one_le_pow ((2 + 1).choose 1 + 3 * 1)
    unfold u at this
    linarith
  · norm_num [Nat.choose]

end Props
