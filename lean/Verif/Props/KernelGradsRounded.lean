import Verif.Model.RoundedKernelGrads
import Verif.Props.SurfacesRounded
import Verif.Props.RBFFunctionals

/-!
# Property C153: gradients of radial basis surfaces in double precision
-/

open Py Model.Misc Model.ResponseSurfaces Model.Rounded Spec Proofs.Rounding Proofs.FloatSum Proofs.Near Proofs.FloatProd Proofs.PolyApprox

namespace Props

variable {M m : ℕ}

theorem exp_near_half {S s γ : ℝ} (hS : 0 ≤ S) (h0 : 0 ≤ γ) (h1 : γ ≤ 1 / 2) (h : |s - -S| ≤ γ * S) :
    |Real.exp s - Real.exp (-S)| ≤ γ * (S * Real.exp (-(S / 2))) ∧ Real.exp s ≤ Real.exp (-(S / 2)) := by
  obtain ⟨ha, hb⟩ := abs_le.mp h
  have hs : s ≤ -(S / 2) := by nlinarith
  have hγS : 0 ≤ γ * S := mul_nonneg h0 hS
  refine ⟨abs_le.mpr ⟨?_, ?_⟩, Real.exp_le_exp.mpr hs⟩
  · have e1 : Real.exp s = Real.exp (-S) * Real.exp (s + S) := by rw [← Real.exp_add]; ring_nf
    have e4 := mul_le_mul_of_nonneg_left (Real.add_one_le_exp (s + S)) (Real.exp_pos (-S)).le
    have e6 : Real.exp (-S) * -(γ * S) ≤ Real.exp (-S) * (s + S) := mul_le_mul_of_nonneg_left (by linarith) (Real.exp_pos (-S)).le
    have e7 : Real.exp (-S) * (γ * S) ≤ Real.exp (-(S / 2)) * (γ * S) := mul_le_mul_of_nonneg_right (Real.exp_le_exp.mpr (by linarith)) hγS
    rw [e1]
    nlinarith
  · have e1 : Real.exp (-S) = Real.exp s * Real.exp (-S - s) := by rw [← Real.exp_add]; ring_nf
    have e2 := mul_le_mul_of_nonneg_left (Real.add_one_le_exp (-S - s)) (Real.exp_pos s).le
    have e3 : Real.exp s * (S + s) ≤ Real.exp s * (γ * S) := mul_le_mul_of_nonneg_left (by linarith) (Real.exp_pos s).le
    have e4 : Real.exp s * (γ * S) ≤ Real.exp (-(S / 2)) * (γ * S) := mul_le_mul_of_nonneg_right (Real.exp_le_exp.mpr hs) hγS
    rw [e1]
    nlinarith

theorem sqrt_exp_le {S : ℝ} (hS : 0 ≤ S) : Real.sqrt S * Real.exp (-(S / 2)) ≤ 1 ∧ Real.sqrt S * (S * Real.exp (-(S / 2))) ≤ 2 := by
  have hq := Real.quadratic_le_exp_of_nonneg (x := S / 2) (by linarith)
  set t := Real.sqrt S with ht
  have ht0 : 0 ≤ t := Real.sqrt_nonneg S
  have hS2 : S = t ^ 2 := (Real.sq_sqrt hS).symm
  rw [Real.exp_neg, ← div_eq_mul_inv, ← div_eq_mul_inv, ← mul_div_assoc, div_le_iff₀ (Real.exp_pos _), div_le_iff₀ (Real.exp_pos _)]
  rw [hS2] at hq ⊢
  constructor
  · nlinarith [sq_nonneg (t - 1), sq_nonneg (t ^ 2)]
  · nlinarith [sq_nonneg (t ^ 2 / 2 - t)]

/-- The derivative in direction `k` of the bump around `y`. -/
theorem gaussGrad_le {ell : Fin m → ℝ} (hell : ∀ k, 0 < ell k) (x y : Fin m → ℝ) (k : Fin m) :
    |x k - y k| / ell k ≤ 1 / Real.sqrt (ell k) * Real.sqrt (∑ l, (x l - y l) ^ 2 / ell l) := by
  have h1 : (x k - y k) ^ 2 / ell k ≤ ∑ l, (x l - y l) ^ 2 / ell l :=
    Finset.single_le_sum (f := fun l => (x l - y l) ^ 2 / ell l) (fun l _ => div_nonneg (sq_nonneg _) (hell l).le) (Finset.mem_univ k)
  have h2 := Real.sqrt_le_sqrt h1
  rw [Real.sqrt_div (sq_nonneg _), Real.sqrt_sq_eq_abs] at h2
  have hs : 0 < Real.sqrt (ell k) := Real.sqrt_pos.mpr (hell k)
  calc |x k - y k| / ell k = 1 / Real.sqrt (ell k) * (|x k - y k| / Real.sqrt (ell k)) := by
        rw [div_mul_div_comm, one_mul, Real.mul_self_sqrt (hell k).le]
    _ ≤ _ := mul_le_mul_of_nonneg_left h2 (by positivity)

/-- The gradient of the kernel in double precision: an absolute error proportional to the size `2 / sqrt (ell k)` of the derivative, for all points. -/
theorem C153_kernel {fl : Fl} (h : FlOK fl) {M1 M2 : ℕ} (hm : m + 4 ≤ 2 ^ 51) (X1 : Matrix (Fin M1) (Fin m) ℝ) (X2 : Matrix (Fin M2) (Fin m) ℝ) {ell : Fin m → ℝ}
    (hell : ∀ k, 0 < ell k) (k : Fin m) (j : Fin M1) (i : Fin M2) :
    |Model.Rounded.grad_exponential_squared fl X1 X2 1 ell k j i - gauss ell (X2 i) (X1 j) * (-(2 * (X2 i k - X1 j k) / ell k))|
      ≤ 2 / Real.sqrt (ell k) * (2 * ((1 + 1 / 2 ^ 53) ^ (m + 4) - 1) + ((1 + 1 / 2 ^ 53) ^ 8 - 1)) ∧
    |gauss ell (X2 i) (X1 j) * (-(2 * (X2 i k - X1 j k) / ell k))| ≤ 2 / Real.sqrt (ell k) := by
  set S := ∑ l, (X1 j l - X2 i l) ^ 2 / ell l with hSdef
  have hSeq : ∑ l, (X2 i l - X1 j l) ^ 2 / ell l = S := Finset.sum_congr rfl fun l _ => by rw [← neg_sub, neg_sq]
  have hS : 0 ≤ S := Finset.sum_nonneg fun l _ => div_nonneg (sq_nonneg _) (hell l).le
  have hterm : ∀ l, Near 4 (fl.rd (fl.rd (X1 j l - X2 i l) * fl.rd (X1 j l - X2 i l)) * fl.rd (-1 / ell l)) (-((X1 j l - X2 i l) ^ 2 / ell l))
      ((X1 j l - X2 i l) ^ 2 / ell l) := fun l => by
    have h1 := (refl (b := X1 j l - X2 i l) (m := |X1 j l - X2 i l|) le_rfl).round h.rd
    have h2 := (h1.mul h1).round h.rd
    have h3 := (refl (b := -1 / ell l) (m := 1 / ell l) (by rw [abs_div, abs_neg, abs_one, abs_of_pos (hell l)])).round h.rd
    have h4 := h2.mul h3
    rw [abs_mul_abs_self] at h4
    have e1 : (X1 j l - X2 i l) * (X1 j l - X2 i l) * (-1 / ell l) = -((X1 j l - X2 i l) ^ 2 / ell l) := by ring
    have e2 : (X1 j l - X2 i l) * (X1 j l - X2 i l) * (1 / ell l) = (X1 j l - X2 i l) ^ 2 / ell l := by ring
    rw [e1, e2] at h4
    exact h4
  have hsum := near_dot h.rd (h.dot M1 m 1 (Matrix.of fun j l => fl.rd (fl.rd (X1 j l - X2 i l) * fl.rd (X1 j l - X2 i l)))
    (colMat fun l => fl.rd (-1 / ell l)) j 0) hterm
  rw [Finset.sum_neg_distrib] at hsum
  obtain ⟨h1, h2⟩ := exp_near_half hS (by linarith [one_le_pow (m + 4)]) (gamma_le hm) hsum.err
  have g1 := (refl (b := X1 j k - X2 i k) (m := |X1 j k - X2 i k|) le_rfl).round h.rd
  have g2 := (refl (b := -1 / ell k) (m := 1 / ell k) (by rw [abs_div, abs_neg, abs_one, abs_of_pos (hell k)])).round h.rd
  have g3 := ((refl (b := (-2 : ℝ)) (m := 2) (by norm_num)).mul g2).round h.rd
  have g4 := (g3.mul g1).round h.rd
  have g5 := ((refl (b := (1 : ℝ)) (m := 1) (by simp)).mul g4).round h.rd
  have g6 := ((g5.mul (near_of_oneUlp (h.exp (fl.d M1 m 1 (Matrix.of fun j l => fl.rd (fl.rd (X1 j l - X2 i l) * fl.rd (X1 j l - X2 i l)))
    (colMat fun l => fl.rd (-1 / ell l)) j 0)))).round h.rd).err
  rw [abs_of_pos (Real.exp_pos _)] at g6
  have hval : Model.Rounded.grad_exponential_squared fl X1 X2 1 ell k j i = fl.rd (fl.rd (1 * fl.rd (fl.rd (-2 * fl.rd (-1 / ell k)) * fl.rd (X1 j k - X2 i k)))
    * fl.exp (fl.d M1 m 1 (Matrix.of fun j l => fl.rd (fl.rd (X1 j l - X2 i l) * fl.rd (X1 j l - X2 i l))) (colMat fun l => fl.rd (-1 / ell l)) j 0)) := rfl
  rw [hval]
  generalize fl.d M1 m 1 (Matrix.of fun j l => fl.rd (fl.rd (X1 j l - X2 i l) * fl.rd (X1 j l - X2 i l))) (colMat fun l => fl.rd (-1 / ell l)) j 0 = s at *
  generalize fl.rd (fl.rd (1 * fl.rd (fl.rd (-2 * fl.rd (-1 / ell k)) * fl.rd (X1 j k - X2 i k))) * fl.exp s) = T at *
  have hG : gauss ell (X2 i) (X1 j) = Real.exp (-S) := by rw [gauss, hSeq]
  rw [hG]
  change _ ≤ 2 / Real.sqrt (ell k) * (2 * ((1 + u) ^ (m + 4) - 1) + ((1 + u) ^ 8 - 1)) ∧ _
  have hγ : 0 ≤ (1 + u) ^ (m + 4) - 1 := by linarith [one_le_pow (m + 4)]
  have h8 : 0 ≤ (1 + u) ^ 8 - 1 := by linarith [one_le_pow 8]
  generalize (1 + u) ^ (m + 4) - 1 = γ at *
  set q := |X1 j k - X2 i k| / ell k with hq
  have hq0 : 0 ≤ q := div_nonneg (abs_nonneg _) (hell k).le
  have hqle : q ≤ 1 / Real.sqrt (ell k) * Real.sqrt S := gaussGrad_le hell (X1 j) (X2 i) k
  have hs0 : 0 < Real.sqrt (ell k) := Real.sqrt_pos.mpr (hell k)
  obtain ⟨r1, r2⟩ := sqrt_exp_le hS
  have b1 : q * Real.exp (-(S / 2)) ≤ 1 / Real.sqrt (ell k) := by
    refine (mul_le_mul_of_nonneg_right hqle (Real.exp_pos _).le).trans ?_
    rw [mul_assoc]
    exact mul_le_of_le_one_right (by positivity) r1
  have b2 : q * (S * Real.exp (-(S / 2))) ≤ 1 / Real.sqrt (ell k) * 2 := by
    refine (mul_le_mul_of_nonneg_right hqle (mul_nonneg hS (Real.exp_pos _).le)).trans ?_
    rw [mul_assoc]
    exact mul_le_mul_of_nonneg_left r2 (by positivity)
  have e0 : 2 / Real.sqrt (ell k) = 2 * (1 / Real.sqrt (ell k)) := by ring
  have habs : ∀ E : ℝ, |E * (-(2 * (X2 i k - X1 j k) / ell k))| = 2 * q * |E| := fun E => by
    have : E * (-(2 * (X2 i k - X1 j k) / ell k)) = 2 * ((X1 j k - X2 i k) / ell k) * E := by ring
    rw [this, abs_mul, abs_mul, abs_div, abs_of_pos (hell k), abs_two]
  constructor
  · have e1 : T - Real.exp (-S) * (-(2 * (X2 i k - X1 j k) / ell k))
        = (T - 1 * (-2 * (-1 / ell k) * (X1 j k - X2 i k)) * Real.exp s) + (Real.exp s - Real.exp (-S)) * (-(2 * (X2 i k - X1 j k) / ell k)) := by ring
    rw [e1]
    refine (abs_add_le _ _).trans ?_
    rw [habs]
    have c1 : ((1 + u) ^ 8 - 1) * (1 * (2 * (1 / ell k) * |X1 j k - X2 i k|) * Real.exp s) ≤ ((1 + u) ^ 8 - 1) * (2 * (1 / Real.sqrt (ell k))) := by
      refine mul_le_mul_of_nonneg_left ?_ h8
      have e2 : 1 * (2 * (1 / ell k) * |X1 j k - X2 i k|) * Real.exp s = 2 * (q * Real.exp s) := by rw [hq]; ring
      rw [e2]
      exact mul_le_mul_of_nonneg_left ((mul_le_mul_of_nonneg_left h2 hq0).trans b1) (by norm_num)
    have c2 : 2 * q * |Real.exp s - Real.exp (-S)| ≤ 2 * γ * (1 / Real.sqrt (ell k) * 2) := by
      have d1 := mul_le_mul_of_nonneg_left h1 hq0
      have d2 := mul_le_mul_of_nonneg_left b2 hγ
      nlinarith
    have c3 := g6.trans c1
    rw [e0]
    linarith
  · rw [habs, abs_of_pos (Real.exp_pos _), e0, mul_assoc]
    refine mul_le_mul_of_nonneg_left (le_trans (mul_le_mul_of_nonneg_left ?_ hq0) b1) (by norm_num)
    exact Real.exp_le_exp.mpr (by linarith)

/-- A rounded sum of a rounded product with the weights `r` and a second number. -/
theorem combine_near {rd : ℝ → ℝ} (hr : Rounding rd) {M0 n : ℕ} {K g r : Fin M0 → ℝ} {fr fp b ε κ p μ : ℝ} (hε : 0 ≤ ε) (hK : ∀ j, |K j - g j| ≤ κ * ε)
    (hg : ∀ j, |g j| ≤ κ) (hd : |fr - ∑ j, K j * r j| ≤ ((1 + u) ^ M0 - 1) * ∑ j, |K j * r j|) (hb : b = ∑ j, r j * g j) (hp : Near n fp p μ) :
    |rd (fr + fp) - (b + p)| ≤ ((1 + u) ^ (M0 + 1) * (1 + ε) - 1) * (κ * ∑ j, |r j|) + ((1 + u) ^ (n + 1) - 1) * μ := by
  set A := ∑ j, |r j| with hA
  have hKle : ∀ j, |K j| ≤ κ * (1 + ε) := fun j => by
    have : K j = (K j - g j) + g j := by ring
    rw [this]
    refine (abs_add_le _ _).trans ?_
    linarith [hK j, hg j]
  have hmag : ∑ j, |K j * r j| ≤ κ * (1 + ε) * A := by
    rw [hA, Finset.mul_sum]
    refine Finset.sum_le_sum fun j _ => ?_
    rw [abs_mul]
    exact mul_le_mul_of_nonneg_right (hKle j) (abs_nonneg _)
  have hval : |∑ j, K j * r j - b| ≤ κ * ε * A := by
    rw [hb, ← Finset.sum_sub_distrib, hA, Finset.mul_sum]
    refine (Finset.abs_sum_le_sum_abs _ _).trans (Finset.sum_le_sum fun j _ => ?_)
    have e3 : K j * r j - r j * g j = (K j - g j) * r j := by ring
    rw [e3, abs_mul]
    exact mul_le_mul_of_nonneg_right (hK j) (abs_nonneg _)
  have hM1 := one_le_pow M0
  have hfr1 : |fr - b| ≤ ((1 + u) ^ M0 * (1 + ε) - 1) * (κ * A) := by
    refine (abs_sub_le _ _ _).trans ((add_le_add hd hval).trans ?_)
    have := mul_le_mul_of_nonneg_left hmag (by linarith : 0 ≤ (1 + u) ^ M0 - 1)
    nlinarith
  have hb' : |b| ≤ κ * A := by
    rw [hb, hA, Finset.mul_sum]
    refine (Finset.abs_sum_le_sum_abs _ _).trans (Finset.sum_le_sum fun j _ => ?_)
    rw [abs_mul, mul_comm]
    exact mul_le_mul_of_nonneg_right (hg j) (abs_nonneg _)
  have hfr2 : |fr| ≤ (1 + u) ^ M0 * (1 + ε) * (κ * A) := by
    have : fr = (fr - b) + b := by ring
    rw [this]
    refine (abs_add_le _ _).trans ?_
    linarith
  have hz := error hr (fr + fp)
  have e4 : |fr + fp| / 2 ^ 53 = u * |fr + fp| := by unfold u; ring
  rw [e4] at hz
  have h5 : u * |fr + fp| ≤ u * ((1 + u) ^ M0 * (1 + ε) * (κ * A) + (1 + u) ^ n * μ) :=
    mul_le_mul_of_nonneg_left ((abs_add_le _ _).trans (add_le_add hfr2 hp.abs_le)) u_pos.le
  have e5 : rd (fr + fp) - (b + p) = (rd (fr + fp) - (fr + fp)) + ((fr - b) + (fp - p)) := by ring
  rw [e5]
  refine (abs_add_le _ _).trans ((add_le_add (hz.trans h5) ((abs_add_le _ _).trans (add_le_add hfr1 hp.err))).trans (le_of_eq ?_))
  rw [pow_succ, pow_succ]
  ring

theorem rbfPredictGrad_rounded (fl : Fl) (s : RBF) {N M0 : ℕ} (hN : s.N = N) {I : List (Fin m → ℕ)} (hI : index_set N m = .ok I) {X0 : Matrix (Fin M0) (Fin m) ℝ}
    {ell : Fin m → ℝ} {r : Fin M0 → ℝ} {c : Fin I.length → ℝ} (hX : s.X = some (NpMat.of X0)) (hl : s.ell = some (NpVec.of ell))
    (hr : s.radial_weights = some (NpVec.of r)) (hc : s.poly_weights = some (NpVec.of c)) (X : Matrix (Fin M) (Fin m) ℝ) :
    rbfPredictGrad fl s (.mat (NpMat.of X)) = .ok (NpVec.of fun i =>
      fl.rd (fl.d M M0 1 (Model.Rounded.exponential_squared fl X X0 1 ell) (colMat r) i 0 + fl.d M I.length 1 (Model.Rounded.monomials fl X I) (colMat c) i 0), NpMat.of (Matrix.of fun i k =>
      fl.rd (fl.d M M0 1 (Model.Rounded.grad_exponential_squared fl X0 X 1 ell k).transpose (colMat r) i 0
        + fl.d M I.length 1 (Model.Rounded.gradMonomials fl X I k) (colMat c) i 0))) := by
  subst hN
  have h3 : ((List.finRange m).mapM fun k => do
      let a ← vecDot fl.d (Model.Rounded.grad_exponential_squared fl X0 X 1 ell k).transpose (NpVec.of r)
      let b ← vecDot fl.d (Model.Rounded.gradMonomials fl X I k) (NpVec.of c)
      return fun i => fl.rd (a i + b i))
      = (.ok ((List.finRange m).map fun k => fun i => fl.rd (fl.d M M0 1 (Model.Rounded.grad_exponential_squared fl X0 X 1 ell k).transpose (colMat r) i 0
        + fl.d M I.length 1 (Model.Rounded.gradMonomials fl X I k) (colMat c) i 0)) : Except Err (List (Fin M → ℝ))) :=
    mapM_ok _ _ _ fun k _ => by rw [vecDot_of, vecDot_of]; rfl
  have h2 : Model.Rounded.rbfGradMat fl s.N X0 ell (NpVec.of r) (NpVec.of c) X = .ok (Matrix.of fun i k =>
      fl.rd (fl.d M M0 1 (Model.Rounded.grad_exponential_squared fl X0 X 1 ell k).transpose (colMat r) i 0
        + fl.d M I.length 1 (Model.Rounded.gradMonomials fl X I k) (colMat c) i 0)) := by
    unfold Model.Rounded.rbfGradMat
    rw [hI]
    change (((List.finRange m).mapM fun k => do
      let a ← vecDot fl.d (Model.Rounded.grad_exponential_squared fl X0 X 1 ell k).transpose (NpVec.of r)
      let b ← vecDot fl.d (Model.Rounded.gradMonomials fl X I k) (NpVec.of c)
      return fun i => fl.rd (a i + b i) : Except Err (List (Fin M → ℝ))) >>= fun cols => _) = _
    rw [h3]
    change Except.ok (Matrix.of fun i (k : Fin m) => (((List.finRange m).map fun k => fun i =>
      fl.rd (fl.d M M0 1 (Model.Rounded.grad_exponential_squared fl X0 X 1 ell k).transpose (colMat r) i 0
        + fl.d M I.length 1 (Model.Rounded.gradMonomials fl X I k) (colMat c) i 0)).getD k fun _ => 0) i) = _
    congr 1
    ext i k
    simp only [Matrix.of_apply, getD_map_finRange]
  have h1 : Model.Rounded.rbfPredictMat fl s.N X0 ell (NpVec.of r) (NpVec.of c) X = .ok fun i =>
      fl.rd (fl.d M M0 1 (Model.Rounded.exponential_squared fl X X0 1 ell) (colMat r) i 0 + fl.d M I.length 1 (Model.Rounded.monomials fl X I) (colMat c) i 0) := by
    unfold Model.Rounded.rbfPredictMat
    rw [hI]
    change (vecDot fl.d (Model.Rounded.exponential_squared fl X X0 1 ell) (NpVec.of r) >>= fun fr =>
      vecDot fl.d (Model.Rounded.monomials fl X I) (NpVec.of c) >>= fun fp => _) = _
    rw [vecDot_of, vecDot_of]
    rfl
  simp only [rbfPredictGrad, Model.Misc.process_inputs, hX, hl, hr, hc]
  rw [dif_pos ⟨rfl, rfl⟩]
  erw [h1]
  simp only []
  erw [h2]
  rfl

/-- **C153.** In double precision the gradients of a radial basis surface differ from the exact derivatives of the stored expansion by at most
`(1 + 2^-53)^(M + 1) (1 + eps) - 1` times `2 / sqrt (ell k)` times the sum of the absolute values of the radial weights, with `eps` the error of the gradient of the
kernel, plus `(1 + 2^-53)^(n + 3m + 2) - 1` times the sum of the absolute values of the terms of the derivative of the polynomial. -/
theorem C153_gradients {fl : Fl} (h : FlOK fl) (N m : ℕ) (hm : 1 ≤ m) (hm' : m + 4 ≤ 2 ^ 51) :
    ∃ e : Fin ((N + m).choose m) → (Fin m → ℕ), Function.Injective e ∧ Set.range e = {α | ∑ k, α k ≤ N} ∧
      ∀ (s : RBF) (M0 : ℕ) (X0 : Matrix (Fin M0) (Fin m) ℝ) (ell : Fin m → ℝ) (r : Fin M0 → ℝ) (c : Fin ((N + m).choose m) → ℝ), s.N = N → (∀ k, 0 < ell k) →
      s.X = some (NpMat.of X0) → s.ell = some (NpVec.of ell) → s.radial_weights = some (NpVec.of r) → s.poly_weights = some (NpVec.of c) →
      ∀ (M : ℕ) (X : Matrix (Fin M) (Fin m) ℝ), ∃ (f : Fin M → ℝ) (df : Matrix (Fin M) (Fin m) ℝ), rbfPredict fl s (.mat (NpMat.of X)) = .ok (NpVec.of f) ∧
        rbfPredictGrad fl s (.mat (NpMat.of X)) = .ok (NpVec.of f, NpMat.of df) ∧
        ∀ P : MvPolynomial (Fin m) ℝ, P.totalDegree ≤ N → (∀ j, c j = P.coeff (Finsupp.equivFunOnFinite.symm (e j))) →
        ∀ (i : Fin M) (D : (Fin m → ℝ) →L[ℝ] ℝ), HasFDerivAt (expansion ell X0 r P) D (X i) → ∀ k,
          |df i k - D (Pi.single k 1)|
            ≤ ((1 + 1 / 2 ^ 53) ^ (M0 + 1) * (1 + (2 * ((1 + 1 / 2 ^ 53) ^ (m + 4) - 1) + ((1 + 1 / 2 ^ 53) ^ 8 - 1))) - 1) * (2 / Real.sqrt (ell k) * ∑ j, |r j|)
              + ((1 + 1 / 2 ^ 53) ^ ((N + m).choose m + 3 * m + 2) - 1) * ∑ j, |c j| * (e j k * ∏ l, |X i l| ^ (e j l - if l = k then 1 else 0)) := by
  obtain ⟨I, hI, hnd, hmem, -, hlen⟩ := C25_enumerates N m hm
  rw [← hlen]
  refine ⟨I.get, List.nodup_iff_injective_get.mp hnd, ?_, ?_⟩
  · ext α
    rw [Set.mem_ofPred_eq, ← hmem α, List.mem_iff_get]
    rfl
  · intro s M0 X0 ell r c hs hell hX hl hr hc M X
    have hf := rbfPredict_rounded fl s hs hI hX hl hr hc X
    refine ⟨_, _, hf, rbfPredictGrad_rounded fl s hs hI hX hl hr hc X, fun P hP hcP i D hD k => ?_⟩
    have hPf : P = fitted I c := by
      rw [eq_fitted I hnd (fun α hα => (hmem α).mpr hα) P hP]
      congr 1
      funext j
      exact (hcP j).symm
    have hDk : D (Pi.single k 1) = Proofs.RBF.surfaceGrad X0 ell r P (X i) k := by
      rw [hD.unique (Proofs.RBF.hasFDerivAt_surface X0 ell r P (X i))]
      simp [_root_.sum_apply, Pi.single_apply]
    rw [hDk]
    subst hPf
    have hp := vecDot_near h c (B := Model.Rounded.gradMonomials fl X I k) (i := i) fun j => gradMonomial_near h X I k i j
    have e1 := congrFun (mulVec_gradMonomials X I c k) i
    simp only [Matrix.mulVec, dotProduct] at e1
    rw [e1] at hp
    have e2 : ∑ j, (I.get j k * ∏ l, |X i l| ^ (I.get j l - if l = k then 1 else 0)) * |c j|
        = ∑ j, |c j| * (I.get j k * ∏ l, |X i l| ^ (I.get j l - if l = k then 1 else 0)) := Finset.sum_congr rfl fun j _ => mul_comm _ _
    rw [e2] at hp
    have hk := fun j => C153_kernel h hm' X0 X hell k j i
    have hd := dot_bound h.rd (h.dot M M0 1 (Model.Rounded.grad_exponential_squared fl X0 X 1 ell k).transpose (colMat r)) i 0
    have hε : (0 : ℝ) ≤ 2 * ((1 + 1 / 2 ^ 53) ^ (m + 4) - 1) + ((1 + 1 / 2 ^ 53) ^ 8 - 1) := by
      have h1 := one_le_pow (m + 4)
      have h2 := one_le_pow 8
      unfold u at h1 h2
      linarith
    exact combine_near h.rd hε (fun j => (hk j).1) (fun j => (hk j).2) hd rfl hp

/-- A library that keeps the contract, and a surface in two variables with two centres and a constant trend, which has a derivative everywhere. -/
example : ∃ (fl : Fl) (s : RBF), FlOK fl ∧ s.N = 0 ∧ s.X = some (NpMat.of (Matrix.of ![![0, 1], ![1, 2]] : Matrix (Fin 2) (Fin 2) ℝ)) ∧
    s.ell = some (NpVec.of ![(3 : ℝ), 1]) ∧ s.radial_weights = some (NpVec.of ![(1 : ℝ), -1]) ∧ s.poly_weights = some (NpVec.of ![(5 : ℝ)]) ∧ (0 + 2).choose 2 = 1 ∧
    ∀ x : Fin 2 → ℝ, ∃ D : (Fin 2 → ℝ) →L[ℝ] ℝ, HasFDerivAt (expansion ![(3 : ℝ), 1] (Matrix.of ![![0, 1], ![1, 2]]) ![(1 : ℝ), -1] (MvPolynomial.C 5)) D x := by
  obtain ⟨fl, hfl⟩ := fl_exists
  exact ⟨fl, { N := 0, X := some _, ell := some _, radial_weights := some _, poly_weights := some _ }, hfl, rfl, rfl, rfl, rfl, rfl, rfl,
    fun x => ⟨_, Proofs.RBF.hasFDerivAt_surface _ _ _ _ x⟩⟩

end Props
