import Mathlib.Analysis.Calculus.MeanValue
import Verif.Model.RoundedActiveRBF
import Verif.Props.ActiveRounded
import Verif.Props.KernelGradsRounded

/-!
# Property C155: radial basis surfaces on the active variables in double precision
-/

open Py Model.Misc Model.ResponseSurfaces Model.Rounded Model.Subspaces Spec Proofs.Rounding Proofs.FloatSum Proofs.Near Proofs.FloatProd Proofs.PolyApprox

namespace Props

variable {M m n k : ℕ}

theorem exp_half {S : ℝ} (hS : 0 ≤ S) : Real.sqrt S * Real.exp (-S) ≤ 1 / 2 ∧ S * Real.exp (-S) ≤ 1 / 2 := by
  have hq := Real.quadratic_le_exp_of_nonneg hS
  have hl := Real.add_one_le_exp S
  set t := Real.sqrt S with ht
  have hS2 : S = t ^ 2 := (Real.sq_sqrt hS).symm
  rw [Real.exp_neg, ← div_eq_mul_inv, ← div_eq_mul_inv, div_le_iff₀ (Real.exp_pos _), div_le_iff₀ (Real.exp_pos _)]
  constructor
  · nlinarith [sq_nonneg (t - 1)]
  · nlinarith [sq_nonneg (S - 1)]

section line

variable {ell : Fin n → ℝ} (x d y : Fin n → ℝ)

theorem hasDerivAt_gauss_line (τ : ℝ) : HasDerivAt (fun τ : ℝ => gauss ell (x + τ • d) y)
    (gauss ell (x + τ • d) y * -∑ l, 2 * ((x + τ • d) l - y l) * d l / ell l) τ := by
  have h1 : ∀ l, HasDerivAt (fun τ : ℝ => ((x + τ • d) l - y l) ^ 2 / ell l) (2 * ((x + τ • d) l - y l) * d l / ell l) τ := fun l => by
    have h0 : HasDerivAt (fun τ : ℝ => (x + τ • d) l - y l) (d l) τ := by
      have := (((hasDerivAt_id τ).mul_const (d l)).const_add (x l)).sub_const (y l)
      simpa using this
    have := (h0.pow 2).div_const (ell l)
    simpa using this
  exact (HasDerivAt.fun_sum fun l (_ : l ∈ Finset.univ) => h1 l).neg.exp

theorem abs_dir_le (hell : ∀ l, 0 < ell l) (z : Fin n → ℝ) : |∑ l, 2 * (z l - y l) * d l / ell l|
    ≤ 2 * Real.sqrt (∑ l, (z l - y l) ^ 2 / ell l) * ∑ l, |d l| / Real.sqrt (ell l) := by
  rw [Finset.mul_sum]
  refine (Finset.abs_sum_le_sum_abs _ _).trans (Finset.sum_le_sum fun l _ => ?_)
  have h1 := gaussGrad_le hell z y l
  have e : |2 * (z l - y l) * d l / ell l| = 2 * |d l| * (|z l - y l| / ell l) := by
    rw [abs_div, abs_mul, abs_mul, abs_two, abs_of_pos (hell l)]
    ring
  rw [e]
  refine (mul_le_mul_of_nonneg_left h1 (by positivity)).trans (le_of_eq ?_)
  ring

/-- The kernel as a function of the point. -/
theorem gauss_lipschitz (hell : ∀ l, 0 < ell l) (x' : Fin n → ℝ) : |gauss ell x' y - gauss ell x y| ≤ ∑ l, |x' l - x l| / Real.sqrt (ell l) := by
  set d : Fin n → ℝ := x' - x with hd
  have hb := norm_image_sub_le_of_norm_deriv_le_segment_01' (f := fun τ : ℝ => gauss ell (x + τ • d) y) (C := ∑ l, |d l| / Real.sqrt (ell l))
    (fun τ _ => (hasDerivAt_gauss_line (ell := ell) x d y τ).hasDerivWithinAt) fun τ _ => by
      have hS : 0 ≤ ∑ l, ((x + τ • d) l - y l) ^ 2 / ell l := Finset.sum_nonneg fun l _ => div_nonneg (sq_nonneg _) (hell l).le
      have h1 := abs_dir_le d y hell (x + τ • d)
      have h2 := (exp_half hS).1
      have hD : 0 ≤ ∑ l, |d l| / Real.sqrt (ell l) := Finset.sum_nonneg fun l _ => by positivity
      rw [Real.norm_eq_abs, abs_mul, abs_neg]
      unfold gauss
      rw [abs_of_pos (Real.exp_pos _)]
      refine (mul_le_mul_of_nonneg_left h1 (Real.exp_pos _).le).trans ?_
      nlinarith
  simpa [hd] using hb

/-- The gradient of the kernel as a function of the point. -/
theorem gaussGrad_lipschitz (hell : ∀ l, 0 < ell l) (x' : Fin n → ℝ) (j : Fin n) :
    |gauss ell x' y * (-(2 * (x' j - y j) / ell j)) - gauss ell x y * (-(2 * (x j - y j) / ell j))|
      ≤ 4 / Real.sqrt (ell j) * ∑ l, |x' l - x l| / Real.sqrt (ell l) := by
  set d : Fin n → ℝ := x' - x with hd
  have hlin : ∀ τ : ℝ, HasDerivAt (fun τ : ℝ => -(2 * ((x + τ • d) j - y j) / ell j)) (-(2 * d j / ell j)) τ := fun τ => by
    have := ((((((hasDerivAt_id τ).mul_const (d j)).const_add (x j)).sub_const (y j)).const_mul 2).div_const (ell j)).fun_neg
    simpa using this
  have hb := norm_image_sub_le_of_norm_deriv_le_segment_01' (f := fun τ : ℝ => gauss ell (x + τ • d) y * (-(2 * ((x + τ • d) j - y j) / ell j)))
    (C := 4 / Real.sqrt (ell j) * ∑ l, |d l| / Real.sqrt (ell l))
    (fun τ _ => ((hasDerivAt_gauss_line (ell := ell) x d y τ).mul (hlin τ)).hasDerivWithinAt) fun τ _ => by
      set z := x + τ • d with hz
      have hS : 0 ≤ ∑ l, (z l - y l) ^ 2 / ell l := Finset.sum_nonneg fun l _ => div_nonneg (sq_nonneg _) (hell l).le
      have h1 := abs_dir_le d y hell z
      have h2 := gaussGrad_le hell z y j
      have h3 := (exp_half hS).2
      have hD : 0 ≤ ∑ l, |d l| / Real.sqrt (ell l) := Finset.sum_nonneg fun l _ => by positivity
      have hDj : |d j| / Real.sqrt (ell j) ≤ ∑ l, |d l| / Real.sqrt (ell l) :=
        Finset.single_le_sum (f := fun l => |d l| / Real.sqrt (ell l)) (fun l _ => by positivity) (Finset.mem_univ j)
      have hs0 : 0 < Real.sqrt (ell j) := Real.sqrt_pos.mpr (hell j)
      have hsq : Real.sqrt (∑ l, (z l - y l) ^ 2 / ell l) * Real.sqrt (∑ l, (z l - y l) ^ 2 / ell l) = ∑ l, (z l - y l) ^ 2 / ell l := Real.mul_self_sqrt hS
      have hE1 : gauss ell z y ≤ 1 := Real.exp_le_one_iff.mpr (by linarith)
      have hE0 : 0 < gauss ell z y := Real.exp_pos _
      have h4 : gauss ell z y * ∑ l, (z l - y l) ^ 2 / ell l ≤ 1 / 2 := by rw [mul_comm]; exact h3
      rw [Real.norm_eq_abs]
      refine (abs_add_le _ _).trans ?_
      rw [abs_mul, abs_mul, abs_mul (gauss ell z y), abs_neg, abs_neg, abs_neg, abs_of_pos hE0, abs_div, abs_div, abs_mul, abs_mul, abs_two, abs_of_pos (hell j)]
      set G := gauss ell z y
      set s := Real.sqrt (∑ l, (z l - y l) ^ 2 / ell l)
      set Δ := ∑ l, |d l| / Real.sqrt (ell l)
      set q := 1 / Real.sqrt (ell j) with hq
      have hq0 : 0 < q := by positivity
      have hs : 0 ≤ s := Real.sqrt_nonneg _
      have c1 : G * |∑ l, 2 * (z l - y l) * d l / ell l| * (2 * |z j - y j| / ell j) ≤ 2 * q * Δ := by
        rw [mul_div_assoc]
        calc G * |∑ l, 2 * (z l - y l) * d l / ell l| * (2 * (|z j - y j| / ell j)) ≤ G * (2 * s * Δ) * (2 * (q * s)) :=
              mul_le_mul (mul_le_mul_of_nonneg_left h1 hE0.le) (mul_le_mul_of_nonneg_left h2 (by norm_num))
                (mul_nonneg (by norm_num) (div_nonneg (abs_nonneg _) (hell j).le)) (by positivity)
          _ = 4 * q * Δ * (G * (s * s)) := by ring
          _ ≤ 4 * q * Δ * (1 / 2) := mul_le_mul_of_nonneg_left (by rw [hsq]; exact h4) (by positivity)
          _ = 2 * q * Δ := by ring
      have c2 : G * (2 * |d j| / ell j) ≤ 2 * q * Δ := by
        have e : 2 * |d j| / ell j = 2 * q * (|d j| / Real.sqrt (ell j)) := by
          rw [hq, mul_one_div, div_mul_div_comm, Real.mul_self_sqrt (hell j).le]
        rw [e]
        exact (mul_le_of_le_one_left (by positivity) hE1).trans (mul_le_mul_of_nonneg_left hDj (by positivity))
      have e0 : 4 / Real.sqrt (ell j) = 4 * q := by rw [hq]; ring
      rw [e0]
      linarith
  simpa [hd] using hb

end line

/-- What `predict` of a radial basis surface returns in floating point, in the form used on the active variables. -/
theorem rbfSurface_eq (fl : Fl) (s : RBF) {X : Arr} {f : NpVec} {df : NpMat} (h1 : rbfPredict fl s X = .ok f) (h2 : rbfPredictGrad fl s X = .ok (f, df)) :
    rbfSurface fl s X false = .ok (f, none) ∧ rbfSurface fl s X true = .ok (f, some df) := by
  unfold rbfSurface
  rw [h1, h2]
  exact ⟨rfl, rfl⟩

/-- A rounded product with a column whose entries have errors of two kinds. -/
theorem near_two {rd : ℝ → ℝ} (hr : Rounding rd) {n : ℕ} {a c g A C : Fin n → ℝ} {α β s : ℝ} (hs : FloatSum rd (List.ofFn fun j => (a j, c j)) s)
    (ha : ∀ j, |a j - g j| ≤ (α - 1) * A j + (β - 1) * C j) (hg : ∀ j, |g j| ≤ A j + C j) :
    |s - ∑ j, g j * c j| ≤ ∑ j, |c j| * (((1 + u) ^ n * α - 1) * A j + ((1 + u) ^ n * β - 1) * C j) := by
  have h1 : |s - ∑ j, a j * c j| ≤ ((1 + u) ^ n - 1) * ∑ j, |a j * c j| := by
    have := (Proofs.FloatSum.bound hr hs).2
    simpa [val, mag, List.map_ofFn, List.sum_ofFn, Function.comp_def] using this
  have h2 : ∑ j, |a j * c j| ≤ ∑ j, (α * A j + β * C j) * |c j| := Finset.sum_le_sum fun j _ => by
    rw [abs_mul]
    refine mul_le_mul_of_nonneg_right ?_ (abs_nonneg _)
    have : a j = (a j - g j) + g j := by ring
    rw [this]
    refine (abs_add_le _ _).trans ?_
    linarith [ha j, hg j]
  have h3 : |∑ j, a j * c j - ∑ j, g j * c j| ≤ ∑ j, ((α - 1) * A j + (β - 1) * C j) * |c j| := by
    rw [← Finset.sum_sub_distrib]
    refine (Finset.abs_sum_le_sum_abs _ _).trans (Finset.sum_le_sum fun j _ => ?_)
    rw [← sub_mul, abs_mul]
    exact mul_le_mul_of_nonneg_right (ha j) (abs_nonneg _)
  have h4 := mul_le_mul_of_nonneg_left h2 (by linarith [one_le_pow n] : 0 ≤ (1 + u) ^ n - 1)
  refine (abs_sub_le _ _ _).trans ((add_le_add (h1.trans h4) h3).trans (le_of_eq ?_))
  rw [Finset.mul_sum, ← Finset.sum_add_distrib]
  exact Finset.sum_congr rfl fun j _ => by ring

/-- **C155.** The predictions and gradients in double precision of a radial basis surface with `M0` centres on `n` active variables of points with `m` coordinates.
The errors of the active variables enter relative to the length scales: `∑_j (∑_l |x_l| |W1_lj|) / sqrt ell_j` times `(1 + 2^-53)^m - 1`. -/
theorem C155_predict {fl : Fl} (h : FlOK fl) (N n : ℕ) (hn : 1 ≤ n) (hn' : n + 4 ≤ 2 ^ 51) :
    ∃ e : Fin ((N + n).choose n) → (Fin n → ℕ), Function.Injective e ∧ Set.range e = {α | ∑ j, α j ≤ N} ∧
      ∀ (r : RBF) (M0 : ℕ) (Y0 : Matrix (Fin M0) (Fin n) ℝ) (ell : Fin n → ℝ) (w : Fin M0 → ℝ) (c : Fin ((N + n).choose n) → ℝ), r.N = N → (∀ j, 0 < ell j) →
      r.X = some (NpMat.of Y0) → r.ell = some (NpVec.of ell) → r.radial_weights = some (NpVec.of w) → r.poly_weights = some (NpVec.of c) →
      ∀ (m k : ℕ) (s : Subspaces) (V1 : Matrix (Fin m) (Fin n) ℝ) (V2 : Matrix (Fin m) (Fin k) ℝ), s.W1 = some (NpMat.of V1) → s.W2 = some (NpMat.of V2) →
      ∀ (M : ℕ) (X : Matrix (Fin M) (Fin m) ℝ), ∃ (f : Fin M → ℝ) (df : Matrix (Fin M) (Fin m) ℝ),
        activePredict fl.d (rbfSurface fl r) s (.mat (NpMat.of X)) false = .ok (NpVec.of f, none) ∧
        activePredict fl.d (rbfSurface fl r) s (.mat (NpMat.of X)) true = .ok (NpVec.of f, some (NpMat.of df)) ∧
        ∀ P : MvPolynomial (Fin n) ℝ, P.totalDegree ≤ N → (∀ t, c t = P.coeff (Finsupp.equivFunOnFinite.symm (e t))) →
        ∀ (i : Fin M) (μ : Fin n → ℝ) (ρ : ℝ), (∀ j, μ j = ∑ l, |X i l| * |V1 l j|) → ρ = ((1 + 1 / 2 ^ 53) ^ m - 1) * ∑ j, μ j / Real.sqrt (ell j) →
          |f i - expansion ell Y0 w P (fun j => ∑ l, X i l * V1 l j)|
            ≤ ((1 + 1 / 2 ^ 53) ^ (M0 + 1) * (1 + (((1 + 1 / 2 ^ 53) ^ (n + 4) - 1) + ((1 + 1 / 2 ^ 53) ^ 3 - 1) + ρ)) - 1) * ∑ j, |w j|
              + ((1 + 1 / 2 ^ 53) ^ ((N + n).choose n + 3 * n + m * N + 1) - 1) * ∑ t, |c t| * ∏ j, μ j ^ e t j ∧
          ∀ D : (Fin m → ℝ) →L[ℝ] ℝ, HasFDerivAt (fun x : Fin m → ℝ => expansion ell Y0 w P (fun j => ∑ l, x l * V1 l j)) D (X i) → ∀ l,
            |df i l - D (Pi.single l 1)| ≤ ∑ j, |V1 l j| *
              (((1 + 1 / 2 ^ 53) ^ (n + M0 + 1) * (1 + (2 * ((1 + 1 / 2 ^ 53) ^ (n + 4) - 1) + ((1 + 1 / 2 ^ 53) ^ 8 - 1) + 2 * ρ)) - 1)
                  * (2 / Real.sqrt (ell j) * ∑ j, |w j|)
                + ((1 + 1 / 2 ^ 53) ^ ((N + n).choose n + 4 * n + m * N + 2) - 1) * ∑ t, |c t| * (e t j * ∏ j', μ j' ^ (e t j' - if j' = j then 1 else 0))) := by
  obtain ⟨I, hI, hnd, hmem, -, hlen⟩ := C25_enumerates N n hn
  rw [← hlen]
  refine ⟨I.get, List.nodup_iff_injective_get.mp hnd, ?_, ?_⟩
  · ext α
    rw [Set.mem_ofPred_eq, ← hmem α, List.mem_iff_get]
    rfl
  · intro r M0 Y0 ell w c hN hell hX0 hl hw hc m k s V1 V2 hV1 hV2 M X
    have h1 := rbfPredict_rounded fl r hN hI hX0 hl hw hc (fl.d M m n X V1)
    have h2 := rbfPredictGrad_rounded fl r hN hI hX0 hl hw hc (fl.d M m n X V1)
    obtain ⟨h3, h4⟩ := rbfSurface_eq fl r h1 h2
    obtain ⟨h5, h6⟩ := activePredict_eq fl.d (rbfSurface fl r) hV1 hV2 X h3 h4
    refine ⟨_, _, h5, h6, fun P hP hcP i μ ρ hμ hρ => ?_⟩
    have hPf : P = fitted I c := by
      rw [eq_fitted I hnd (fun α hα => (hmem α).mpr hα) P hP]
      congr 1
      funext j
      exact (hcP j).symm
    have hdeg : ∀ t : Fin I.length, ∑ j, I.get t j ≤ N := fun t => (hmem _).mp (List.get_mem I t)
    have hY : ∀ j, Near m (fl.d M m n X V1 i j) ((X * V1) i j) (μ j) := fun j => by
      rw [hμ]
      exact near_dot h.rd (n := 0) (h.dot M m n X V1 i j) fun l => refl (b := X i l * V1 l j) (m := |X i l| * |V1 l j|) (abs_mul _ _).le
    have hΔ : ∑ l, |fl.d M m n X V1 i l - (X * V1) i l| / Real.sqrt (ell l) ≤ ρ := by
      rw [hρ, Finset.mul_sum]
      refine Finset.sum_le_sum fun j _ => ?_
      rw [← mul_div_assoc]
      exact div_le_div_of_nonneg_right (hY j).err (Real.sqrt_nonneg _)
    have hΔ0 : 0 ≤ ρ := (Finset.sum_nonneg fun l _ => div_nonneg (abs_nonneg _) (Real.sqrt_nonneg _)).trans hΔ
    have hrow : (fun j => ∑ l, X i l * V1 l j) = (X * V1) i := rfl
    change _ ≤ ((1 + u) ^ (M0 + 1) * (1 + (((1 + u) ^ (n + 4) - 1) + ((1 + u) ^ 3 - 1) + ρ)) - 1) * ∑ j, |w j|
      + ((1 + u) ^ (I.length + 3 * n + m * N + 1) - 1) * ∑ t, |c t| * ∏ j, μ j ^ I.get t j ∧ _
    have hn4 := one_le_pow (n + 4)
    constructor
    · rw [hrow]
      have hp := vecDot_near h c (B := Model.Rounded.monomials fl (fl.d M m n X V1) I) (i := i) fun t => monomial_near_near h _ hY I t (hdeg t)
      have e1 : ∑ t, (∏ j, (X * V1) i j ^ I.get t j) * c t = MvPolynomial.eval ((X * V1) i) P := by
        rw [hPf, eval_fitted]
        exact Finset.sum_congr rfl fun j _ => mul_comm _ _
      have e2 : ∑ t, (∏ j, μ j ^ I.get t j) * |c t| = ∑ t, |c t| * ∏ j, μ j ^ I.get t j := Finset.sum_congr rfl fun j _ => mul_comm _ _
      rw [e1, e2, ← add_assoc] at hp
      have hd := dot_bound h.rd (h.dot M M0 1 (Model.Rounded.exponential_squared fl (fl.d M m n X V1) Y0 1 ell) (colMat w)) i 0
      have hk : ∀ j, |Model.Rounded.exponential_squared fl (fl.d M m n X V1) Y0 1 ell i j - gauss ell ((X * V1) i) (Y0 j)|
          ≤ 1 * (((1 + u) ^ (n + 4) - 1) + ((1 + u) ^ 3 - 1) + ρ) := fun j => by
        rw [one_mul]
        exact (abs_sub_le _ _ _).trans (add_le_add (C151_kernel h hn' (fl.d M m n X V1) Y0 hell i j) ((gauss_lipschitz _ _ hell _).trans hΔ))
      have hg1 : ∀ j, |gauss ell ((X * V1) i) (Y0 j)| ≤ 1 := fun j => by
        rw [gauss, abs_of_pos (Real.exp_pos _)]
        exact Real.exp_le_one_iff.mpr (neg_nonpos.mpr (Finset.sum_nonneg fun k _ => div_nonneg (sq_nonneg _) (hell k).le))
      have := combine_near h.rd (by linarith [one_le_pow 3]) hk hg1 hd rfl hp
      rw [one_mul] at this
      exact this
    · intro D hD l
      have hDl : D (Pi.single l 1) = ∑ j, Proofs.RBF.surfaceGrad Y0 ell w P ((X * V1) i) j * V1.transpose j l := by
        have := hasFDerivAt_ridge V1 (x := X i) (Proofs.RBF.hasFDerivAt_surface Y0 ell w P fun j => ∑ l, X i l * V1 l j)
        rw [hD.unique this, proj_single, Matrix.mulVec, dotProduct]
        exact Finset.sum_congr rfl fun j _ => mul_comm _ _
      rw [hDl]
      have hp : ∀ j, Near (I.length + (3 * n + 1 + m * N)) (fl.d M I.length 1 (Model.Rounded.gradMonomials fl (fl.d M m n X V1) I j) (colMat c) i 0)
          (MvPolynomial.eval ((X * V1) i) (MvPolynomial.pderiv j P))
          (∑ t, |c t| * (I.get t j * ∏ j', μ j' ^ (I.get t j' - if j' = j then 1 else 0))) := fun j => by
        have := vecDot_near h c (B := Model.Rounded.gradMonomials fl (fl.d M m n X V1) I j) (i := i) fun t => gradMonomial_near_near h _ (X * V1) hY I t (hdeg t) j
        have e := congrFun (mulVec_gradMonomials (X * V1) I c j) i
        rw [hPf, ← e]
        simp only [mul_comm |c _|]
        exact this
      have hk : ∀ j q, |(Model.Rounded.grad_exponential_squared fl Y0 (fl.d M m n X V1) 1 ell j).transpose i q
            - gauss ell ((X * V1) i) (Y0 q) * (-(2 * ((X * V1) i j - Y0 q j) / ell j))|
          ≤ 2 / Real.sqrt (ell j) * (2 * ((1 + u) ^ (n + 4) - 1) + ((1 + u) ^ 8 - 1) + 2 * ρ) := fun j q => by
        have a1 := (C153_kernel h hn' Y0 (fl.d M m n X V1) hell j q i).1
        have a2 := gaussGrad_lipschitz (ell := ell) ((X * V1) i) (Y0 q) hell (fl.d M m n X V1 i) j
        have a3 := mul_le_mul_of_nonneg_left hΔ (by positivity : 0 ≤ 4 / Real.sqrt (ell j))
        refine (abs_sub_le _ _ _).trans ((add_le_add a1 (a2.trans a3)).trans (le_of_eq ?_))
        unfold u
        ring
      have hg1 : ∀ j q, |gauss ell ((X * V1) i) (Y0 q) * (-(2 * ((X * V1) i j - Y0 q j) / ell j))| ≤ 2 / Real.sqrt (ell j) := fun j q =>
        (C153_kernel h hn' Y0 (X * V1) hell j q i).2
      have hε : 0 ≤ 2 * ((1 + u) ^ (n + 4) - 1) + ((1 + u) ^ 8 - 1) + 2 * ρ := by linarith [one_le_pow 8]
      have hcomb : ∀ j, |(Matrix.of fun i j => fl.rd (fl.d M M0 1 (Model.Rounded.grad_exponential_squared fl Y0 (fl.d M m n X V1) 1 ell j).transpose (colMat w) i 0
          + fl.d M I.length 1 (Model.Rounded.gradMonomials fl (fl.d M m n X V1) I j) (colMat c) i 0) : Matrix (Fin M) (Fin n) ℝ) i j
          - Proofs.RBF.surfaceGrad Y0 ell w P ((X * V1) i) j|
          ≤ ((1 + u) ^ (M0 + 1) * (1 + (2 * ((1 + u) ^ (n + 4) - 1) + ((1 + u) ^ 8 - 1) + 2 * ρ)) - 1) * (2 / Real.sqrt (ell j) * ∑ q, |w q|)
            + ((1 + u) ^ (I.length + (3 * n + 1 + m * N) + 1) - 1) * ∑ t, |c t| * (I.get t j * ∏ j', μ j' ^ (I.get t j' - if j' = j then 1 else 0)) :=
        fun j => combine_near h.rd hε (hk j) (hg1 j)
        (dot_bound h.rd (h.dot M M0 1 (Model.Rounded.grad_exponential_squared fl Y0 (fl.d M m n X V1) 1 ell j).transpose (colMat w)) i 0) rfl (hp j)
      have hsize : ∀ j, |Proofs.RBF.surfaceGrad Y0 ell w P ((X * V1) i) j|
          ≤ 2 / Real.sqrt (ell j) * ∑ q, |w q| + ∑ t, |c t| * (I.get t j * ∏ j', μ j' ^ (I.get t j' - if j' = j then 1 else 0)) := fun j => by
        refine (abs_add_le _ _).trans (add_le_add ?_ (hp j).le)
        rw [Finset.mul_sum]
        refine (Finset.abs_sum_le_sum_abs _ _).trans (Finset.sum_le_sum fun q _ => ?_)
        rw [abs_mul, mul_comm]
        exact mul_le_mul_of_nonneg_right (hg1 j q) (abs_nonneg _)
      have := near_two h.rd (h.dot M n m _ V1.transpose i l) hcomb hsize
      refine this.trans (le_of_eq (Finset.sum_congr rfl fun j _ => ?_))
      have e1 : (1 + u) ^ n * ((1 + u) ^ (M0 + 1) * (1 + (2 * ((1 + u) ^ (n + 4) - 1) + ((1 + u) ^ 8 - 1) + 2 * ρ)))
          = (1 + u) ^ (n + M0 + 1) * (1 + (2 * ((1 + u) ^ (n + 4) - 1) + ((1 + u) ^ 8 - 1) + 2 * ρ)) := by
        rw [← mul_assoc, ← pow_add, ← add_assoc n M0 1]
      have e2 : (1 + u) ^ n * (1 + u) ^ (I.length + (3 * n + 1 + m * N) + 1) = (1 + u) ^ (I.length + 4 * n + m * N + 2) := by
        rw [← pow_add]
        congr 1
        ring
      rw [e1, e2]
      rfl

/-- A library that keeps the contract, a subspace, and a surface on the active variable with two centres and a constant trend, which has a derivative everywhere. -/
example : ∃ (fl : Fl) (s : Subspaces) (r : RBF), FlOK fl ∧ s.W1 = some (NpMat.of (Matrix.of ![![3 / 5], ![4 / 5]] : Matrix (Fin 2) (Fin 1) ℝ)) ∧
    s.W2 = some (NpMat.of (Matrix.of ![![-4 / 5], ![3 / 5]] : Matrix (Fin 2) (Fin 1) ℝ)) ∧ r.N = 0 ∧
    r.X = some (NpMat.of (Matrix.of ![![0], ![1]] : Matrix (Fin 2) (Fin 1) ℝ)) ∧ r.ell = some (NpVec.of ![(3 : ℝ)]) ∧ r.radial_weights = some (NpVec.of ![(1 : ℝ), -1]) ∧
    r.poly_weights = some (NpVec.of ![(5 : ℝ)]) ∧ (0 + 1).choose 1 = 1 ∧ ∀ x : Fin 2 → ℝ, ∃ D : (Fin 2 → ℝ) →L[ℝ] ℝ,
      HasFDerivAt (fun x : Fin 2 → ℝ => expansion ![(3 : ℝ)] (Matrix.of ![![0], ![1]]) ![(1 : ℝ), -1] (MvPolynomial.C 5)
        (fun j : Fin 1 => ∑ l, x l * (Matrix.of ![![3 / 5], ![4 / 5]] : Matrix (Fin 2) (Fin 1) ℝ) l j)) D x := by
  obtain ⟨fl, hfl⟩ := fl_exists
  exact ⟨fl, { W1 := some _, W2 := some _ }, { N := 0, X := some _, ell := some _, radial_weights := some _, poly_weights := some _ }, hfl, rfl, rfl, rfl, rfl, rfl,
    rfl, rfl, rfl, fun x => ⟨_, hasFDerivAt_ridge _ (Proofs.RBF.hasFDerivAt_surface _ _ _ _ _)⟩⟩

end Props
