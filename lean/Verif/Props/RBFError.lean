import Mathlib.Algebra.QuadraticDiscriminant
import Verif.Props.RBF
import Verif.Spec.NativeSpace

/-!
# Property C147: radial basis surfaces are best fits, and their error
-/

open Py Model.ResponseSurfaces Proofs.PolyApprox Proofs.Kernel Proofs.RBF Matrix Spec

namespace Props

variable {M m N p q : ℕ} {ell : Fin m → ℝ}

theorem gauss_comm (ell : Fin m → ℝ) (x y : Fin m → ℝ) : gauss ell x y = gauss ell y x := by
  unfold gauss
  congr 2
  exact Finset.sum_congr rfl fun k _ => by ring

theorem gauss_self (ell : Fin m → ℝ) (x : Fin m → ℝ) : gauss ell x x = 1 := by simp [gauss]

theorem inner_bumps (ell : Fin m → ℝ) (Z : Matrix (Fin p) (Fin m) ℝ) (c : Fin p → ℝ) (W : Matrix (Fin q) (Fin m) ℝ) (d : Fin q → ℝ) :
    Spec.inner ell Z c W d = ∑ j, d j * bumps ell Z c (W j) := by
  unfold Spec.inner bumps
  rw [Finset.sum_comm]
  refine Finset.sum_congr rfl fun j _ => ?_
  rw [Finset.mul_sum]
  refine Finset.sum_congr rfl fun i _ => ?_
  rw [gauss_comm]
  ring

theorem inner_comm' (ell : Fin m → ℝ) (Z : Matrix (Fin p) (Fin m) ℝ) (c : Fin p → ℝ) (W : Matrix (Fin q) (Fin m) ℝ) (d : Fin q → ℝ) :
    Spec.inner ell Z c W d = Spec.inner ell W d Z c := by
  unfold Spec.inner
  rw [Finset.sum_comm]
  refine Finset.sum_congr rfl fun j _ => Finset.sum_congr rfl fun i _ => ?_
  rw [gauss_comm]
  ring

theorem inner_nonneg' (hl : ∀ k, 0 < ell k) (Z : Matrix (Fin p) (Fin m) ℝ) (c : Fin p → ℝ) : 0 ≤ Spec.inner ell Z c Z c := by
  have h := (gaussian_posSemidef Z ell hl).dotProduct_mulVec_nonneg c
  have e : star c ⬝ᵥ (exponential_squared Z Z 1 ell).mulVec c = Spec.inner ell Z c Z c := by
    simp only [Spec.inner, dotProduct, Matrix.mulVec, Finset.mul_sum, exponential_squared, Matrix.of_apply, one_mul, gauss, star_trivial]
    refine Finset.sum_congr rfl fun i _ => Finset.sum_congr rfl fun j _ => ?_
    have : ∑ k, (Z i k - Z j k) * (Z i k - Z j k) * (-1 / ell k) = -∑ k, (Z i k - Z j k) ^ 2 / ell k := by
      rw [← Finset.sum_neg_distrib]
      exact Finset.sum_congr rfl fun k _ => by ring
    rw [this]
    ring
  rwa [e] at h

theorem bumps_append (ell : Fin m → ℝ) (Z : Matrix (Fin p) (Fin m) ℝ) (c : Fin p → ℝ) (W : Matrix (Fin q) (Fin m) ℝ) (d : Fin q → ℝ) (x : Fin m → ℝ) :
    bumps ell (Np.vstack Z W) (Fin.append c d) x = bumps ell Z c x + bumps ell W d x := by
  unfold bumps
  rw [Fin.sum_univ_add]
  simp only [Fin.append_left, Fin.append_right, Np.vstack_castAdd, Np.vstack_natAdd]

theorem inner_append (ell : Fin m → ℝ) (Z : Matrix (Fin p) (Fin m) ℝ) (c : Fin p → ℝ) (W : Matrix (Fin q) (Fin m) ℝ) (d : Fin q → ℝ) :
    Spec.inner ell (Np.vstack Z W) (Fin.append c d) (Np.vstack Z W) (Fin.append c d)
      = Spec.inner ell Z c Z c + 2 * Spec.inner ell Z c W d + Spec.inner ell W d W d := by
  rw [inner_bumps, Fin.sum_univ_add]
  simp only [Fin.append_left, Fin.append_right, Np.vstack_castAdd, Np.vstack_natAdd, bumps_append, mul_add, Finset.sum_add_distrib]
  rw [← inner_bumps, ← inner_bumps, ← inner_bumps, ← inner_bumps, inner_comm' ell W d Z c]
  ring

theorem bumps_smul (ell : Fin m → ℝ) (Z : Matrix (Fin p) (Fin m) ℝ) (c : Fin p → ℝ) (t : ℝ) (x : Fin m → ℝ) :
    bumps ell Z (t • c) x = t * bumps ell Z c x := by
  unfold bumps
  rw [Finset.mul_sum]
  exact Finset.sum_congr rfl fun j _ => by rw [Pi.smul_apply, smul_eq_mul]; ring

theorem inner_smul' (ell : Fin m → ℝ) (Z : Matrix (Fin p) (Fin m) ℝ) (c : Fin p → ℝ) (W : Matrix (Fin q) (Fin m) ℝ) (d : Fin q → ℝ) (t : ℝ) :
    Spec.inner ell Z c W (t • d) = t * Spec.inner ell Z c W d := by
  rw [inner_bumps, inner_bumps, Finset.mul_sum]
  exact Finset.sum_congr rfl fun j _ => by rw [Pi.smul_apply, smul_eq_mul]; ring

theorem sq_le_of_quadratic {a e Q : ℝ} (h : ∀ t : ℝ, 0 ≤ a + 2 * t * e + t ^ 2 * Q) : e ^ 2 ≤ a * Q := by
  have := discrim_le_zero (a := Q) (b := 2 * e) (c := a) fun t => by
    have := h t
    nlinarith
  unfold discrim at this
  nlinarith

theorem inner_point (ell : Fin m → ℝ) (X : Matrix (Fin M) (Fin m) ℝ) (y : Fin m → ℝ) (b : Fin M → ℝ) :
    Spec.inner ell (Np.vstack (Matrix.of fun (_ : Fin 1) => y) X) (Fin.append (fun _ => 1) ((-1 : ℝ) • b)) (Np.vstack (Matrix.of fun (_ : Fin 1) => y) X)
      (Fin.append (fun _ => 1) ((-1 : ℝ) • b)) = 1 - 2 * ∑ i, b i * gauss ell y (X i) + Spec.inner ell X b X b := by
  rw [inner_append]
  have e2 : Spec.inner ell (Matrix.of fun (_ : Fin 1) => y) (fun _ => 1) (Matrix.of fun (_ : Fin 1) => y) (fun _ => 1) = 1 := by
    simp only [Spec.inner, Fin.sum_univ_one, one_mul, Matrix.of_apply]
    exact gauss_self ell y
  have e3 : Spec.inner ell (Matrix.of fun (_ : Fin 1) => y) (fun _ => 1) X b = ∑ i, b i * gauss ell y (X i) := by
    simp only [Spec.inner, Fin.sum_univ_one, one_mul, Matrix.of_apply]
    rfl
  rw [e2, inner_smul', e3, inner_smul', inner_comm' ell X ((-1 : ℝ) • b) X b, inner_smul']
  ring

theorem spread_nonneg (hl : ∀ k, 0 < ell k) (X : Matrix (Fin M) (Fin m) ℝ) {reg : Fin M → ℝ} (hr : ∀ i, 0 < reg i) (y : Fin m → ℝ) (b : Fin M → ℝ) :
    0 ≤ spread ell X reg y b := by
  unfold spread
  rw [← inner_point]
  exact add_nonneg (inner_nonneg' hl _ _) (Finset.sum_nonneg fun i _ => mul_nonneg (hr i).le (sq_nonneg _))

theorem bumps_sub (ell : Fin m → ℝ) (Z : Matrix (Fin p) (Fin m) ℝ) (c d : Fin p → ℝ) (x : Fin m → ℝ) :
    bumps ell Z (c - d) x = bumps ell Z c x - bumps ell Z d x := by
  unfold bumps
  rw [← Finset.sum_sub_distrib]
  exact Finset.sum_congr rfl fun j _ => by rw [Pi.sub_apply]; ring

/-- A single training point as predictor. -/
theorem spread_single (ell : Fin m → ℝ) (X : Matrix (Fin M) (Fin m) ℝ) (reg : Fin M → ℝ) (y : Fin m → ℝ) (i : Fin M) :
    spread ell X reg y (Pi.single i 1) = 2 * (1 - gauss ell y (X i)) + reg i := by
  have e : ∀ g : Fin M → ℝ, ∑ j, (Pi.single i 1 : Fin M → ℝ) j * g j = g i := fun g => by
    rw [Finset.sum_eq_single i (fun j _ hj => by rw [Pi.single_eq_of_ne hj, zero_mul]) (fun h => absurd (Finset.mem_univ i) h), Pi.single_eq_same, one_mul]
  have e2 : ∑ j, reg j * (Pi.single i 1 : Fin M → ℝ) j ^ 2 = reg i := by
    rw [Finset.sum_eq_single i (fun j _ hj => by rw [Pi.single_eq_of_ne hj]; ring) (fun h => absurd (Finset.mem_univ i) h), Pi.single_eq_same]
    ring
  unfold spread
  rw [inner_bumps, e, e, e2]
  unfold bumps
  rw [e, gauss_self]
  ring

section fit

variable {X : Matrix (Fin M) (Fin m) ℝ} {f reg r : Fin M → ℝ} {P : MvPolynomial (Fin m) ℝ}

/-- The equations of the fit. -/
structure Fits (N : ℕ) (ell : Fin m → ℝ) (X : Matrix (Fin M) (Fin m) ℝ) (f reg r : Fin M → ℝ) (P : MvPolynomial (Fin m) ℝ) : Prop where
  scale : ∀ k, 0 < ell k
  pos : ∀ i, 0 < reg i
  deg : P.totalDegree ≤ N
  eqn : ∀ i, expansion ell X r P (X i) + reg i * r i = f i
  orth : ∀ q : MvPolynomial (Fin m) ℝ, q.totalDegree ≤ N → ∑ i, r i * MvPolynomial.eval (X i) q = 0

theorem Fits.pythagoras (h : Fits N ell X f reg r P) (Z : Matrix (Fin p) (Fin m) ℝ) (c : Fin p → ℝ) {s : MvPolynomial (Fin m) ℝ} (hs : s.totalDegree ≤ N) :
    penalty ell X f reg Z c s = penalty ell X f reg X r P
      + (∑ i, (expansion ell Z c s (X i) - expansion ell X r P (X i)) ^ 2 / reg i
        + Spec.inner ell (Np.vstack Z X) (Fin.append c ((-1 : ℝ) • r)) (Np.vstack Z X) (Fin.append c ((-1 : ℝ) • r))) := by
  have h0 : ∀ i, reg i ≠ 0 := fun i => (h.pos i).ne'
  have h1 : ∀ i, (expansion ell Z c s (X i) - f i) ^ 2 / reg i = (expansion ell X r P (X i) - f i) ^ 2 / reg i
      + (expansion ell Z c s (X i) - expansion ell X r P (X i)) ^ 2 / reg i - 2 * (r i * (expansion ell Z c s (X i) - expansion ell X r P (X i))) := fun i => by
    have := h0 i
    rw [← h.eqn i]
    field_simp
    ring
  have h2 : ∑ i, r i * (expansion ell Z c s (X i) - expansion ell X r P (X i)) = Spec.inner ell Z c X r - Spec.inner ell X r X r := by
    have e1 := h.orth s hs
    have e2 := h.orth P h.deg
    have e3 : ∀ i, r i * (expansion ell Z c s (X i) - expansion ell X r P (X i))
        = r i * bumps ell Z c (X i) - r i * bumps ell X r (X i) + r i * MvPolynomial.eval (X i) s - r i * MvPolynomial.eval (X i) P := fun i => by
      unfold expansion
      ring
    simp only [e3]
    rw [Finset.sum_sub_distrib, Finset.sum_add_distrib, Finset.sum_sub_distrib, e1, e2, ← inner_bumps, ← inner_bumps]
    ring
  unfold penalty
  simp only [h1]
  rw [Finset.sum_sub_distrib, Finset.sum_add_distrib, ← Finset.mul_sum, h2, inner_append, inner_smul', inner_smul', inner_comm' ell X ((-1 : ℝ) • r) X r,
    inner_smul']
  ring

/-- The error at a point in terms of the gap of the penalties. -/
theorem Fits.gap (h : Fits N ell X f reg r P) (Z : Matrix (Fin p) (Fin m) ℝ) (c : Fin p → ℝ) {s : MvPolynomial (Fin m) ℝ} (hs : s.totalDegree ≤ N) (y : Fin m → ℝ)
    {b : Fin M → ℝ} (hb : ∀ q : MvPolynomial (Fin m) ℝ, q.totalDegree ≤ N → ∑ i, b i * MvPolynomial.eval (X i) q = MvPolynomial.eval y q) :
    (expansion ell X r P y - expansion ell Z c s y) ^ 2 ≤ (penalty ell X f reg Z c s - penalty ell X f reg X r P) * spread ell X reg y b := by
  set U := Np.vstack Z X with hU
  set d : Fin (p + M) → ℝ := Fin.append c ((-1 : ℝ) • r) with hd
  let D : Fin M → ℝ := fun i => expansion ell Z c s (X i) - expansion ell X r P (X i)
  let A : Matrix (Fin (1 + M)) (Fin m) ℝ := Np.vstack (Matrix.of fun (_ : Fin 1) => y) X
  let β : Fin (1 + M) → ℝ := Fin.append (fun _ => 1) ((-1 : ℝ) • b)
  have hrad : ∀ x, bumps ell U d x = expansion ell Z c s x - expansion ell X r P x - MvPolynomial.eval x (s - P) := fun x => by
    rw [hU, hd, bumps_append, bumps_smul]
    simp only [expansion, map_sub]
    ring
  have hAβ : ∀ (p' : ℕ) (W : Matrix (Fin p') (Fin m) ℝ) (e : Fin p' → ℝ), Spec.inner ell W e A β = bumps ell W e y - ∑ i, b i * bumps ell W e (X i) := fun p' W e => by
    rw [inner_bumps, Fin.sum_univ_add]
    simp only [A, β, Fin.append_left, Fin.append_right, Np.vstack_castAdd, Np.vstack_natAdd, Fin.sum_univ_one, one_mul, Pi.smul_apply, smul_eq_mul,
      neg_mul, Finset.sum_neg_distrib]
    rfl
  have hdβ : Spec.inner ell U d A β = (expansion ell Z c s y - expansion ell X r P y) - ∑ i, b i * D i := by
    rw [hAβ]
    have hdeg : (s - P).totalDegree ≤ N := (MvPolynomial.totalDegree_sub s P).trans (max_le hs h.deg)
    simp only [hrad, mul_sub]
    rw [← hb (s - P) hdeg]
    simp only [Finset.sum_sub_distrib, D, mul_sub]
    ring
  have hβ : Spec.inner ell A β A β = 1 - 2 * ∑ i, b i * gauss ell y (X i) + Spec.inner ell X b X b := inner_point ell X y b
  have hpy := h.pythagoras Z c hs
  rw [← hU, ← hd] at hpy
  have hgap : penalty ell X f reg Z c s - penalty ell X f reg X r P = ∑ i, D i ^ 2 / reg i + Spec.inner ell U d U d := by
    rw [hpy]
    ring
  rw [hgap, ← neg_sub, neg_sq]
  refine sq_le_of_quadratic fun t => ?_
  have h1 : 0 ≤ ∑ i, (D i + t * (reg i * b i)) ^ 2 / reg i := Finset.sum_nonneg fun i _ => div_nonneg (sq_nonneg _) (h.pos i).le
  have h2 : ∀ i, (D i + t * (reg i * b i)) ^ 2 / reg i = D i ^ 2 / reg i + 2 * t * (b i * D i) + t ^ 2 * (reg i * b i ^ 2) := fun i => by
    have := (h.pos i).ne'
    field_simp
    ring
  simp only [h2] at h1
  rw [Finset.sum_add_distrib, Finset.sum_add_distrib, ← Finset.mul_sum, ← Finset.mul_sum] at h1
  have h3 := inner_nonneg' h.scale (Np.vstack U A) (Fin.append d (t • β))
  rw [inner_append, inner_smul', inner_smul', inner_comm' ell A (t • β) A β, inner_smul', hdβ, hβ] at h3
  unfold spread
  nlinarith

end fit

/-- What `train` computes, whatever length scale the optimiser returned. -/
theorem rbf_fits (lib : Lib) (w w' : RBF) (hm : 1 ≤ m) (X : Matrix (Fin M) (Fin m) ℝ) (f : Fin M → ℝ) {v e : Option NpVec} (hv : GoodNoise M v)
    (he : GoodEig m e) (h : (rfit lib X f v e).run w = (.ok (), w')) :
    ∃ (ell : Fin m → ℝ) (reg r : Fin M → ℝ) (P : MvPolynomial (Fin m) ℝ), w'.ell = some (NpVec.of ell) ∧
      w'.K = some (NpMat.of (Matrix.of fun i j => gauss ell (X i) (X j) + if i = j then reg i else 0)) ∧
      Fits w.N ell X f reg r P ∧ (v = none → e = none → ∀ i, reg i = 1e-6) ∧
      (∀ (M' : ℕ) (Y : Matrix (Fin M') (Fin m) ℝ), w'.predict (.mat (NpMat.of Y)) false = .ok (NpVec.of fun i => expansion ell X r P (Y i), none) ∧
        w'.predict (.mat (NpMat.of Y)) true = .ok (NpVec.of fun i => expansion ell X r P (Y i), some (NpMat.of (Matrix.of fun i k => surfaceGrad X ell r P (Y i) k)))) ∧
      ∀ y : Fin m → ℝ, ∃ (a : Fin M → ℝ) (L : MvPolynomial (Fin m) ℝ), L.totalDegree ≤ w.N ∧
        (∀ i, bumps ell X a (X i) + reg i * a i + MvPolynomial.eval (X i) L = gauss ell y (X i)) ∧
        ∀ q : MvPolynomial (Fin m) ℝ, q.totalDegree ≤ w.N → ∑ i, a i * MvPolynomial.eval (X i) q = MvPolynomial.eval y q := by
  obtain ⟨t, g, hg, hfit, hN, hX, -, -, hKs, hell, hr, hc⟩ := rfit_ok lib w w' X f v e h
  obtain ⟨q0, hq0, hq, hK, hI, hS, -, hsys, horth, -⟩ := rbfFit_spec hfit
  obtain ⟨I', hI', hnd, hmem, -⟩ := C25_enumerates w.N m hm
  obtain rfl := Except.ok.inj (hI'.symm.trans hI)
  obtain ⟨q1, hq1, hl, -, -⟩ := params_ok hv he hg
  obtain rfl := Except.ok.inj (hq0.symm.trans hq1)
  have hes : ∀ x y : Fin m → ℝ, Real.exp (∑ k, (x k - y k) * (x k - y k) * (-1 / t.q.ell k)) = gauss t.q.ell x y := fun x y => by
    unfold gauss
    congr 1
    rw [← Finset.sum_neg_distrib]
    exact Finset.sum_congr rfl fun k _ => by ring
  have hmon : ∀ c : Fin t.I.length → ℝ, (monomials X t.I).mulVec c = fun i => MvPolynomial.eval (X i) (fitted t.I c) := mulVec_monomials X t.I
  have hKv : ∀ (c : Fin M → ℝ) i, t.K.mulVec c i = bumps t.q.ell X c (X i) + t.q.v i * c i := fun c i => by
    rw [hK, covMat, Matrix.add_mulVec, Pi.add_apply, Matrix.mulVec_diagonal]
    congr 1
    simp only [Matrix.mulVec, dotProduct, exponential_squared, Matrix.of_apply, one_mul, hes, bumps]
    exact Finset.sum_congr rfl fun j _ => mul_comm _ _
  have hpoly : ∀ (a : Fin M → ℝ) (c : Fin t.I.length → ℝ), ∑ i, a i * MvPolynomial.eval (X i) (fitted t.I c) = (monomials X t.I).transpose.mulVec a ⬝ᵥ c :=
    fun a c => by
      have : ∑ i, a i * MvPolynomial.eval (X i) (fitted t.I c) = a ⬝ᵥ (monomials X t.I).mulVec c := by
        rw [hmon]
        rfl
      rw [this, Matrix.dotProduct_mulVec, ← Matrix.mulVec_transpose]
  refine ⟨t.q.ell, t.q.v, t.radial, fitted t.I t.poly, hell, ?_, ⟨?_, ?_, totalDegree_fitted t.I _ fun α hα => (hmem α).mp hα, ?_, ?_⟩, ?_, ?_, ?_⟩
  · rw [hKs, hK, covMat]
    congr 2
    ext i j
    rw [Matrix.add_apply, Matrix.diagonal_apply, exponential_squared, Matrix.of_apply, one_mul, hes]
    rfl
  · rw [hq]
    exact hl
  · intro i
    rw [hq]
    exact lt_of_lt_of_le (by norm_num) (le_max_right _ _)
  · intro i
    have := congrFun hsys i
    rw [Pi.add_apply, hKv, hmon] at this
    unfold expansion
    linarith
  · intro s hs
    rw [eq_fitted t.I hnd (fun α hα => (hmem α).mpr hα) s hs, hpoly, horth, zero_dotProduct]
  · rintro rfl rfl i
    have := Except.ok.inj hq0
    rw [hq, ← this]
    exact max_self _
  · intro M' Y
    exact rbfPredict_eq w' (by rw [hN]; exact hI) X t.q.ell t.radial t.poly hX hell hr hc Y
  · intro y
    let rhs : Fin (M + t.I.length) → ℝ := Fin.append (fun i => gauss t.q.ell y (X i)) fun j => monomials (Matrix.of fun (_ : Fin 1) => y) t.I 0 j
    let z := (saddle t.K (monomials X t.I))⁻¹.mulVec rhs
    have hz : (saddle t.K (monomials X t.I)).mulVec z = rhs := by
      rw [Matrix.mulVec_mulVec, Matrix.mul_nonsing_inv _ hS, Matrix.one_mulVec]
    rw [saddle_mulVec] at hz
    have hz1 : ∀ i, t.K.mulVec (fun i => z (Fin.castAdd _ i)) i + (monomials X t.I).mulVec (fun j => z (Fin.natAdd M j)) i = gauss t.q.ell y (X i) := fun i => by
      have := congrFun hz (Fin.castAdd _ i)
      simpa only [rhs, Fin.append_left, Pi.add_apply] using this
    have hz2 : ∀ j, (monomials X t.I).transpose.mulVec (fun i => z (Fin.castAdd _ i)) j = monomials (Matrix.of fun (_ : Fin 1) => y) t.I 0 j := fun j => by
      have := congrFun hz (Fin.natAdd _ j)
      simpa only [rhs, Fin.append_right] using this
    refine ⟨fun i => z (Fin.castAdd _ i), fitted t.I fun j => z (Fin.natAdd M j), totalDegree_fitted t.I _ fun α hα => (hmem α).mp hα, fun i => ?_, fun s hs => ?_⟩
    · rw [← hz1, hKv, hmon]
    · rw [eq_fitted t.I hnd (fun α hα => (hmem α).mpr hα) s hs, hpoly]
      rw [show (monomials X t.I).transpose.mulVec (fun i => z (Fin.castAdd _ i)) = monomials (Matrix.of fun (_ : Fin 1) => y) t.I 0 from funext hz2]
      exact congrFun (mulVec_monomials (Matrix.of fun (_ : Fin 1) => y) t.I _) 0

/-- **C147 (best fit).** After a call of `train` that returned, the surface that `predict` evaluates is a sum of Gaussian bumps around the training points plus a
polynomial of degree at most `N`; the length scales are `ell` and the regularisation is what was added to the diagonal of `K`. Of all sums of bumps around any number
of centres anywhere plus a polynomial of degree at most `N` it has the smallest penalty, and it is the only function that attains it. -/
theorem C147_best (lib : Lib) (w w' : RBF) (hm : 1 ≤ m) (X : Matrix (Fin M) (Fin m) ℝ) (f : Fin M → ℝ) {v e : Option NpVec} (hv : GoodNoise M v)
    (he : GoodEig m e) (h : (rfit lib X f v e).run w = (.ok (), w')) :
    ∃ (ell : Fin m → ℝ) (reg r : Fin M → ℝ) (P : MvPolynomial (Fin m) ℝ), w'.ell = some (NpVec.of ell) ∧
      w'.K = some (NpMat.of (Matrix.of fun i j => gauss ell (X i) (X j) + if i = j then reg i else 0)) ∧
      (∀ k, 0 < ell k) ∧ (∀ i, 0 < reg i) ∧ P.totalDegree ≤ w.N ∧
      (∀ (M' : ℕ) (Y : Matrix (Fin M') (Fin m) ℝ), w'.predict (.mat (NpMat.of Y)) false = .ok (NpVec.of fun i => expansion ell X r P (Y i), none)) ∧
      ∀ (p : ℕ) (Z : Matrix (Fin p) (Fin m) ℝ) (c : Fin p → ℝ) (s : MvPolynomial (Fin m) ℝ), s.totalDegree ≤ w.N →
        penalty ell X f reg X r P ≤ penalty ell X f reg Z c s ∧
          (penalty ell X f reg Z c s = penalty ell X f reg X r P ↔ expansion ell Z c s = expansion ell X r P ∧
            Spec.inner ell Z c Z c = Spec.inner ell X r X r) := by
  obtain ⟨ell, reg, r, P, hl, hK, hfit, -, hp, hw⟩ := rbf_fits lib w w' hm X f hv he h
  refine ⟨ell, reg, r, P, hl, hK, hfit.scale, hfit.pos, hfit.deg, fun M' Y => (hp M' Y).1, fun p Z c s hs => ⟨?_, fun heq => ?_, fun heq => ?_⟩⟩
  · rw [hfit.pythagoras Z c hs]
    exact le_add_of_nonneg_right (add_nonneg (Finset.sum_nonneg fun i _ => div_nonneg (sq_nonneg _) (hfit.pos i).le) (inner_nonneg' hfit.scale _ _))
  · have hE : expansion ell Z c s = expansion ell X r P := by
      funext y
      obtain ⟨a, -, -, -, ha⟩ := hw y
      have := hfit.gap Z c hs y ha
      rw [heq, sub_self, zero_mul] at this
      have := pow_eq_zero_iff (two_ne_zero) |>.mp (le_antisymm this (sq_nonneg _))
      linarith
    refine ⟨hE, ?_⟩
    unfold penalty at heq
    rw [hE] at heq
    linarith
  · unfold penalty
    rw [heq.1, heq.2]

/-- **C147 (error).** If the data are values of a function `h` that is itself a sum of bumps plus a polynomial of degree at most `N`, up to errors `δ`, then the
prediction at `y` differs from `h y` by at most the norm of `h` (and of the errors) times the spread of any linear rule that is exact for the polynomials. At the
training points, and for the default arguments, the squared error is at most `1e-6` times the squared norm; with the constant trend (`N = 0`) the error is controlled
by the nearest training point. -/
theorem C147_error (lib : Lib) (w w' : RBF) (hm : 1 ≤ m) (X : Matrix (Fin M) (Fin m) ℝ) (f : Fin M → ℝ) {v e : Option NpVec} (hv : GoodNoise M v)
    (he : GoodEig m e) (h : (rfit lib X f v e).run w = (.ok (), w')) :
    ∃ (ell : Fin m → ℝ) (reg : Fin M → ℝ), w'.ell = some (NpVec.of ell) ∧
      w'.K = some (NpMat.of (Matrix.of fun i j => gauss ell (X i) (X j) + if i = j then reg i else 0)) ∧ (v = none → e = none → ∀ i, reg i = 1e-6) ∧
      ∀ (p : ℕ) (Z : Matrix (Fin p) (Fin m) ℝ) (c : Fin p → ℝ) (s : MvPolynomial (Fin m) ℝ) (δ : Fin M → ℝ), s.totalDegree ≤ w.N →
        (∀ i, f i = expansion ell Z c s (X i) + δ i) → ∀ (M' : ℕ) (Y : Matrix (Fin M') (Fin m) ℝ),
        ∃ z : Fin M' → ℝ, w'.predict (.mat (NpMat.of Y)) false = .ok (NpVec.of z, none) ∧ ∀ j,
          (∀ b : Fin M → ℝ, (∀ q : MvPolynomial (Fin m) ℝ, q.totalDegree ≤ w.N → ∑ i, b i * MvPolynomial.eval (X i) q = MvPolynomial.eval (Y j) q) →
            (z j - expansion ell Z c s (Y j)) ^ 2 ≤ (Spec.inner ell Z c Z c + ∑ i, δ i ^ 2 / reg i) * spread ell X reg (Y j) b) ∧
          (∀ i, Y j = X i → (z j - expansion ell Z c s (Y j)) ^ 2 ≤ (Spec.inner ell Z c Z c + ∑ i, δ i ^ 2 / reg i) * reg i) ∧
          (w.N = 0 → ∀ i, (z j - expansion ell Z c s (Y j)) ^ 2
            ≤ (Spec.inner ell Z c Z c + ∑ i, δ i ^ 2 / reg i) * (2 * (1 - gauss ell (Y j) (X i)) + reg i)) := by
  obtain ⟨ell, reg, r, P, hl, hK, hfit, hdef, hp, -⟩ := rbf_fits lib w w' hm X f hv he h
  refine ⟨ell, reg, hl, hK, hdef, fun p Z c s δ hs hδ M' Y => ⟨_, (hp M' Y).1, fun j => ?_⟩⟩
  have main : ∀ b : Fin M → ℝ, (∀ q : MvPolynomial (Fin m) ℝ, q.totalDegree ≤ w.N → ∑ i, b i * MvPolynomial.eval (X i) q = MvPolynomial.eval (Y j) q) →
      (expansion ell X r P (Y j) - expansion ell Z c s (Y j)) ^ 2 ≤ (Spec.inner ell Z c Z c + ∑ i, δ i ^ 2 / reg i) * spread ell X reg (Y j) b := by
    intro b hb
    refine (hfit.gap Z c hs (Y j) hb).trans (mul_le_mul_of_nonneg_right ?_ (spread_nonneg hfit.scale X hfit.pos _ _))
    have h1 : penalty ell X f reg Z c s = Spec.inner ell Z c Z c + ∑ i, δ i ^ 2 / reg i := by
      unfold penalty
      rw [add_comm]
      congr 1
      refine Finset.sum_congr rfl fun i _ => ?_
      rw [hδ i]
      ring
    have h2 : 0 ≤ penalty ell X f reg X r P :=
      add_nonneg (Finset.sum_nonneg fun i _ => div_nonneg (sq_nonneg _) (hfit.pos i).le) (inner_nonneg' hfit.scale _ _)
    linarith
  have hsingle : ∀ (i : Fin M) (g : Fin M → ℝ), ∑ k, (Pi.single i 1 : Fin M → ℝ) k * g k = g i := fun i g => by
    rw [Finset.sum_eq_single i (fun k _ hk => by rw [Pi.single_eq_of_ne hk, zero_mul]) (fun h => absurd (Finset.mem_univ i) h), Pi.single_eq_same, one_mul]
  refine ⟨main, fun i hi => ?_, fun hN i => ?_⟩
  · have := main (Pi.single i 1) fun q _ => by rw [hsingle, hi]
    rwa [spread_single, hi, gauss_self, sub_self, mul_zero, zero_add, ← hi] at this
  · have := main (Pi.single i 1) fun q hq => by
      rw [hsingle]
      rw [hN] at hq
      have := (MvPolynomial.totalDegree_eq_zero_iff_eq_C).mp (Nat.le_zero.mp hq)
      rw [this, MvPolynomial.eval_C, MvPolynomial.eval_C]
    rwa [spread_single] at this

/-- **C147 (best linear unbiased prediction).** The prediction at every point is a weighted sum of the training values whose weights reproduce all polynomials of degree
at most `N`, and no weights that do so have a smaller spread. -/
theorem C147_weights (lib : Lib) (w w' : RBF) (hm : 1 ≤ m) (X : Matrix (Fin M) (Fin m) ℝ) (f : Fin M → ℝ) {v e : Option NpVec} (hv : GoodNoise M v)
    (he : GoodEig m e) (h : (rfit lib X f v e).run w = (.ok (), w')) {M' : ℕ} (Y : Matrix (Fin M') (Fin m) ℝ) :
    ∃ (ell : Fin m → ℝ) (reg : Fin M → ℝ) (a : Fin M' → Fin M → ℝ), w'.ell = some (NpVec.of ell) ∧
      w'.K = some (NpMat.of (Matrix.of fun i j => gauss ell (X i) (X j) + if i = j then reg i else 0)) ∧
      w'.predict (.mat (NpMat.of Y)) false = .ok (NpVec.of fun j => ∑ i, a j i * f i, none) ∧
      ∀ j, (∀ q : MvPolynomial (Fin m) ℝ, q.totalDegree ≤ w.N → ∑ i, a j i * MvPolynomial.eval (X i) q = MvPolynomial.eval (Y j) q) ∧
        ∀ b : Fin M → ℝ, (∀ q : MvPolynomial (Fin m) ℝ, q.totalDegree ≤ w.N → ∑ i, b i * MvPolynomial.eval (X i) q = MvPolynomial.eval (Y j) q) →
          spread ell X reg (Y j) (a j) ≤ spread ell X reg (Y j) b := by
  obtain ⟨ell, reg, r, P, hl, hK, hfit, -, hp, hw⟩ := rbf_fits lib w w' hm X f hv he h
  choose a L hL ha hrep using fun j => hw (Y j)
  refine ⟨ell, reg, a, hl, hK, ?_, fun j => ⟨hrep j, fun b hb => ?_⟩⟩
  · rw [(hp _ _).1]
    congr 3
    funext j
    have h1 : ∑ i, a j i * f i = ∑ i, a j i * bumps ell X r (X i) + ∑ i, a j i * MvPolynomial.eval (X i) P + ∑ i, a j i * (reg i * r i) := by
      rw [← Finset.sum_add_distrib, ← Finset.sum_add_distrib]
      refine Finset.sum_congr rfl fun i _ => ?_
      rw [← hfit.eqn i, expansion]
      ring
    have h2 : bumps ell X r (Y j) = ∑ i, r i * bumps ell X (a j) (X i) + ∑ i, a j i * (reg i * r i) + ∑ i, r i * MvPolynomial.eval (X i) (L j) := by
      unfold bumps
      rw [← Finset.sum_add_distrib, ← Finset.sum_add_distrib]
      refine Finset.sum_congr rfl fun i _ => ?_
      rw [← ha j i, bumps]
      ring
    rw [hfit.orth (L j) (hL j), ← inner_bumps, inner_comm', inner_bumps] at h2
    rw [h1, hrep j P hfit.deg, expansion, h2]
    ring
  · have h1 : ∑ i, (b i - a j i) * MvPolynomial.eval (X i) (L j) = 0 := by
      simp only [sub_mul]
      rw [Finset.sum_sub_distrib, hb _ (hL j), hrep j _ (hL j), sub_self]
    have h2 := inner_nonneg' hfit.scale X (b - a j)
    have h3 : Spec.inner ell X (b - a j) X (b - a j) = Spec.inner ell X b X b - Spec.inner ell X (a j) X (a j)
        - 2 * ∑ i, (b i - a j i) * bumps ell X (a j) (X i) := by
      have e1 : ∀ c : Fin M → ℝ, ∑ i, c i * bumps ell X c (X i) = Spec.inner ell X c X c := fun c => (inner_bumps ell X c X c).symm
      have e2 : ∑ i, a j i * bumps ell X b (X i) = ∑ i, b i * bumps ell X (a j) (X i) := by
        rw [← inner_bumps, inner_comm', inner_bumps]
      rw [inner_bumps]
      simp only [bumps_sub, Pi.sub_apply, sub_mul, mul_sub, Finset.sum_sub_distrib]
      rw [e1, e1, e2]
      ring
    have h4 : 0 ≤ ∑ i, reg i * (b i - a j i) ^ 2 := Finset.sum_nonneg fun i _ => mul_nonneg (hfit.pos i).le (sq_nonneg _)
    have h5 : spread ell X reg (Y j) b - spread ell X reg (Y j) (a j) = Spec.inner ell X (b - a j) X (b - a j) + ∑ i, reg i * (b i - a j i) ^ 2
        - 2 * ∑ i, (b i - a j i) * MvPolynomial.eval (X i) (L j) := by
      rw [h3]
      unfold spread
      have e3 : ∀ i, b i * gauss ell (Y j) (X i) - a j i * gauss ell (Y j) (X i)
          = (b i - a j i) * bumps ell X (a j) (X i) + (b i - a j i) * (reg i * a j i) + (b i - a j i) * MvPolynomial.eval (X i) (L j) := fun i => by
        rw [← ha j i]
        ring
      have e4 : ∑ i, b i * gauss ell (Y j) (X i) - ∑ i, a j i * gauss ell (Y j) (X i)
          = ∑ i, (b i - a j i) * bumps ell X (a j) (X i) + ∑ i, (b i - a j i) * (reg i * a j i) + ∑ i, (b i - a j i) * MvPolynomial.eval (X i) (L j) := by
        rw [← Finset.sum_sub_distrib, ← Finset.sum_add_distrib, ← Finset.sum_add_distrib]
        exact Finset.sum_congr rfl fun i _ => e3 i
      have e5 : ∑ i, reg i * (b i - a j i) ^ 2 = ∑ i, reg i * b i ^ 2 - ∑ i, reg i * a j i ^ 2 - 2 * ∑ i, (b i - a j i) * (reg i * a j i) := by
        rw [Finset.mul_sum, ← Finset.sum_sub_distrib, ← Finset.sum_sub_distrib]
        exact Finset.sum_congr rfl fun i _ => by ring
      linarith
    rw [h1, mul_zero, sub_zero] at h5
    linarith

/-- Training with the default arguments on two points returns, so the hypotheses of the three theorems are met. -/
example : ∃ (lib : Lib) (w' : RBF), (rfit lib (Matrix.of ![![0], ![1]] : Matrix (Fin 2) (Fin 1) ℝ) ![3, 5] none none).run { N := 1 } = (.ok (), w') ∧
    GoodNoise 2 none ∧ GoodEig 1 none := by
  obtain ⟨lib, -, hch, hfm⟩ := rbfLib_exists
  obtain ⟨w', hw⟩ := C69_train_partial lib hch hfm { N := 1 } le_rfl _
    unisolvent_line ![3, 5] none none (by rintro u ⟨⟩) (by rintro u ⟨⟩) (Or.inr (Or.inl ⟨rfl, rfl⟩))
  exact ⟨lib, w', hw, by rintro u ⟨⟩, by rintro u ⟨⟩⟩

end Props
