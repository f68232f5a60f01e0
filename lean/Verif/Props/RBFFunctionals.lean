import Mathlib.Algebra.MvPolynomial.Funext
import Mathlib.Analysis.Calculus.LineDeriv.Basic
import Verif.Props.RBFError

/-!
# Property C149: averages and gradients of radial basis surfaces
-/

open Py Model.ResponseSurfaces Proofs.PolyApprox Proofs.Kernel Proofs.RBF Matrix Spec Filter Topology

namespace Props

variable {M m N p q L : ℕ} {ell : Fin m → ℝ}

section fit

variable {X : Matrix (Fin M) (Fin m) ℝ} {f reg r : Fin M → ℝ} {P : MvPolynomial (Fin m) ℝ}

theorem penalty_nonneg (h : Fits N ell X f reg r P) (Z : Matrix (Fin p) (Fin m) ℝ) (c : Fin p → ℝ) (s : MvPolynomial (Fin m) ℝ) :
    0 ≤ penalty ell X f reg Z c s :=
  add_nonneg (Finset.sum_nonneg fun i _ => div_nonneg (sq_nonneg _) (h.pos i).le) (inner_nonneg' h.scale _ _)

theorem Fits.quadratic (h : Fits N ell X f reg r P) (Z : Matrix (Fin p) (Fin m) ℝ) (c : Fin p → ℝ) {s : MvPolynomial (Fin m) ℝ} (hs : s.totalDegree ≤ N)
    (Y : Matrix (Fin L) (Fin m) ℝ) (lam : Fin L → ℝ) (b : Fin M → ℝ) (t : ℝ) :
    0 ≤ penalty ell X f reg Z c s + 2 * t * (∑ l, lam l * (expansion ell Z c s (Y l) - expansion ell X r P (Y l))
        - (∑ l, lam l * MvPolynomial.eval (Y l) (s - P) - ∑ i, b i * MvPolynomial.eval (X i) (s - P))) + t ^ 2 * spreadOf ell X reg Y lam b := by
  set U := Np.vstack Z X with hU
  set d : Fin (p + M) → ℝ := Fin.append c ((-1 : ℝ) • r) with hd
  let D : Fin M → ℝ := fun i => expansion ell Z c s (X i) - expansion ell X r P (X i)
  let A : Matrix (Fin (L + M)) (Fin m) ℝ := Np.vstack Y X
  let β : Fin (L + M) → ℝ := Fin.append lam ((-1 : ℝ) • b)
  have hrad : ∀ x, bumps ell U d x = expansion ell Z c s x - expansion ell X r P x - MvPolynomial.eval x (s - P) := fun x => by
    rw [hU, hd, bumps_append, bumps_smul]
    simp only [expansion, map_sub]
    ring
  have hdβ : Spec.inner ell U d A β = ∑ l, lam l * (expansion ell Z c s (Y l) - expansion ell X r P (Y l)) - ∑ l, lam l * MvPolynomial.eval (Y l) (s - P)
      + ∑ i, b i * MvPolynomial.eval (X i) (s - P) - ∑ i, b i * D i := by
    rw [inner_bumps, Fin.sum_univ_add]
    simp only [A, β, Fin.append_left, Fin.append_right, Np.vstack_castAdd, Np.vstack_natAdd, Pi.smul_apply, smul_eq_mul, neg_mul, one_mul,
      Finset.sum_neg_distrib, hrad, mul_sub, Finset.sum_sub_distrib, D]
    ring
  have hβ : Spec.inner ell A β A β = Spec.inner ell Y lam Y lam - 2 * Spec.inner ell Y lam X b + Spec.inner ell X b X b := by
    have e1 : Spec.inner ell A β A β = _ := inner_append _ _ _ _ _
    rw [e1, inner_smul', inner_smul', inner_comm' ell X ((-1 : ℝ) • b) X b, inner_smul']
    ring
  have hpy := h.pythagoras Z c hs
  rw [← hU, ← hd] at hpy
  have h0 := penalty_nonneg h X r P
  have h1 : 0 ≤ ∑ i, (D i + t * (reg i * b i)) ^ 2 / reg i := Finset.sum_nonneg fun i _ => div_nonneg (sq_nonneg _) (h.pos i).le
  have h2 : ∀ i, (D i + t * (reg i * b i)) ^ 2 / reg i = D i ^ 2 / reg i + 2 * t * (b i * D i) + t ^ 2 * (reg i * b i ^ 2) := fun i => by
    have := (h.pos i).ne'
    field_simp
    ring
  simp only [h2] at h1
  rw [Finset.sum_add_distrib, Finset.sum_add_distrib, ← Finset.mul_sum, ← Finset.mul_sum] at h1
  have h3 := inner_nonneg' h.scale (Np.vstack U A) (Fin.append d (t • β))
  rw [inner_append, inner_smul', inner_smul', inner_comm' ell A (t • β) A β, inner_smul', hdβ, hβ] at h3
  rw [hpy]
  unfold spreadOf
  nlinarith

theorem penalty_data {Z : Matrix (Fin p) (Fin m) ℝ} {c : Fin p → ℝ} {s : MvPolynomial (Fin m) ℝ} {δ : Fin M → ℝ} (hδ : ∀ i, f i = expansion ell Z c s (X i) + δ i) :
    penalty ell X f reg Z c s = Spec.inner ell Z c Z c + ∑ i, δ i ^ 2 / reg i := by
  unfold penalty
  rw [add_comm]
  congr 1
  refine Finset.sum_congr rfl fun i _ => ?_
  rw [hδ i]
  ring

theorem Fits.functional (h : Fits N ell X f reg r P) (Z : Matrix (Fin p) (Fin m) ℝ) (c : Fin p → ℝ) {s : MvPolynomial (Fin m) ℝ} (hs : s.totalDegree ≤ N)
    (Y : Matrix (Fin L) (Fin m) ℝ) (lam : Fin L → ℝ) {b : Fin M → ℝ}
    (hb : ∀ q : MvPolynomial (Fin m) ℝ, q.totalDegree ≤ N → ∑ i, b i * MvPolynomial.eval (X i) q = ∑ l, lam l * MvPolynomial.eval (Y l) q) :
    (∑ l, lam l * expansion ell X r P (Y l) - ∑ l, lam l * expansion ell Z c s (Y l)) ^ 2 ≤ penalty ell X f reg Z c s * spreadOf ell X reg Y lam b := by
  have hdeg : (s - P).totalDegree ≤ N := (MvPolynomial.totalDegree_sub s P).trans (max_le hs h.deg)
  rw [← neg_sub, neg_sq]
  refine sq_le_of_quadratic fun t => ?_
  have := h.quadratic Z c hs Y lam b t
  rw [hb _ hdeg, sub_self, sub_zero] at this
  simpa only [mul_sub, Finset.sum_sub_distrib] using this

/-! ### Derivatives -/

theorem expansion_surface (X : Matrix (Fin M) (Fin m) ℝ) (r : Fin M → ℝ) (P : MvPolynomial (Fin m) ℝ) : expansion ell X r P = surface X ell r P := rfl

theorem hasDerivAt_surface (Z : Matrix (Fin p) (Fin m) ℝ) (c : Fin p → ℝ) (s : MvPolynomial (Fin m) ℝ) (y : Fin m → ℝ) (k : Fin m) :
    HasDerivAt (fun τ : ℝ => surface Z ell c s (y + τ • Pi.single k 1)) (surfaceGrad Z ell c s y k) 0 := by
  have h := HasFDerivAt.hasLineDerivAt (hasFDerivAt_surface Z ell c s y) (Pi.single k 1)
  have e : (∑ l, surfaceGrad Z ell c s y l • (ContinuousLinearMap.proj l : (Fin m → ℝ) →L[ℝ] ℝ)) (Pi.single k 1) = surfaceGrad Z ell c s y k := by
    simp [_root_.sum_apply, Pi.single_apply]
  rw [e] at h
  exact h

theorem gauss_step (ell : Fin m → ℝ) (y : Fin m → ℝ) (k : Fin m) (τ : ℝ) : gauss ell (y + τ • Pi.single k 1) y = Real.exp (-(τ ^ 2 / ell k)) := by
  unfold gauss
  congr 2
  rw [Finset.sum_eq_single k]
  · simp
  · intro j _ hj
    simp [Pi.single_eq_of_ne hj]
  · exact fun h => absurd (Finset.mem_univ k) h

/-- The difference quotient as two weighted points. -/
def pairPts (x y : Fin m → ℝ) : Matrix (Fin 2) (Fin m) ℝ := Matrix.of ![x, y]

theorem pair_cross (X : Matrix (Fin M) (Fin m) ℝ) (b : Fin M → ℝ) (x y : Fin m → ℝ) (a : ℝ) :
    Spec.inner ell (pairPts x y) ![a, -a] X b = a * (surface X ell b 0 x - surface X ell b 0 y) := by
  have e : ∀ z, surface X ell b 0 z = bumps ell X b z := fun z => by simp [surface, bumps, gauss]
  rw [inner_comm', inner_bumps, e, e, Fin.sum_univ_two]
  change a * bumps ell X b x + -a * bumps ell X b y = _
  ring

theorem pair_self (hell : ∀ k, 0 < ell k) (y : Fin m → ℝ) (k : Fin m) {τ : ℝ} (hτ : τ ≠ 0) :
    Spec.inner ell (pairPts (y + τ • Pi.single k 1) y) ![τ⁻¹, -τ⁻¹] (pairPts (y + τ • Pi.single k 1) y) ![τ⁻¹, -τ⁻¹] ≤ 2 / ell k := by
  have e3 : ∀ x : Fin m → ℝ, Spec.inner ell (pairPts x y) ![τ⁻¹, -τ⁻¹] (pairPts x y) ![τ⁻¹, -τ⁻¹] = 2 * (1 - gauss ell x y) / τ ^ 2 := fun x => by
    rw [inner_bumps, Fin.sum_univ_two]
    unfold bumps
    rw [Fin.sum_univ_two, Fin.sum_univ_two]
    change τ⁻¹ * (τ⁻¹ * gauss ell x x + -τ⁻¹ * gauss ell x y) + -τ⁻¹ * (τ⁻¹ * gauss ell y x + -τ⁻¹ * gauss ell y y) = _
    rw [gauss_comm ell y x, gauss_self, gauss_self]
    field_simp
    ring
  rw [e3, gauss_step, div_le_div_iff₀ (by positivity) (hell k)]
  have := Real.add_one_le_exp (-(τ ^ 2 / ell k))
  have e4 : (1 - Real.exp (-(τ ^ 2 / ell k))) * ell k ≤ τ ^ 2 / ell k * ell k := mul_le_mul_of_nonneg_right (by linarith) (hell k).le
  rw [div_mul_cancel₀ _ (hell k).ne'] at e4
  linarith

theorem Fits.gradient (h : Fits N ell X f reg r P) (Z : Matrix (Fin p) (Fin m) ℝ) (c : Fin p → ℝ) {s : MvPolynomial (Fin m) ℝ} (hs : s.totalDegree ≤ N)
    (y : Fin m → ℝ) (k : Fin m) {b : Fin M → ℝ}
    (hb : ∀ q : MvPolynomial (Fin m) ℝ, q.totalDegree ≤ N → ∑ i, b i * MvPolynomial.eval (X i) q = MvPolynomial.eval y (MvPolynomial.pderiv k q)) :
    (surfaceGrad X ell r P y k - surfaceGrad Z ell c s y k) ^ 2 ≤ penalty ell X f reg Z c s * spreadGrad ell X reg y k b := by
  have hdeg : (s - P).totalDegree ≤ N := (MvPolynomial.totalDegree_sub s P).trans (max_le hs h.deg)
  rw [← neg_sub, neg_sq]
  refine sq_le_of_quadratic fun t => ?_
  -- difference quotients
  have lim : ∀ {n : ℕ} (W : Matrix (Fin n) (Fin m) ℝ) (e : Fin n → ℝ) (u : MvPolynomial (Fin m) ℝ),
      Tendsto (fun τ : ℝ => τ⁻¹ * (surface W ell e u (y + τ • Pi.single k 1) - surface W ell e u y)) (𝓝[≠] 0) (𝓝 (surfaceGrad W ell e u y k)) := fun W e u => by
    have := (hasDerivAt_surface (ell := ell) W e u y k).tendsto_slope_zero
    simpa only [zero_add, zero_smul, add_zero, smul_eq_mul] using this
  have l1 := lim Z c s
  have l2 := lim X r P
  have l3 := lim (0 : Matrix (Fin 0) (Fin m) ℝ) 0 (s - P)
  have l4 := lim X b 0
  have hq : ∀ τ : ℝ, τ ≠ 0 → 0 ≤ penalty ell X f reg Z c s
      + 2 * t * ((τ⁻¹ * (surface Z ell c s (y + τ • Pi.single k 1) - surface Z ell c s y) - τ⁻¹ * (surface X ell r P (y + τ • Pi.single k 1) - surface X ell r P y))
        - (τ⁻¹ * (surface (0 : Matrix (Fin 0) (Fin m) ℝ) ell 0 (s - P) (y + τ • Pi.single k 1) - surface (0 : Matrix (Fin 0) (Fin m) ℝ) ell 0 (s - P) y)
          - ∑ i, b i * MvPolynomial.eval (X i) (s - P)))
      + t ^ 2 * (2 / ell k - 2 * (τ⁻¹ * (surface X ell b 0 (y + τ • Pi.single k 1) - surface X ell b 0 y)) + Spec.inner ell X b X b + ∑ i, reg i * b i ^ 2) := fun τ hτ => by
    have h1 := h.quadratic Z c hs (pairPts (y + τ • Pi.single k 1) y) ![τ⁻¹, -τ⁻¹] b t
    have e0 : ∀ x, surface (0 : Matrix (Fin 0) (Fin m) ℝ) ell 0 (s - P) x = MvPolynomial.eval x (s - P) := fun x => by simp [surface]
    have e1 := pair_cross X b (y + τ • Pi.single k 1) y τ⁻¹ (ell := ell)
    have e2 := pair_self h.scale y k hτ
    unfold spreadOf at h1
    rw [e1] at h1
    simp only [Fin.sum_univ_two] at h1
    have e5 : pairPts (y + τ • Pi.single k 1) y 0 = y + τ • Pi.single k 1 := rfl
    have e6 : pairPts (y + τ • Pi.single k 1) y 1 = y := rfl
    simp only [e5, e6, Matrix.cons_val_zero, Matrix.cons_val_one, expansion_surface] at h1
    rw [e0, e0]
    have ht := mul_le_mul_of_nonneg_left e2 (sq_nonneg t)
    nlinarith
  have htend := ((tendsto_const_nhds (x := penalty ell X f reg Z c s)).add (((l1.sub l2).sub (l3.sub
    (tendsto_const_nhds (x := ∑ i, b i * MvPolynomial.eval (X i) (s - P))))).const_mul (2 * t))).add
    (((((l4.const_mul 2).const_sub (2 / ell k)).add_const (Spec.inner ell X b X b)).add_const (∑ i, reg i * b i ^ 2)).const_mul (t ^ 2))
  have hfin := ge_of_tendsto htend (eventually_nhdsWithin_of_forall hq)
  have e6 : surfaceGrad (0 : Matrix (Fin 0) (Fin m) ℝ) ell 0 (s - P) y k = MvPolynomial.eval y (MvPolynomial.pderiv k (s - P)) := by simp [surfaceGrad]
  have e7 : surfaceGrad X ell b 0 y k = -∑ i, b i * (gauss ell y (X i) * (2 * (y k - X i k) / ell k)) := by
    simp [surfaceGrad, gauss]
  rw [e6, hb _ hdeg, sub_self, sub_zero, e7] at hfin
  unfold spreadGrad
  linarith

end fit

/-- **C149 (averages).** If the data are values of a sum of bumps plus a polynomial of degree at most `N`, up to errors `δ`, then every weighted sum of predictions differs
from the weighted sum of the values of that function by at most its norm (and that of the errors) times the spread of any linear rule on the training values that is exact
for the polynomials. -/
theorem C149_averages (lib : Lib) (w w' : RBF) (hm : 1 ≤ m) (X : Matrix (Fin M) (Fin m) ℝ) (f : Fin M → ℝ) {v e : Option NpVec} (hv : GoodNoise M v)
    (he : GoodEig m e) (h : (rfit lib X f v e).run w = (.ok (), w')) :
    ∃ (ell : Fin m → ℝ) (reg : Fin M → ℝ), w'.ell = some (NpVec.of ell) ∧
      w'.K = some (NpMat.of (Matrix.of fun i j => gauss ell (X i) (X j) + if i = j then reg i else 0)) ∧
      ∀ (p : ℕ) (Z : Matrix (Fin p) (Fin m) ℝ) (c : Fin p → ℝ) (s : MvPolynomial (Fin m) ℝ) (δ : Fin M → ℝ), s.totalDegree ≤ w.N →
        (∀ i, f i = expansion ell Z c s (X i) + δ i) → ∀ (L : ℕ) (Y : Matrix (Fin L) (Fin m) ℝ),
        ∃ z : Fin L → ℝ, w'.predict (.mat (NpMat.of Y)) false = .ok (NpVec.of z, none) ∧ ∀ (lam : Fin L → ℝ) (b : Fin M → ℝ),
          (∀ q : MvPolynomial (Fin m) ℝ, q.totalDegree ≤ w.N → ∑ i, b i * MvPolynomial.eval (X i) q = ∑ l, lam l * MvPolynomial.eval (Y l) q) →
            (∑ l, lam l * z l - ∑ l, lam l * expansion ell Z c s (Y l)) ^ 2
              ≤ (Spec.inner ell Z c Z c + ∑ i, δ i ^ 2 / reg i) * spreadOf ell X reg Y lam b := by
  obtain ⟨ell, reg, r, P, hl, hK, hfit, -, hp, -⟩ := rbf_fits lib w w' hm X f hv he h
  refine ⟨ell, reg, hl, hK, fun p Z c s δ hs hδ L Y => ⟨_, (hp L Y).1, fun lam b hb => ?_⟩⟩
  rw [← penalty_data hδ]
  exact hfit.functional Z c hs Y lam hb

/-- **C149 (gradients).** Then every entry of the gradients that `predict` returns differs from the partial derivative of that function by at most the norm times the
spread of any linear rule that is exact for the partial derivatives of the polynomials; with the constant trend (`N = 0`) by at most the norm times `√(2 / ell k)`. -/
theorem C149_gradients (lib : Lib) (w w' : RBF) (hm : 1 ≤ m) (X : Matrix (Fin M) (Fin m) ℝ) (f : Fin M → ℝ) {v e : Option NpVec} (hv : GoodNoise M v)
    (he : GoodEig m e) (h : (rfit lib X f v e).run w = (.ok (), w')) :
    ∃ (ell : Fin m → ℝ) (reg : Fin M → ℝ), w'.ell = some (NpVec.of ell) ∧
      w'.K = some (NpMat.of (Matrix.of fun i j => gauss ell (X i) (X j) + if i = j then reg i else 0)) ∧
      ∀ (p : ℕ) (Z : Matrix (Fin p) (Fin m) ℝ) (c : Fin p → ℝ) (s : MvPolynomial (Fin m) ℝ) (δ : Fin M → ℝ), s.totalDegree ≤ w.N →
        (∀ i, f i = expansion ell Z c s (X i) + δ i) → ∀ (L : ℕ) (Y : Matrix (Fin L) (Fin m) ℝ),
        ∃ (z : Fin L → ℝ) (df : Matrix (Fin L) (Fin m) ℝ), w'.predict (.mat (NpMat.of Y)) true = .ok (NpVec.of z, some (NpMat.of df)) ∧
          ∀ (j : Fin L) (h' : (Fin m → ℝ) →L[ℝ] ℝ), HasFDerivAt (expansion ell Z c s) h' (Y j) → ∀ k : Fin m,
            (∀ b : Fin M → ℝ, (∀ q : MvPolynomial (Fin m) ℝ, q.totalDegree ≤ w.N →
                ∑ i, b i * MvPolynomial.eval (X i) q = MvPolynomial.eval (Y j) (MvPolynomial.pderiv k q)) →
              (df j k - h' (Pi.single k 1)) ^ 2 ≤ (Spec.inner ell Z c Z c + ∑ i, δ i ^ 2 / reg i) * spreadGrad ell X reg (Y j) k b) ∧
            (w.N = 0 → (df j k - h' (Pi.single k 1)) ^ 2 ≤ (Spec.inner ell Z c Z c + ∑ i, δ i ^ 2 / reg i) * (2 / ell k)) := by
  obtain ⟨ell, reg, r, P, hl, hK, hfit, -, hp, -⟩ := rbf_fits lib w w' hm X f hv he h
  refine ⟨ell, reg, hl, hK, fun p Z c s δ hs hδ L Y => ⟨_, _, (hp L Y).2, fun j h' hh' k => ?_⟩⟩
  have e1 : h' (Pi.single k 1) = surfaceGrad Z ell c s (Y j) k := by
    rw [hh'.unique (hasFDerivAt_surface Z ell c s (Y j))]
    simp [_root_.sum_apply, Pi.single_apply]
  rw [e1, ← penalty_data hδ]
  refine ⟨fun b hb => hfit.gradient Z c hs (Y j) k hb, fun hN => ?_⟩
  have := hfit.gradient Z c hs (Y j) k (b := 0) fun q hq => by
    rw [hN] at hq
    have := (MvPolynomial.totalDegree_eq_zero_iff_eq_C).mp (Nat.le_zero.mp hq)
    rw [this]
    simp
  simpa [spreadGrad, Spec.inner] using this

/-- Polynomials of degree at most one in one variable. -/
theorem line_poly {q : MvPolynomial (Fin 1) ℝ} (hq : q.totalDegree ≤ 1) : ∃ a b : ℝ, q = MvPolynomial.C a + MvPolynomial.C b * MvPolynomial.X 0 := by
  have hd : q = fitted [fun _ => 0, fun _ => 1] fun j => MvPolynomial.coeff (fin ([fun _ => 0, fun _ => 1].get j)) q := by
    refine eq_fitted (N := 1) _ ?_ ?_ q hq
    · simp [List.nodup_cons, funext_iff]
    · intro α hα
      rw [Fin.sum_univ_one] at hα
      have : α = fun _ => α 0 := by
        funext k; rw [Fin.fin_one_eq_zero k]
      rw [this]
      rcases (by omega : α 0 = 0 ∨ α 0 = 1) with h | h <;> rw [h] <;> simp
  generalize (fun j => MvPolynomial.coeff (fin ([fun _ => 0, fun _ => 1].get j)) q : Fin 2 → ℝ) = u at hd
  refine ⟨u 0, u 1, ?_⟩
  apply MvPolynomial.funext
  intro x
  rw [hd, eval_fitted]
  simp [Fin.sum_univ_two]

/-- A surface with a linear trend, a function with data errors, and rules that are exact for the average at two points and for the derivative. -/
example : ∃ (lib : Lib) (w' : RBF), (rfit lib (Matrix.of ![![0], ![1]] : Matrix (Fin 2) (Fin 1) ℝ) ![3, 5] none none).run { N := 1 } = (.ok (), w') ∧
    GoodNoise 2 none ∧ GoodEig 1 none ∧
    (∀ q : MvPolynomial (Fin 1) ℝ, q.totalDegree ≤ 1 → ∑ i, (![-1, 1] : Fin 2 → ℝ) i * MvPolynomial.eval ((Matrix.of ![![0], ![1]] : Matrix (Fin 2) (Fin 1) ℝ) i) q
      = MvPolynomial.eval ![1 / 3] (MvPolynomial.pderiv 0 q)) ∧
    ∀ q : MvPolynomial (Fin 1) ℝ, q.totalDegree ≤ 1 → ∑ i, (![1, 1] : Fin 2 → ℝ) i * MvPolynomial.eval ((Matrix.of ![![0], ![1]] : Matrix (Fin 2) (Fin 1) ℝ) i) q
      = ∑ l, (![1, 1] : Fin 2 → ℝ) l * MvPolynomial.eval ((Matrix.of ![![1 / 4], ![3 / 4]] : Matrix (Fin 2) (Fin 1) ℝ) l) q := by
  obtain ⟨lib, -, hch, hfm⟩ := rbfLib_exists
  obtain ⟨w', hw⟩ := C69_train_partial lib hch hfm { N := 1 } le_rfl _
    unisolvent_line ![3, 5] none none (by rintro u ⟨⟩) (by rintro u ⟨⟩) (Or.inr (Or.inl ⟨rfl, rfl⟩))
  refine ⟨lib, w', hw, by rintro u ⟨⟩, by rintro u ⟨⟩, fun q hq => ?_, fun q hq => ?_⟩
  · obtain ⟨a, b, rfl⟩ := line_poly hq
    simp [Fin.sum_univ_two]
  · obtain ⟨a, b, rfl⟩ := line_poly hq
    simp [Fin.sum_univ_two]
    ring

end Props
