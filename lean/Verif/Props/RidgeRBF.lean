import Verif.Props.RBFFunctionals
import Verif.Props.SurfaceCoords

/-!
# Property C152: radial basis surfaces on the active variables of a ridge function
-/

open Py Model.ResponseSurfaces Model.ActiveSurfaces Model.Domains Model.Subspaces Model.QPSolver Proofs.PolyApprox Proofs.RBF Matrix Spec

namespace Props

variable {M m n k p : ℕ} {S E : Type}

theorem hasFDerivAt_ridge {g : (Fin n → ℝ) → ℝ} {a : Fin n → ℝ} (V : Matrix (Fin m) (Fin n) ℝ) {x : Fin m → ℝ}
    (hg : HasFDerivAt g (∑ j, a j • (ContinuousLinearMap.proj j : (Fin n → ℝ) →L[ℝ] ℝ)) fun j => ∑ l, x l * V l j) :
    HasFDerivAt (fun x : Fin m → ℝ => g fun j => ∑ l, x l * V l j) (∑ l, V.mulVec a l • (ContinuousLinearMap.proj l : (Fin m → ℝ) →L[ℝ] ℝ)) x := by
  let A : (Fin m → ℝ) →L[ℝ] (Fin n → ℝ) := ContinuousLinearMap.pi fun j => ∑ l, V l j • (ContinuousLinearMap.proj l : (Fin m → ℝ) →L[ℝ] ℝ)
  have hA : ∀ x : Fin m → ℝ, A x = fun j => ∑ l, x l * V l j := by
    intro x
    funext j
    simp [A, mul_comm]
  rw [← hA] at hg
  have h4 := hg.comp x A.hasFDerivAt
  have e5 : (g ∘ A) = fun x : Fin m → ℝ => g fun j => ∑ l, x l * V l j := funext fun x => congrArg g (hA x)
  rw [e5] at h4
  refine h4.congr_fderiv ?_
  ext x
  simp only [ContinuousLinearMap.comp_apply, hA, ContinuousLinearMap.sum_apply, ContinuousLinearMap.smul_apply, ContinuousLinearMap.proj_apply, smul_eq_mul,
    Matrix.mulVec, dotProduct, Finset.mul_sum, Finset.sum_mul]
  rw [Finset.sum_comm]
  exact Finset.sum_congr rfl fun l _ => Finset.sum_congr rfl fun j _ => by ring

theorem proj_single (a : Fin m → ℝ) (l : Fin m) : (∑ j, a j • (ContinuousLinearMap.proj j : (Fin m → ℝ) →L[ℝ] ℝ)) (Pi.single l 1) = a l := by
  simp [_root_.sum_apply, Pi.single_apply]

theorem sum_sq_orthonormal {V : Matrix (Fin m) (Fin n) ℝ} (hV : V.transpose * V = 1) (a : Fin n → ℝ) : ∑ l, V.mulVec a l ^ 2 = ∑ j, a j ^ 2 := by
  have h1 : V.mulVec a ⬝ᵥ V.mulVec a = a ⬝ᵥ a := by
    rw [Matrix.dotProduct_mulVec, ← Matrix.mulVec_transpose, Matrix.mulVec_mulVec, hV, Matrix.one_mulVec]
  simpa only [dotProduct, ← sq] using h1

theorem gauss_ge (ell x y : Fin m → ℝ) : 1 - ∑ k, (x k - y k) ^ 2 / ell k ≤ gauss ell x y := by
  have := Real.add_one_le_exp (-∑ k, (x k - y k) ^ 2 / ell k)
  unfold gauss
  linarith

/-- **C152.** A radial basis surface is trained with data on the active variables `W1ᵀ x`.  If the data are values of `h(W1ᵀ x)`, with `h` a sum of Gaussian bumps plus a
polynomial of degree at most `N`, up to errors, then the surface and its gradient on the full space are near those of `x ↦ h(W1ᵀ x)`. -/
theorem C152_ridge (lib : Model.ResponseSurfaces.Lib) (a : AVMap S (RBF × E)) {V1 : Matrix (Fin m) (Fin n) ℝ} {V2 : Matrix (Fin m) (Fin k) ℝ}
    (h1 : a.subspaces.W1 = some (NpMat.of V1)) (h2 : a.subspaces.W2 = some (NpMat.of V2)) (ho : V1.transpose * V1 = 1) (hn : 1 ≤ n) (X : Matrix (Fin M) (Fin m) ℝ)
    (f : Fin M → ℝ) {v : Option NpVec} (hv : GoodNoise M v) (he : GoodEig n a.subspaces.eigenvals) (w w' : S × Files × RBF × E)
    (hr : (train_with_data (rbfSurface lib) a (.mat (NpMat.of X)) (.mat (NpMat.of (Matrix.of fun i (_ : Fin 1) => f i))) v).run w = (.ok (), w')) :
    ∃ (ell : Fin n → ℝ) (reg : Fin M → ℝ), w'.2.2.1.ell = some (NpVec.of ell) ∧ (∀ j, 0 < ell j) ∧ (∀ i, 0 < reg i) ∧
      w'.2.2.1.K = some (NpMat.of (Matrix.of fun i j => gauss ell ((X * V1) i) ((X * V1) j) + if i = j then reg i else 0)) ∧
      ∀ (p : ℕ) (Z : Matrix (Fin p) (Fin n) ℝ) (c : Fin p → ℝ) (s : MvPolynomial (Fin n) ℝ) (δ : Fin M → ℝ), s.totalDegree ≤ w.2.2.1.N →
        (∀ i, f i = expansion ell Z c s (fun j => ∑ l, X i l * V1 l j) + δ i) → ∀ (L : ℕ) (Y : Matrix (Fin L) (Fin m) ℝ),
        ∃ (z : Fin L → ℝ) (df : Matrix (Fin L) (Fin m) ℝ),
          call (rbfSurface lib) w'.2.2.1 a.subspaces (.mat (NpMat.of Y)) = .ok (NpVec.of z) ∧
          gradient (rbfSurface lib) w'.2.2.1 a.subspaces (.mat (NpMat.of Y)) = .ok (some (NpMat.of df)) ∧
          ∀ t : Fin L,
            (∀ b : Fin M → ℝ, (∀ q : MvPolynomial (Fin n) ℝ, q.totalDegree ≤ w.2.2.1.N →
                ∑ i, b i * MvPolynomial.eval ((X * V1) i) q = MvPolynomial.eval ((Y * V1) t) q) →
              (z t - expansion ell Z c s fun j => ∑ l, Y t l * V1 l j) ^ 2
                ≤ (Spec.inner ell Z c Z c + ∑ i, δ i ^ 2 / reg i) * spread ell (X * V1) reg ((Y * V1) t) b) ∧
            (w.2.2.1.N = 0 → ∀ i, (z t - expansion ell Z c s fun j => ∑ l, Y t l * V1 l j) ^ 2
                ≤ (Spec.inner ell Z c Z c + ∑ i, δ i ^ 2 / reg i) * (2 * ∑ j, (∑ l, (Y t l - X i l) * V1 l j) ^ 2 / ell j + reg i)) ∧
            ∀ h' : (Fin m → ℝ) →L[ℝ] ℝ, HasFDerivAt (fun x : Fin m → ℝ => expansion ell Z c s fun j => ∑ l, x l * V1 l j) h' (Y t) →
              (∀ B : Fin n → Fin M → ℝ, (∀ (j : Fin n) (q : MvPolynomial (Fin n) ℝ), q.totalDegree ≤ w.2.2.1.N →
                  ∑ i, B j i * MvPolynomial.eval ((X * V1) i) q = MvPolynomial.eval ((Y * V1) t) (MvPolynomial.pderiv j q)) →
                ∑ l, (df t l - h' (Pi.single l 1)) ^ 2
                  ≤ (Spec.inner ell Z c Z c + ∑ i, δ i ^ 2 / reg i) * ∑ j, spreadGrad ell (X * V1) reg ((Y * V1) t) j (B j)) ∧
              (w.2.2.1.N = 0 → ∑ l, (df t l - h' (Pi.single l 1)) ^ 2 ≤ (Spec.inner ell Z c Z c + ∑ i, δ i ^ 2 / reg i) * ∑ j, 2 / ell j) := by
  rw [train_rbf_run h1 h2] at hr
  obtain ⟨hr1, hr2⟩ := Prod.ext_iff.mp hr
  have hrun : (rfit lib (X * V1) f v a.subspaces.eigenvals).run w.2.2.1 = (.ok (), w'.2.2.1) := Prod.ext hr1 (congrArg (fun u => u.2.2.1) hr2)
  obtain ⟨ell, reg, r, P, hl, hK, hfit, -, hp, -⟩ := rbf_fits lib w.2.2.1 w'.2.2.1 hn (X * V1) f hv he hrun
  have hrow : ∀ {L : ℕ} (Y : Matrix (Fin L) (Fin m) ℝ) (i : Fin L), (Y * V1) i = fun j => ∑ l, Y i l * V1 l j := fun Y i => funext fun j => Matrix.mul_apply
  have hev : Evaluates (rbfSurface lib) w'.2.2.1 (expansion ell (X * V1) r P) := fun L Y =>
    ⟨_, (hp L Y).1, (hp L Y).2, fun i => hasFDerivAt_surface (X * V1) ell r P (Y i)⟩
  refine ⟨ell, reg, hl, hfit.scale, hfit.pos, hK, fun p Z c s δ hs hδ L Y => ?_⟩
  obtain ⟨df, e1, -, -, e2, e3⟩ := C55_chain_rule h1 h2 (rbfSurface lib) w'.2.2.1 _ hev Y
  have hδ' : ∀ i, f i = expansion ell Z c s ((X * V1) i) + δ i := fun i => by rw [hrow]; exact hδ i
  have hpen := penalty_data (reg := reg) hδ'
  refine ⟨_, df, e1, e2, fun t => ?_⟩
  have hgap : ∀ b : Fin M → ℝ, (∀ q : MvPolynomial (Fin n) ℝ, q.totalDegree ≤ w.2.2.1.N →
      ∑ i, b i * MvPolynomial.eval ((X * V1) i) q = MvPolynomial.eval ((Y * V1) t) q) →
      (expansion ell (X * V1) r P ((Y * V1) t) - expansion ell Z c s ((Y * V1) t)) ^ 2
        ≤ (Spec.inner ell Z c Z c + ∑ i, δ i ^ 2 / reg i) * spread ell (X * V1) reg ((Y * V1) t) b := fun b hb => by
    rw [← hpen]
    refine (hfit.gap Z c hs _ hb).trans (mul_le_mul_of_nonneg_right ?_ (spread_nonneg hfit.scale _ hfit.pos _ _))
    linarith [penalty_nonneg hfit (X * V1) r P]
  have hconst : w.2.2.1.N = 0 → ∀ q : MvPolynomial (Fin n) ℝ, q.totalDegree ≤ w.2.2.1.N → q = MvPolynomial.C (q.coeff 0) := fun hN q hq => by
    rw [hN] at hq
    exact MvPolynomial.totalDegree_eq_zero_iff_eq_C.mp (Nat.le_zero.mp hq)
  refine ⟨fun b hb => ?_, fun hN i => ?_, fun h' hh' => ?_⟩
  · have := hgap b hb
    rwa [hrow Y] at this ⊢
  · have h3 := hgap (Pi.single i 1) fun q hq => by
      rw [hconst hN q hq]
      simp [← Finset.sum_mul]
    rw [spread_single] at h3
    rw [← hrow Y]
    refine h3.trans (mul_le_mul_of_nonneg_left ?_ ?_)
    · have h4 := gauss_ge ell ((Y * V1) t) ((X * V1) i)
      have e4 : ∀ j, (Y * V1) t j - (X * V1) i j = ∑ l, (Y t l - X i l) * V1 l j := fun j => by
        rw [Matrix.mul_apply, Matrix.mul_apply, ← Finset.sum_sub_distrib]
        exact Finset.sum_congr rfl fun l _ => by ring
      simp only [e4] at h4
      linarith
    · rw [← hpen]
      exact penalty_nonneg hfit Z c s
  · have g1 : ∀ l, df t l = V1.mulVec (surfaceGrad (X * V1) ell r P ((Y * V1) t)) l := fun l => by
      have h3 := hasFDerivAt_ridge V1 (x := Y t) (by rw [← hrow]; exact hasFDerivAt_surface (X * V1) ell r P ((Y * V1) t))
      have h4 := congrArg (fun D : (Fin m → ℝ) →L[ℝ] ℝ => D (Pi.single l 1)) ((e3 t).unique h3)
      simpa only [proj_single] using h4
    have g2 : ∀ l, h' (Pi.single l 1) = V1.mulVec (surfaceGrad Z ell c s ((Y * V1) t)) l := fun l => by
      have h3 := hasFDerivAt_ridge V1 (x := Y t) (by rw [← hrow]; exact hasFDerivAt_surface Z ell c s ((Y * V1) t))
      have h4 := congrArg (fun D : (Fin m → ℝ) →L[ℝ] ℝ => D (Pi.single l 1)) (hh'.unique h3)
      simpa only [proj_single] using h4
    have g3 : ∑ l, (df t l - h' (Pi.single l 1)) ^ 2 = ∑ j, (surfaceGrad (X * V1) ell r P ((Y * V1) t) j - surfaceGrad Z ell c s ((Y * V1) t) j) ^ 2 := by
      rw [← sum_sq_orthonormal ho fun j => surfaceGrad (X * V1) ell r P ((Y * V1) t) j - surfaceGrad Z ell c s ((Y * V1) t) j]
      refine Finset.sum_congr rfl fun l _ => ?_
      rw [g1, g2]
      congr 1
      simp only [Matrix.mulVec, dotProduct, mul_sub, Finset.sum_sub_distrib]
    have g4 : ∀ B : Fin n → Fin M → ℝ, (∀ (j : Fin n) (q : MvPolynomial (Fin n) ℝ), q.totalDegree ≤ w.2.2.1.N →
        ∑ i, B j i * MvPolynomial.eval ((X * V1) i) q = MvPolynomial.eval ((Y * V1) t) (MvPolynomial.pderiv j q)) →
        ∑ l, (df t l - h' (Pi.single l 1)) ^ 2
          ≤ (Spec.inner ell Z c Z c + ∑ i, δ i ^ 2 / reg i) * ∑ j, spreadGrad ell (X * V1) reg ((Y * V1) t) j (B j) := fun B hB => by
      rw [g3, ← hpen, Finset.mul_sum]
      exact Finset.sum_le_sum fun j _ => hfit.gradient Z c hs _ j (hB j)
    refine ⟨g4, fun hN => ?_⟩
    have h3 := g4 (fun _ _ => 0) fun j q hq => by
      rw [hconst hN q hq]
      simp
    simpa [spreadGrad, Spec.inner] using h3

/-- A run that returns: two samples in the plane with the first variable active, the eigenvalues 2 and 1, and a linear trend. -/
example : ∃ (lib : Model.ResponseSurfaces.Lib) (a : AVMap Unit (RBF × Unit)) (V1 V2 : Matrix (Fin 2) (Fin 1) ℝ) (w' : Unit × Files × RBF × Unit),
    a.subspaces.W1 = some (NpMat.of V1) ∧ a.subspaces.W2 = some (NpMat.of V2) ∧ V1.transpose * V1 = 1 ∧ GoodEig 1 a.subspaces.eigenvals ∧ GoodNoise 2 none ∧
    (train_with_data (rbfSurface lib) a (.mat (NpMat.of (Matrix.of ![![0, 5], ![1, 7]] : Matrix (Fin 2) (Fin 2) ℝ)))
      (.mat (NpMat.of (Matrix.of fun i (_ : Fin 1) => (![3, 5] : Fin 2 → ℝ) i))) none).run ((), [], { N := 1 }, ()) = (.ok (), w') := by
  obtain ⟨lib, -, hch, hfm⟩ := rbfLib_exists
  let V1 : Matrix (Fin 2) (Fin 1) ℝ := Matrix.of ![![1], ![0]]
  let V2 : Matrix (Fin 2) (Fin 1) ℝ := Matrix.of ![![0], ![1]]
  let a : AVMap Unit (RBF × Unit) := ⟨.other, { eigenvals := some (NpVec.of ![2, 1]), W1 := some (NpMat.of V1), W2 := some (NpMat.of V2) }, fun _ _ => pure none⟩
  have hX : (Matrix.of ![![0, 5], ![1, 7]] : Matrix (Fin 2) (Fin 2) ℝ) * V1 = Matrix.of ![![0], ![1]] := by
    ext i j
    fin_cases i <;> fin_cases j <;> simp [V1, Matrix.mul_apply, Fin.sum_univ_two]
  have hg : GoodEig 1 a.subspaces.eigenvals := by
    intro u hu
    have hu' : NpVec.of ![(2 : ℝ), 1] = u := Option.some.inj hu
    subst hu'
    refine ⟨by change 1 ≤ 2; norm_num, fun i => ?_, fun i _ => ?_⟩
    · change 0 ≤ (![(2 : ℝ), 1] : Fin 2 → ℝ) i
      revert i
      exact Fin.forall_fin_two.mpr ⟨by norm_num, by norm_num⟩
    · change 0 < (![(2 : ℝ), 1] : Fin 2 → ℝ) i
      revert i
      exact Fin.forall_fin_two.mpr ⟨fun _ => by norm_num, fun _ => by norm_num⟩
  obtain ⟨w', hw⟩ := C69_train_partial lib hch hfm { N := 1 } le_rfl _ unisolvent_line ![3, 5] none a.subspaces.eigenvals (by rintro u ⟨⟩) hg
    (Or.inr (Or.inr (Or.inr ⟨rfl, _, rfl, (⟨1, by norm_num⟩ : Fin 2), le_rfl, by change (0 : ℝ) < 1; norm_num⟩)))
  refine ⟨lib, a, V1, V2, ((), [], w', ()), rfl, rfl, ?_, hg, by rintro u ⟨⟩, ?_⟩
  · ext i j
    fin_cases i
    fin_cases j
    simp [V1, Matrix.mul_apply, Fin.sum_univ_two]
  · rw [train_rbf_run (a := a) (V1 := V1) (V2 := V2) rfl rfl, hX, hw]

end Props
