import Verif.Props.TrainingRounded
import Verif.Props.RBF
import Verif.Props.LocalRounded
import Verif.Props.OlsRounded

/-!
# The rounded models of surfaces and of regression, with rounding switched off

With exact arithmetic the definitions of `Model.Rounded` used in C150, C151 and C156 to C159 are those of the exact model.
-/

open Py Matrix Model.Misc Model.ResponseSurfaces

namespace Props

variable {M m : ℕ}

/-- Exact arithmetic. -/
noncomputable def exactFl : Model.Rounded.Fl where
  rd := id
  d := fun _ _ _ A B => A * B
  prod := List.prod
  power := fun x n => x ^ n
  exp := Real.exp

theorem monomials_exact (X : Matrix (Fin M) (Fin m) ℝ) (I : List (Fin m → ℕ)) : Model.Rounded.monomials exactFl X I = monomials X I := by
  ext i j
  simp [Model.Rounded.monomials, monomials, exactFl, List.prod_ofFn]

theorem gradMonomials_exact (X : Matrix (Fin M) (Fin m) ℝ) (I : List (Fin m → ℕ)) (k : Fin m) :
    Model.Rounded.gradMonomials exactFl X I k = gradMonomials X I k := by
  ext i j
  simp [Model.Rounded.gradMonomials, gradMonomials, exactFl, List.prod_ofFn]

theorem vecDot_exact {p : ℕ} (B : Matrix (Fin M) (Fin p) ℝ) (w : NpVec) : Model.Rounded.vecDot exactFl.d B w = NpVec.dot B w := by
  unfold Model.Rounded.vecDot NpVec.dot
  split
  · congr 1
  · rfl

/-- **C150**, without rounding: `PolynomialApproximation.predict` of the exact model. -/
theorem C150_exact (s : PolyApprox) (X : Arr) (compgrad : Bool) : Model.Rounded.polyPredict exactFl s X compgrad = s.predict X compgrad := by
  have h : ∀ {M m : ℕ} (X : Matrix (Fin M) (Fin m) ℝ), Model.Rounded.polyPredictMat exactFl s X compgrad = s.predictMat X compgrad := by
    intro M m X
    unfold Model.Rounded.polyPredictMat PolyApprox.predictMat polynomial_bases grad_polynomial_bases
    cases hI : index_set s.N m with
    | error e => rfl
    | ok I =>
      simp only [vecDot_exact, monomials_exact, gradMonomials_exact]
      rfl
  unfold Model.Rounded.polyPredict PolyApprox.predict
  simp only [h]
  cases process_inputs X with
  | error e => rfl
  | ok Y => simp only []; rfl

theorem exponential_squared_exact {M1 M2 : ℕ} (X1 : Matrix (Fin M1) (Fin m) ℝ) (X2 : Matrix (Fin M2) (Fin m) ℝ) (sigma : ℝ) (ell : Fin m → ℝ) :
    Model.Rounded.exponential_squared exactFl X1 X2 sigma ell = exponential_squared X1 X2 sigma ell := by
  ext i j
  simp [Model.Rounded.exponential_squared, exponential_squared, exactFl, Matrix.mul_apply, colMat]

/-- **C151**, without rounding: the values of `RadialBasisApproximation.predict` of the exact model. -/
theorem C151_exact {M0 : ℕ} (N : ℕ) (X0 : Matrix (Fin M0) (Fin m) ℝ) (ell : Fin m → ℝ) (radial poly : NpVec) (X : Matrix (Fin M) (Fin m) ℝ) :
    (Model.Rounded.rbfPredictMat exactFl N X0 ell radial poly X).map (fun f => (f, none)) = rbfPredictMat N X0 ell radial poly X false := by
  unfold Model.Rounded.rbfPredictMat rbfPredictMat polynomial_bases
  simp only [exponential_squared_exact, vecDot_exact, monomials_exact]
  cases hI : index_set N m with
  | error e => rfl
  | ok I =>
    simp only [bind, Except.bind, pure, Except.pure]
    cases NpVec.dot (exponential_squared X X0 1 ell) radial with
    | error e => rfl
    | ok fr =>
      cases NpVec.dot (monomials X I) poly with
      | error e => rfl
      | ok fp => rfl

theorem covMat_exact (X : Matrix (Fin M) (Fin m) ℝ) (ell : Fin m → ℝ) (v : Fin M → ℝ) :
    Model.Rounded.covMat exactFl X ell v = covMat X ⟨ell, v⟩ := by
  ext i j
  unfold Model.Rounded.covMat covMat
  rw [exponential_squared_exact]
  simp [exactFl, Matrix.diagonal_apply]

/-- **C156**, without rounding: the weights are those stored by the exact model of `RadialBasisApproximation.train`. -/
theorem C156_exact (N : ℕ) (X : Matrix (Fin M) (Fin m) ℝ) (f : Fin M → ℝ) (v e : Option NpVec) (g : ℝ) (q : Params M m)
    (hq : params M m g v e = .ok q) (t : Fit M m) (ht : rbfFit X f v N e g = .ok t) :
    Model.Rounded.rbfWeights exactFl (fun _ A b => Np.solve A b) N X f q.ell q.v = .ok (NpVec.of t.radial, NpVec.of t.poly) := by
  unfold rbfFit polynomial_bases at ht
  unfold Model.Rounded.rbfWeights
  rw [hq] at ht
  cases hI : index_set N m with
  | error er => rw [hI] at ht; cases ht
  | ok I =>
    rw [hI] at ht
    have h1 : Model.Rounded.covMat exactFl X q.ell (fun i => max (q.v i) (exactFl.rd 1e-6)) = covMat X ⟨q.ell, fun i => max (q.v i) 1e-6⟩ := by
      rw [covMat_exact]; rfl
    simp only [h1, monomials_exact]
    simp only [bind, Except.bind, pure, Except.pure] at ht ⊢
    cases hs : Np.solve (saddle (covMat X ⟨q.ell, fun i => max (q.v i) 1e-6⟩) (monomials X I)) (Np.vstack (colMat f) (Np.zeros I.length 1)) with
    | error er => rw [hs] at ht; cases ht
    | ok w =>
      rw [hs] at ht
      simp only at ht ⊢
      split at ht
      · cases ht
      · split at ht
        · cases ht
        · cases ht
          rfl

theorem applyWeights_exact {p : ℕ} (w : Option (Fin M → ℝ)) (B : Matrix (Fin M) (Fin p) ℝ) (f : Fin M → ℝ) :
    Model.Rounded.applyWeights exactFl w B f = applyWeights w B f := by
  cases w <;> rfl

theorem organize_keeps (N : ℕ) (I : List (Fin m → ℕ)) (c : Fin I.length → ℝ) (s : PolyApprox) :
    ((organize N I c).run s).2.poly_weights = s.poly_weights := by
  unfold organize
  split
  · rw [PyM.run_bind_ok (PyM.run_modify _ _)]
    split
    · rw [PyM.run_bind, PyM.run_lift]
      cases hessLoop I c (List.range' (m + 1) ((m + 1).choose 2)) (Np.zeros m m) <;> rfl
    · rfl
  · rfl

/-- **C157**, without rounding: the coefficients are those stored by the exact model of `PolynomialApproximation.train`, which fails when they do. -/
theorem C157_exact (lib : Lib) (N : ℕ) (X : Matrix (Fin M) (Fin m) ℝ) (f : Fin M → ℝ) (w : Option (Fin M → ℝ)) (s : PolyApprox) :
    (∀ c, Model.Rounded.polyWeights exactFl lib.lstsq N X f w = .ok c → ((trainMat lib N X f w).run s).2.poly_weights = some c) ∧
    (∀ e, Model.Rounded.polyWeights exactFl lib.lstsq N X f w = .error e → (trainMat lib N X f w).run s = (.error e, s)) := by
  unfold Model.Rounded.polyWeights trainMat polynomial_bases
  split
  · exact ⟨fun c h => (by cases h), fun e h => (by cases h; rfl)⟩
  · cases hI : index_set N m with
    | error er => exact ⟨fun c h => (by cases h), fun e h => (by cases h; rfl)⟩
    | ok I =>
      refine ⟨fun c h => ?_, fun e h => (by cases h)⟩
      simp only [monomials_exact, applyWeights_exact] at h
      cases h
      simp only
      rw [PyM.run_bind_ok (PyM.run_modify _ _), organize_keeps]

/-- **C158**, without rounding: the slope is that of the exact model of `local_linear_gradients`. -/
theorem C158_exact (lib : Model.Gradients.Lib) (X : Matrix (Fin M) (Fin m) ℝ) (f weights : Fin M → ℝ) (p : ℕ) (ii : Fin M) :
    Model.Rounded.localModel id lib.argsort (fun _ _ A b => lib.lstsq A b) (Model.Gradients.sqDist X (X ii)) X f (weights ii) p
      = Model.Gradients.localModel lib X f weights p ii := by
  unfold Model.Rounded.localModel Model.Gradients.localModel
  have hn : Model.Rounded.neighbours lib.argsort (Model.Gradients.sqDist X (X ii)) p = Model.Gradients.neighbours lib X ii p := rfl
  simp only [hn]
  split
  · congr 2
    ext j
    congr 2
    ext k l
    simp only [Matrix.of_apply, id_eq, Matrix.smul_apply, smul_eq_mul]
    exact mul_comm _ _
  · rfl

/-- **C159**, without rounding: the result is that of the exact model of `ols_subspace`. -/
theorem C159_exact (lib : Model.Subspaces.Lib) (X : Matrix (Fin M) (Fin m) ℝ) (f w : Fin M → ℝ) :
    Model.Rounded.ols_subspace id (fun _ _ _ A B => A * B) lib.surf.lstsq lib X f w
      = Model.Subspaces.ols_subspace lib (.mat (NpMat.of X)) (.mat (wcol f)) (wcol w) := by
  obtain ⟨u, hu, h⟩ := ols_eq lib X f w
  rw [h]
  unfold Model.Rounded.ols_subspace Model.Rounded.olsFit
  simp only [id_eq, ← hu]
  congr 2
  ext k l
  simp [Matrix.mul_apply]

/-- Training on two points with a linear polynomial part does complete, for every positive factor `g`. -/
example (g : ℝ) (hg : 0 < g) : ∃ (q : Params 2 1) (t : Fit 2 1), params 2 1 g none none = .ok q ∧
    rbfFit (Matrix.of ![![(0 : ℝ)], ![1]]) ![3, 5] none 1 none g = .ok t ∧
    Model.Rounded.rbfWeights exactFl (fun _ A b => Np.solve A b) 1 (Matrix.of ![![(0 : ℝ)], ![1]]) ![3, 5] q.ell q.v = .ok (NpVec.of t.radial, NpVec.of t.poly) := by
  obtain ⟨t, ht, -⟩ := C31_well_posed le_rfl _ unisolvent_line ![3, 5] none none (by rintro u ⟨⟩) (by rintro u ⟨⟩) g hg
  exact ⟨_, t, rfl, ht, C156_exact _ _ _ _ _ _ _ rfl t ht⟩

/-- A straight line through two points: the coefficients exist, so the first part of `C157_exact` applies. -/
example (lib : Lib) : ∃ c, Model.Rounded.polyWeights exactFl lib.lstsq 1 (Matrix.of ![![(0 : ℝ)], ![1]]) ![3, 5] none = .ok c := by
  obtain ⟨I, hI, -⟩ := C25_enumerates 1 1 le_rfl
  unfold Model.Rounded.polyWeights
  rw [if_neg (by decide), hI]
  exact ⟨_, rfl⟩

end Props
