import Verif.Props.RoundedExact
import Verif.Model.RoundedKernelGrads
import Verif.Model.RoundedActiveRBF
import Verif.Model.RoundedActive
import Verif.Model.RoundedMeans
import Verif.Model.Integrals

/-!
# Further rounded models, with rounding switched off
-/

open Py Matrix Model.Misc Model.ResponseSurfaces

namespace Props

variable {M m : ℕ}

theorem grad_exponential_squared_exact {M1 M2 : ℕ} (X1 : Matrix (Fin M1) (Fin m) ℝ) (X2 : Matrix (Fin M2) (Fin m) ℝ) (sigma : ℝ) (ell : Fin m → ℝ)
    (k : Fin m) : Model.Rounded.grad_exponential_squared exactFl X1 X2 sigma ell k = grad_exponential_squared X1 X2 sigma ell k := by
  ext i j
  simp [Model.Rounded.grad_exponential_squared, grad_exponential_squared, exactFl, Matrix.mul_apply, colMat]

/-- **C153**, without rounding: the values and the gradients of the exact model, when the weights fit. -/
theorem C153_exact {M0 : ℕ} (N : ℕ) (X0 : Matrix (Fin M0) (Fin m) ℝ) (ell : Fin m → ℝ) (radial poly : NpVec) (X : Matrix (Fin M) (Fin m) ℝ) :
    (do let f ← Model.Rounded.rbfPredictMat exactFl N X0 ell radial poly X
        let df ← Model.Rounded.rbfGradMat exactFl N X0 ell radial poly X
        return (f, some df)) = rbfPredictMat N X0 ell radial poly X true := by
  unfold Model.Rounded.rbfPredictMat Model.Rounded.rbfGradMat rbfPredictMat polynomial_bases grad_polynomial_bases
  simp only [exponential_squared_exact, grad_exponential_squared_exact, vecDot_exact, monomials_exact, gradMonomials_exact]
  cases hI : index_set N m with
  | error e => rfl
  | ok I =>
    simp only [bind, Except.bind, pure, Except.pure]
    cases NpVec.dot (exponential_squared X X0 1 ell) radial with
    | error e => rfl
    | ok fr =>
      cases NpVec.dot (monomials X I) poly with
      | error e => rfl
      | ok fp =>
        simp only [if_true]
        generalize hA : List.mapM (m := Except Err) _ (List.finRange m) = A
        generalize hB : List.mapM (m := Except Err) _ (List.finRange m) = B
        have hAB : A = B := by rw [← hA, ← hB]; rfl
        rw [hAB]
        cases B <;> rfl

/-- **C154**, without rounding: the polynomial surface on the active variables of the exact model. -/
theorem C154_exact (lib : Lib) (r : PolyApprox) (s : Model.Subspaces.Subspaces) (X : Arr) (compgrad : Bool) :
    Model.Rounded.activePredict (fun _ _ _ A B => A * B) (Model.Rounded.polyPredict exactFl r) s X compgrad
      = Model.ActiveSurfaces.predict (Model.ActiveSurfaces.polySurface lib) r s X compgrad := by
  have h : Model.Rounded.polyPredict exactFl r = r.predict := by
    funext X cg
    exact C150_exact r X cg
  rw [h]
  rfl

/-- **C155**, without rounding: the radial basis surface of the exact model, for points with the number of columns used in training. -/
theorem C155_exact (r : RBF) (X : Arr) (compgrad : Bool) (hX : ∀ X0 ell X', r.X = some X0 → r.ell = some ell → process_inputs X = .ok X' → X0.cols = X'.cols ∧ ell.n = X'.cols) :
    Model.Rounded.rbfSurface exactFl r X compgrad = r.predict X compgrad := by
  unfold Model.Rounded.rbfSurface Model.Rounded.rbfPredictGrad Model.Rounded.rbfPredict RBF.predict
  cases hp : process_inputs X with
  | error e => cases compgrad <;> rfl
  | ok X' =>
    cases h1 : r.X with
    | none => cases compgrad <;> rfl
    | some X0 =>
      cases h2 : r.ell with
      | none => cases compgrad <;> rfl
      | some ell =>
        cases r.radial_weights with
        | none => cases compgrad <;> rfl
        | some radial =>
          cases r.poly_weights with
          | none => cases compgrad <;> rfl
          | some poly =>
            have hc := hX X0 ell X' h1 h2 hp
            simp only [dif_pos hc]
            cases compgrad
            · rw [← C151_exact]
              generalize Model.Rounded.rbfPredictMat exactFl r.N _ _ radial poly X'.val = A
              cases A <;> rfl
            · rw [← C153_exact]
              generalize Model.Rounded.rbfPredictMat exactFl r.N _ _ radial poly X'.val = A
              generalize Model.Rounded.rbfGradMat exactFl r.N _ _ radial poly X'.val = B
              cases A <;> cases B <;> rfl

theorem mean_exact (l : List ℝ) : Model.Rounded.mean id List.sum l = mean l := rfl

theorem var_exact (l : List ℝ) : Model.Rounded.var id List.sum l = var l := by
  unfold Model.Rounded.var var
  simp only [mean_exact, id_eq, sq]
  cases mean l <;> rfl

theorem condExp_exact (f ind : NpMat) : Model.Rounded.condExp id List.sum f ind = Model.ActiveSurfaces.condExp f ind := by
  unfold Model.Rounded.condExp Model.ActiveSurfaces.condExp Model.Rounded.conditional_expectations conditional_expectations
  simp only [mean_exact, var_exact]

/-- **C146**, without rounding: the estimate and the bounds of the exact model. -/
theorem C146_exact (f Xw ind : NpMat) (NMC : ℤ) :
    Model.Rounded.estimate id (fun _ _ _ A B => A * B) List.sum f Xw ind NMC = Model.Integrals.estimate f Xw ind NMC := by
  unfold Model.Rounded.estimate Model.Integrals.estimate
  simp only [condExp_exact]
  rfl

/-- A model trained in one variable with one centre meets the hypothesis of `C155_exact` at every matrix with one column. -/
example (X : Matrix (Fin M) (Fin 1) ℝ) : ∀ X0 ell X',
    ({ N := 0, X := some (NpMat.of (Matrix.of ![![1]])), ell := some (NpVec.of ![2]), radial_weights := some (NpVec.of ![3]), poly_weights := some (NpVec.of ![4]) } : RBF).X = some X0 →
    ({ N := 0, X := some (NpMat.of (Matrix.of ![![1]])), ell := some (NpVec.of ![2]), radial_weights := some (NpVec.of ![3]), poly_weights := some (NpVec.of ![4]) } : RBF).ell = some ell →
    process_inputs (.mat (NpMat.of X)) = .ok X' → X0.cols = X'.cols ∧ ell.n = X'.cols := by
  intro X0 ell X' h1 h2 h3
  cases h1
  cases h2
  cases h3
  exact ⟨rfl, rfl⟩

end Props
