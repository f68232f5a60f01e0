import Verif.Props.RBF

/-!
# Properties C96 and C97: training again, and the methods of the base class
-/

open Py Model.Misc Model.ResponseSurfaces MvPolynomial Proofs.PolyApprox Proofs.PolyTrain Proofs.RBF

namespace Props

variable {M m : ℕ}

/-! ## C96 -/

/-- Two polynomial surfaces that agree in all attributes but possibly `H`, and in `H` for degree 2 and more. -/
structure SamePoly (a b : PolyApprox) : Prop where
  N : a.N = b.N
  X : a.X = b.X
  f : a.f = b.f
  Rsqr : a.Rsqr = b.Rsqr
  poly_weights : a.poly_weights = b.poly_weights
  g : a.g = b.g
  H : 1 < a.N → a.H = b.H

theorem trainMat_history (lib : Lib) (w1 w2 : PolyApprox) (hN : w1.N = w2.N) (X : Matrix (Fin M) (Fin m) ℝ) (f : Fin M → ℝ)
    (weights : Option (Fin M → ℝ)) :
    ((trainMat lib w1.N X f weights).run w1).1 = ((trainMat lib w2.N X f weights).run w2).1 ∧
    (((trainMat lib w1.N X f weights).run w1).1 = .ok () →
      SamePoly ((trainMat lib w1.N X f weights).run w1).2 ((trainMat lib w2.N X f weights).run w2).2) := by
  rw [← hN]
  unfold trainMat
  split_ifs with hM
  · exact ⟨rfl, fun h => by cases h⟩
  · cases polynomial_bases X w1.N with
    | error e => exact ⟨rfl, fun h => by cases h⟩
    | ok b =>
      obtain ⟨I, B⟩ := b
      dsimp only
      rw [PyM.run_bind_ok (PyM.run_modify _ w1), PyM.run_bind_ok (PyM.run_modify _ w2)]
      unfold organize
      split_ifs with hI h1
      · rw [PyM.run_bind_ok (PyM.run_modify _ _), PyM.run_bind_ok (PyM.run_modify _ _)]
        cases hH : hessLoop I (lib.lstsq M I.length (applyWeights weights B f).1 (applyWeights weights B f).2)
            (List.range' (m + 1) ((m + 1).choose 2)) (Np.zeros m m) with
        | error e =>
          rw [PyM.run_bind_error (PyM.run_lift _ _), PyM.run_bind_error (PyM.run_lift _ _)]
          exact ⟨rfl, fun h => by cases h⟩
        | ok H =>
          rw [PyM.run_bind_ok (PyM.run_lift _ _), PyM.run_bind_ok (PyM.run_lift _ _)]
          exact ⟨rfl, fun _ => ⟨hN, rfl, rfl, rfl, rfl, rfl, fun _ => rfl⟩⟩
      · rw [PyM.run_bind_ok (PyM.run_modify _ _), PyM.run_bind_ok (PyM.run_modify _ _)]
        exact ⟨rfl, fun _ => ⟨hN, rfl, rfl, rfl, rfl, rfl, fun h => absurd h h1⟩⟩
      · exact ⟨rfl, fun h => by cases h⟩

/-- C96: what a polynomial surface is after `train` depends on its degree and the new data only, not on what it was trained
with before. -/
theorem C96_poly_history (lib : Lib) (w1 w2 : PolyApprox) (hN : w1.N = w2.N) (X f : Arr) (weights : Option NpVec) :
    ((PolyApprox.train lib X f weights).run w1).1 = ((PolyApprox.train lib X f weights).run w2).1 ∧
    (((PolyApprox.train lib X f weights).run w1).1 = .ok () →
      SamePoly ((PolyApprox.train lib X f weights).run w1).2 ((PolyApprox.train lib X f weights).run w2).2) := by
  unfold PolyApprox.train
  rw [PyM.run_bind_ok (PyM.run_get w1), PyM.run_bind_ok (PyM.run_get w2)]
  cases process_inputs_outputs X f with
  | error e => exact ⟨rfl, fun h => by cases h⟩
  | ok q =>
    obtain ⟨X, f⟩ := q
    dsimp only
    cases weights with
    | none => exact trainMat_history lib w1 w2 hN _ _ _
    | some v =>
      dsimp only
      split_ifs with h
      · exact trainMat_history lib w1 w2 hN _ _ _
      · exact ⟨rfl, fun h => by cases h⟩

/-- Surfaces that agree in the sense of `SamePoly` predict the same. -/
theorem SamePoly.predict {a b : PolyApprox} (h : SamePoly a b) (X : Arr) (compgrad : Bool) :
    a.predict X compgrad = b.predict X compgrad := by
  unfold PolyApprox.predict PolyApprox.predictMat
  rw [h.N, h.poly_weights]

/-- C96: a call of `train` that raises leaves a polynomial surface of degree at least 1 as it was. -/
theorem C96_poly_raises_partial (lib : Lib) (w w' : PolyApprox) (hN : 1 ≤ w.N) (X f : Arr) (weights : Option NpVec) (e : Err)
    (h : (PolyApprox.train lib X f weights).run w = (.error e, w')) : w' = w := by
  have key : ∀ {M m : ℕ} (X : Matrix (Fin M) (Fin m) ℝ) (f : Fin M → ℝ) (weights : Option (Fin M → ℝ)),
      (trainMat lib w.N X f weights).run w = (.error e, w') → w' = w := by
    intro M m X f weights h
    by_cases hM : (w.N + m).choose m ≤ M
    · rcases Nat.eq_zero_or_pos m with rfl | hm
      · unfold trainMat at h
        rw [if_neg (by omega)] at h
        have : polynomial_bases X w.N = .error .recursionError := by
          unfold polynomial_bases index_set
          rw [if_neg (by omega)]
        rw [this] at h
        exact (Prod.mk.inj h).2.symm
      · obtain ⟨I, -, -, -, -, w'', h1, -⟩ := trainMat_run lib w hm hN X f weights hM
        rw [h1] at h
        cases (Prod.mk.inj h).1
    · unfold trainMat at h
      rw [if_pos (by omega)] at h
      exact (Prod.mk.inj h).2.symm
  unfold PolyApprox.train at h
  rw [PyM.run_bind_ok (PyM.run_get w)] at h
  cases hq : process_inputs_outputs X f with
  | error e' =>
    rw [hq] at h
    exact (Prod.mk.inj h).2.symm
  | ok q =>
    obtain ⟨X, f⟩ := q
    rw [hq] at h
    dsimp only at h
    cases weights with
    | none => exact key _ _ _ h
    | some v =>
      dsimp only at h
      split_ifs at h with hv
      · exact key _ _ _ h
      · exact (Prod.mk.inj h).2.symm

/-- C96: what a radial basis surface is after `train` depends on its degree and the new data only. -/
theorem C96_rbf_history (lib : Lib) (w1 w2 : RBF) (hN : w1.N = w2.N) (X f : Arr) (v e : Option NpVec) :
    ((RBF.train lib X f v e).run w1).1 = ((RBF.train lib X f v e).run w2).1 ∧
    (((RBF.train lib X f v e).run w1).1 = .ok () →
      ((RBF.train lib X f v e).run w1).2 = ((RBF.train lib X f v e).run w2).2) := by
  unfold RBF.train
  rw [PyM.run_bind_ok (PyM.run_get w1), PyM.run_bind_ok (PyM.run_get w2)]
  cases process_inputs_outputs X f with
  | error e => exact ⟨rfl, fun h => by cases h⟩
  | ok q =>
    obtain ⟨X, f⟩ := q
    dsimp only
    rw [← hN]
    cases rbfTrainMat lib w1.N X.val (fun i => f.get i 0) v e with
    | error e => exact ⟨rfl, fun h => by cases h⟩
    | ok t =>
      refine ⟨rfl, fun _ => ?_⟩
      obtain ⟨N1, _, _, _, _, _, _, _⟩ := w1
      obtain ⟨N2, _, _, _, _, _, _, _⟩ := w2
      obtain rfl : N1 = N2 := hN
      rfl

/-- C96: a call of `train` that raises leaves a radial basis surface as it was. -/
theorem C96_rbf_raises (lib : Lib) (w w' : RBF) (X f : Arr) (v e : Option NpVec) (er : Err)
    (h : (RBF.train lib X f v e).run w = (.error er, w')) : w' = w := by
  unfold RBF.train at h
  rw [PyM.run_bind_ok (PyM.run_get w)] at h
  cases hq : process_inputs_outputs X f with
  | error e' =>
    rw [hq] at h
    exact (Prod.mk.inj h).2.symm
  | ok q =>
    obtain ⟨X, f⟩ := q
    rw [hq] at h
    dsimp only at h
    split at h
    · exact (Prod.mk.inj h).2.symm
    · cases (Prod.mk.inj h).1

/-- A surface trained on one line and then on another is the surface trained on the second one only. -/
example (lib : Lib) (hl : LstsqOK lib) : ∃ w1 w2 w3 : PolyApprox,
    (fit lib (Matrix.of ![![0], ![1]] : Matrix (Fin 2) (Fin 1) ℝ) ![3, 5] none).run { N := 1 } = (.ok (), w1) ∧
    (fit lib (Matrix.of ![![0], ![1]] : Matrix (Fin 2) (Fin 1) ℝ) ![0, 7] none).run w1 = (.ok (), w2) ∧
    (fit lib (Matrix.of ![![0], ![1]] : Matrix (Fin 2) (Fin 1) ℝ) ![0, 7] none).run { N := 1 } = (.ok (), w3) ∧
    ∀ Y b, w2.predict Y b = w3.predict Y b := by
  obtain ⟨w1, P, h1, -, hN, -⟩ := fit_ok lib hl { N := 1 } le_rfl le_rfl (Matrix.of ![![0], ![1]] : Matrix (Fin 2) (Fin 1) ℝ) ![3, 5] none (by decide)
  obtain ⟨w2, -, h2, -⟩ := fit_ok lib hl w1 le_rfl (by rw [hN]) (Matrix.of ![![0], ![1]] : Matrix (Fin 2) (Fin 1) ℝ) ![0, 7] none (by rw [hN]; decide)
  obtain ⟨w3, -, h3, -⟩ := fit_ok lib hl { N := 1 } le_rfl le_rfl (Matrix.of ![![0], ![1]] : Matrix (Fin 2) (Fin 1) ℝ) ![0, 7] none (by decide)
  refine ⟨w1, w2, w3, h1, h2, h3, fun Y b => SamePoly.predict ?_ Y b⟩
  have h := (C96_poly_history lib w1 { N := 1 } hN (.mat (NpMat.of (Matrix.of ![![0], ![1]] : Matrix (Fin 2) (Fin 1) ℝ)))
    (.mat (NpMat.of (Matrix.of fun i (_ : Fin 1) => ![0, 7] i))) none).2
  change ((fit lib (Matrix.of ![![0], ![1]] : Matrix (Fin 2) (Fin 1) ℝ) ![0, 7] none).run w1).1 = .ok () →
    SamePoly ((fit lib (Matrix.of ![![0], ![1]] : Matrix (Fin 2) (Fin 1) ℝ) ![0, 7] none).run w1).2
      ((fit lib (Matrix.of ![![0], ![1]] : Matrix (Fin 2) (Fin 1) ℝ) ![0, 7] none).run { N := 1 }).2 at h
  rw [h2, h3] at h
  exact h rfl

/-! ## C97 -/

/-- A surface given by its values on rows and its gradients: `call` gives the values of a function, `gradient` its derivatives. -/
def IsSurface (m : ℕ) (predict : Arr → Bool → Except Err (NpVec × Option NpMat)) (F : (Fin m → ℝ) → ℝ) : Prop :=
  ∀ (M : ℕ) (Y : Matrix (Fin M) (Fin m) ℝ), ∃ df : Matrix (Fin M) (Fin m) ℝ,
    surfaceCall predict (.mat (NpMat.of Y)) = .ok (NpVec.of fun i => F (Y i)) ∧
    surfaceGradient predict (.mat (NpMat.of Y)) = .ok (some (NpMat.of df)) ∧
    ∀ i, HasFDerivAt F (∑ k, df i k • (ContinuousLinearMap.proj k : (Fin m → ℝ) →L[ℝ] ℝ)) (Y i)

/-- C97: a trained polynomial surface is a function of the input, and `gradient` is the derivative of `__call__`. -/
theorem C97_poly (lib : Lib) (hl : LstsqOK lib) (w : PolyApprox) (hm : 1 ≤ m) (hN : 1 ≤ w.N) (X : Matrix (Fin M) (Fin m) ℝ)
    (f : Fin M → ℝ) (weights : Option (Fin M → ℝ)) (hM : (w.N + m).choose m ≤ M) :
    ∃ (w' : PolyApprox) (F : (Fin m → ℝ) → ℝ), (fit lib X f weights).run w = (.ok (), w') ∧ IsSurface m w'.predict F := by
  obtain ⟨w', P, hrun, hdeg, hN', -, -, hpred, -⟩ := fit_ok lib hl w hm hN X f weights hM
  refine ⟨w', fun x => eval x P, hrun, fun M' Y => ⟨Matrix.of fun i k => eval (Y i) (pderiv k P), ?_, ?_, fun i => ?_⟩⟩
  · unfold surfaceCall
    rw [(hpred M' Y).1]
    rfl
  · unfold surfaceGradient
    rw [(hpred M' Y).2]
    rfl
  · exact hasFDerivAt_eval P (Y i)

/-- C97: a radial basis surface whose training completed is a function of the input, and `gradient` is the derivative of
`__call__`. -/
theorem C97_rbf (lib : Lib) (w w' : RBF) (hm : 1 ≤ m) (X : Matrix (Fin M) (Fin m) ℝ) (f : Fin M → ℝ) (v e : Option NpVec)
    (h : (rfit lib X f v e).run w = (.ok (), w')) : ∃ F : (Fin m → ℝ) → ℝ, IsSurface m w'.predict F := by
  obtain ⟨t, g, hg, hfit, hN, hX, -, -, -, hell, hr, hc⟩ := rfit_ok lib w w' X f v e h
  obtain ⟨q0, hq0, hq, hK, hI, -⟩ := rbfFit_spec hfit
  obtain ⟨I', hI', -, -, -, hlen⟩ := C25_enumerates w.N m hm
  obtain rfl := Except.ok.inj (hI'.symm.trans hI)
  obtain ⟨P, -, hP⟩ := C32_gradient w' hm X t.q.ell t.radial (NpVec.of t.poly) hX hell hr hc (by rw [hN]; exact hlen)
  refine ⟨fun x => ∑ j, t.radial j * Real.exp (-∑ k, (x k - X j k) ^ 2 / t.q.ell k) + MvPolynomial.eval x P, fun M' Y => ?_⟩
  obtain ⟨df, h1, h2, h3⟩ := hP M' Y
  refine ⟨df, ?_, ?_, h3⟩
  · unfold surfaceCall
    rw [h1]
    rfl
  · unfold surfaceGradient
    rw [h2]
    rfl

/-- C97: before training `__call__` and `gradient` raise, in the base class `NotImplementedError`. -/
theorem C97_untrained (N : ℕ) (hm : 1 ≤ m) (Y : Matrix (Fin M) (Fin m) ℝ) :
    surfaceCall (PolyApprox.predict { N := N }) (.mat (NpMat.of Y)) = .error .typeError ∧
    surfaceGradient (PolyApprox.predict { N := N }) (.mat (NpMat.of Y)) = .error .typeError ∧
    surfaceCall (RBF.predict { N := N }) (.mat (NpMat.of Y)) = .error .attributeError ∧
    surfaceGradient (RBF.predict { N := N }) (.mat (NpMat.of Y)) = .error .attributeError ∧
    surfaceCall basePredict (.mat (NpMat.of Y)) = .error .notImplementedError ∧
    surfaceGradient basePredict (.mat (NpMat.of Y)) = .error .notImplementedError := by
  refine ⟨?_, ?_, rfl, rfl, rfl, rfl⟩
  · unfold surfaceCall
    rw [C26_untrained { N := N } rfl hm Y false]
    rfl
  · unfold surfaceGradient
    rw [C26_untrained { N := N } rfl hm Y true]
    rfl

/-- A trained line is a surface. -/
example (lib : Lib) (hl : LstsqOK lib) : ∃ (w' : PolyApprox) (F : (Fin 1 → ℝ) → ℝ),
    (fit lib (Matrix.of ![![0], ![1]] : Matrix (Fin 2) (Fin 1) ℝ) ![3, 5] none).run { N := 1 } = (.ok (), w') ∧ IsSurface 1 w'.predict F :=
  C97_poly lib hl { N := 1 } le_rfl le_rfl _ _ _ (by decide)

/-- A radial basis surface trained on two points is a surface. -/
example (lib : Lib) (hch : CholeskyOK lib) (hfm : FminboundOK lib) (f : Fin 2 → ℝ) : ∃ (w' : RBF) (F : (Fin 1 → ℝ) → ℝ),
    (rfit lib (Matrix.of ![![0], ![1]] : Matrix (Fin 2) (Fin 1) ℝ) f none none).run { N := 1 } = (.ok (), w') ∧ IsSurface 1 w'.predict F := by
  obtain ⟨w', hw'⟩ := C69_train_partial lib hch hfm { N := 1 } le_rfl (Matrix.of ![![0], ![1]] : Matrix (Fin 2) (Fin 1) ℝ) unisolvent_line f none none
    (fun u hu => by cases hu) (fun u hu => by cases hu) (Or.inr (Or.inl ⟨rfl, rfl⟩))
  obtain ⟨F, hF⟩ := C97_rbf lib _ w' le_rfl _ f none none hw'
  exact ⟨w', F, hw', hF⟩

end Props
