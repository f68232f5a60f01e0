import Verif.Model.ActiveSurfaces
import Verif.Props.Maps
import Verif.Props.PolyApprox
import Verif.Props.RBF

/-!
# Property C55: response surfaces on the active variables
-/

open Py Model.Misc Model.Subspaces Model.Domains Model.ResponseSurfaces Model.ActiveSurfaces

namespace Props

variable {R : Type} {M m n k : ℕ} {s : Subspaces} {V1 : Matrix (Fin m) (Fin n) ℝ} {V2 : Matrix (Fin m) (Fin k) ℝ}

theorem forward_mul (h1 : s.W1 = some (NpMat.of V1)) (h2 : s.W2 = some (NpMat.of V2)) (X : Matrix (Fin M) (Fin m) ℝ) :
    forward s (.mat (NpMat.of X)) = .ok (NpMat.of (X * V1), NpMat.of (X * V2)) := by
  unfold forward
  rw [h1, h2]
  simp only [process_inputs, bind, Except.bind, dot_of]
  rfl

/-- C55: the prediction (values and gradients, or the exception) depends on the points only through `X W1`. -/
theorem C55_ridge (h1 : s.W1 = some (NpMat.of V1)) (h2 : s.W2 = some (NpMat.of V2)) (surf : Surface R) (r : R)
    (X X' : Matrix (Fin M) (Fin m) ℝ) (hX : X * V1 = X' * V1) (b : Bool) :
    predict surf r s (.mat (NpMat.of X)) b = predict surf r s (.mat (NpMat.of X')) b ∧
    call surf r s (.mat (NpMat.of X)) = call surf r s (.mat (NpMat.of X')) ∧
    gradient surf r s (.mat (NpMat.of X)) = gradient surf r s (.mat (NpMat.of X')) := by
  have key : ∀ b, predict surf r s (.mat (NpMat.of X)) b = predict surf r s (.mat (NpMat.of X')) b := by
    intro b
    unfold predict
    rw [forward_mul h1 h2, forward_mul h1 h2, hX]
    rfl
  refine ⟨key b, ?_, ?_⟩
  · unfold call
    rw [key]
  · unfold gradient
    rw [key]

/-- C55: moving the points along the inactive directions changes nothing. -/
theorem C55_inactive {V1 : Matrix (Fin (n + k)) (Fin n) ℝ} {V2 : Matrix (Fin (n + k)) (Fin k) ℝ} (h : Split s V1 V2)
    (surf : Surface R) (r : R) (X : Matrix (Fin M) (Fin (n + k)) ℝ) (Z : Matrix (Fin M) (Fin k) ℝ) (b : Bool) :
    predict surf r s (.mat (NpMat.of (X + Z * V2.transpose))) b = predict surf r s (.mat (NpMat.of X)) b := by
  refine (C55_ridge h.w1 h.w2 surf r _ _ ?_ b).1
  have h0 : V2.transpose * V1 = 0 := by
    ext i j
    rw [Matrix.mul_apply]
    simp only [Matrix.transpose_apply, Matrix.zero_apply]
    rw [← h.orth12 j i]
    exact Finset.sum_congr rfl fun _ _ => mul_comm _ _
  rw [Matrix.add_mul, Matrix.mul_assoc, h0, Matrix.mul_zero, add_zero]

/-- The surface `r` evaluates the function `g` and its gradient. -/
def Evaluates (surf : Surface R) (r : R) (g : (Fin n → ℝ) → ℝ) : Prop :=
  ∀ (M : ℕ) (Y : Matrix (Fin M) (Fin n) ℝ), ∃ df : Matrix (Fin M) (Fin n) ℝ,
    surf.predict r (.mat (NpMat.of Y)) false = .ok (NpVec.of fun i => g (Y i), none) ∧
    surf.predict r (.mat (NpMat.of Y)) true = .ok (NpVec.of fun i => g (Y i), some (NpMat.of df)) ∧
    ∀ i, HasFDerivAt g (∑ j, df i j • (ContinuousLinearMap.proj j : (Fin n → ℝ) →L[ℝ] ℝ)) (Y i)

/-- C55: the surface on the full space evaluates the ridge function `x ↦ g (W1ᵀ x)`, and the gradient returned is its exact
gradient. -/
theorem C55_chain_rule (h1 : s.W1 = some (NpMat.of V1)) (h2 : s.W2 = some (NpMat.of V2)) (surf : Surface R) (r : R)
    (g : (Fin n → ℝ) → ℝ) (hg : Evaluates surf r g) (X : Matrix (Fin M) (Fin m) ℝ) :
    ∃ dfx : Matrix (Fin M) (Fin m) ℝ,
      call surf r s (.mat (NpMat.of X)) = .ok (NpVec.of fun i => g fun j => ∑ l, X i l * V1 l j) ∧
      predict surf r s (.mat (NpMat.of X)) false = .ok (NpVec.of fun i => g fun j => ∑ l, X i l * V1 l j, none) ∧
      predict surf r s (.mat (NpMat.of X)) true = .ok (NpVec.of fun i => g fun j => ∑ l, X i l * V1 l j, some (NpMat.of dfx)) ∧
      gradient surf r s (.mat (NpMat.of X)) = .ok (some (NpMat.of dfx)) ∧
      ∀ i, HasFDerivAt (fun x : Fin m → ℝ => g fun j => ∑ l, x l * V1 l j)
        (∑ l, dfx i l • (ContinuousLinearMap.proj l : (Fin m → ℝ) →L[ℝ] ℝ)) (X i) := by
  obtain ⟨df, e1, e2, e3⟩ := hg M (X * V1)
  have hrow : ∀ i, (X * V1) i = fun j => ∑ l, X i l * V1 l j := fun i => funext fun j => Matrix.mul_apply
  simp only [hrow] at e1 e2 e3
  have p1 : predict surf r s (.mat (NpMat.of X)) false = .ok (NpVec.of fun i => g fun j => ∑ l, X i l * V1 l j, none) := by
    unfold predict predict_av
    rw [forward_mul h1 h2]
    simp only [bind, Except.bind, e1]
    rfl
  have p2 : predict surf r s (.mat (NpMat.of X)) true
      = .ok (NpVec.of fun i => g fun j => ∑ l, X i l * V1 l j, some (NpMat.of (df * V1.transpose))) := by
    unfold predict predict_av
    rw [forward_mul h1 h2, h1]
    simp only [bind, Except.bind, e2, if_true, NpMat.transpose_of, dot_of]
    rfl
  refine ⟨df * V1.transpose, ?_, p1, p2, ?_, fun i => ?_⟩
  · unfold call
    rw [p1]
    rfl
  · unfold gradient
    rw [p2]
    rfl
  · let A : (Fin m → ℝ) →L[ℝ] (Fin n → ℝ) :=
      ContinuousLinearMap.pi fun j => ∑ l, V1 l j • (ContinuousLinearMap.proj l : (Fin m → ℝ) →L[ℝ] ℝ)
    have hA : ∀ x : Fin m → ℝ, A x = fun j => ∑ l, x l * V1 l j := by
      intro x
      funext j
      simp [A, mul_comm]
    have h3 := e3 i
    rw [← hA] at h3
    have h4 := h3.comp (X i) A.hasFDerivAt
    have e5 : (g ∘ A) = fun x : Fin m → ℝ => g fun j => ∑ l, x l * V1 l j := funext fun x => congrArg g (hA x)
    rw [e5] at h4
    refine h4.congr_fderiv ?_
    ext x
    simp only [ContinuousLinearMap.comp_apply, hA, ContinuousLinearMap.sum_apply, ContinuousLinearMap.smul_apply,
      ContinuousLinearMap.proj_apply, smul_eq_mul, Matrix.mul_apply, Matrix.transpose_apply, Finset.mul_sum, Finset.sum_mul]
    rw [Finset.sum_comm]
    exact Finset.sum_congr rfl fun l _ => Finset.sum_congr rfl fun j _ => by ring

/-- C55: at points in the active variables the surface evaluates `g`, and `gradient_av` is its exact gradient. -/
theorem C55_active (surf : Surface R) (r : R) (g : (Fin n → ℝ) → ℝ) (hg : Evaluates surf r g) (Y : Matrix (Fin M) (Fin n) ℝ) :
    ∃ dfy : Matrix (Fin M) (Fin n) ℝ,
      predict_av surf r (.mat (NpMat.of Y)) false = .ok (NpVec.of fun i => g (Y i), none) ∧
      predict_av surf r (.mat (NpMat.of Y)) true = .ok (NpVec.of fun i => g (Y i), some (NpMat.of dfy)) ∧
      gradient_av surf r (.mat (NpMat.of Y)) = .ok (some (NpMat.of dfy)) ∧
      ∀ i, HasFDerivAt g (∑ j, dfy i j • (ContinuousLinearMap.proj j : (Fin n → ℝ) →L[ℝ] ℝ)) (Y i) := by
  obtain ⟨df, e1, e2, e3⟩ := hg M Y
  refine ⟨df, e1, e2, ?_, e3⟩
  unfold gradient_av
  rw [e2]
  rfl

/-- C55: a polynomial surface evaluates a combination of the monomials of degree at most `N`. -/
theorem C55_poly (lib : Model.ResponseSurfaces.Lib) (N : ℕ) (hn : 1 ≤ n) :
    ∃ e : Fin ((N + n).choose n) → (Fin n → ℕ), Function.Injective e ∧ Set.range e = {α | ∑ k, α k ≤ N} ∧
      ∀ (c : Fin ((N + n).choose n) → ℝ) (p : PolyApprox), p.N = N → p.poly_weights = some (NpVec.of c) →
        Evaluates (polySurface lib) p fun y : Fin n → ℝ => ∑ j, c j * ∏ k, y k ^ e j k := by
  obtain ⟨e, h1, h2, h⟩ := C26_predict N n hn
  exact ⟨e, h1, h2, fun c p hp hc => h c p hp hc⟩

/-- C55: a radial basis surface evaluates radial functions plus a polynomial of degree at most `N`. -/
theorem C55_rbf (lib : Model.ResponseSurfaces.Lib) (hn : 1 ≤ n) (p : RBF) (X0 : Matrix (Fin M) (Fin n) ℝ) (ell : Fin n → ℝ)
    (radial : Fin M → ℝ) (c : NpVec) (hX : p.X = some (NpMat.of X0)) (hell : p.ell = some (NpVec.of ell))
    (hr : p.radial_weights = some (NpVec.of radial)) (hc : p.poly_weights = some c) (hcn : c.n = (p.N + n).choose n) :
    ∃ P : MvPolynomial (Fin n) ℝ, P.totalDegree ≤ p.N ∧ Evaluates (rbfSurface lib) p fun y : Fin n → ℝ =>
      ∑ j, radial j * Real.exp (-∑ k, (y k - X0 j k) ^ 2 / ell k) + MvPolynomial.eval y P := by
  obtain ⟨P, h1, h⟩ := C32_gradient p hn X0 ell radial c hX hell hr hc hcn
  exact ⟨P, h1, h⟩

/-- C55: an object that is not an `ActiveVariableMap` is rejected; a missing surface is replaced by the default. -/
theorem C55_init {S E α : Type} (a : AVMap S E) (r d : α) : init (none : Option (AVMap S E)) (some r) d = .error .typeError ∧
    init (none : Option (AVMap S E)) none d = .error .typeError ∧
    init (some a) (some r) d = .ok (a, r) ∧ init (some a) none d = .ok (a, d) := ⟨rfl, rfl, rfl, rfl⟩

/-- C55: non-trivial cases: the line `3 + 2 y` on the first of two variables (the surface is the function itself). -/
example : ∃ (s : Subspaces) (V1 V2 : Matrix (Fin (1 + 1)) (Fin 1) ℝ) (surf : Surface Unit),
    Split s V1 V2 ∧ Evaluates surf () fun y : Fin 1 → ℝ => 3 + 2 * y 0 := by
  let V1 : Matrix (Fin (1 + 1)) (Fin 1) ℝ := Matrix.of fun i _ => if i = 0 then 1 else 0
  let V2 : Matrix (Fin (1 + 1)) (Fin 1) ℝ := Matrix.of fun i _ => if i = 1 then 1 else 0
  let surf : Surface Unit := ⟨false, fun _ _ _ _ => pure (), fun _ Y b => match Y with
    | .mat A => .ok (NpVec.of fun i : Fin A.rows => 3 + 2 * A.get i 0, if b then some (NpMat.of (Matrix.of fun (_ : Fin A.rows) (_ : Fin 1) => 2)) else none)
    | _ => .error .valueError⟩
  refine ⟨⟨none, some (NpMat.of (Np.hstack V1 V2)), some (NpMat.of V1), some (NpMat.of V2), none, none⟩, V1, V2, surf,
    ⟨rfl, rfl, rfl, ?_⟩, fun M Y => ⟨Matrix.of fun _ _ => 2, ?_, ?_, fun i => ?_⟩⟩
  · ext i j
    rw [Matrix.mul_apply, Fin.sum_univ_add]
    revert i j
    refine Fin.forall_fin_two.mpr ⟨Fin.forall_fin_two.mpr ⟨?_, ?_⟩, Fin.forall_fin_two.mpr ⟨?_, ?_⟩⟩ <;>
      simp [Np.hstack, V1, V2, Matrix.one_apply, Fin.append, Fin.addCases]
  · have : ∀ i : Fin M, (NpMat.of Y).get i 0 = Y i 0 := fun i => NpMat.get_of Y i 0
    simp only [surf, NpMat.of_rows, this]
    rfl
  · have : ∀ i : Fin M, (NpMat.of Y).get i 0 = Y i 0 := fun i => NpMat.get_of Y i 0
    simp only [surf, NpMat.of_rows, this]
    rfl
  · have h1 := ((ContinuousLinearMap.proj 0 : (Fin 1 → ℝ) →L[ℝ] ℝ).hasFDerivAt (x := Y i)).const_mul 2 |>.const_add 3
    refine h1.congr_fderiv ?_
    ext x
    simp

end Props
