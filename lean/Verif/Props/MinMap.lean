import Mathlib.Analysis.Calculus.Deriv.Pow
import Verif.Model.Optimizers
import Verif.Props.Maps
import Verif.Props.PolyApprox

/-!
# Property C64: the quadratic behind `MinVariableMap`
-/

open Py Model.Optimizers Model.ResponseSurfaces Model.Subspaces MvPolynomial Proofs.PolyTrain
open scoped Matrix

namespace Props

variable {n k M q : ℕ} {s : Subspaces} {V1 : Matrix (Fin (n + k)) (Fin n) ℝ} {V2 : Matrix (Fin (n + k)) (Fin k) ℝ}

/-- The first `q` eigenvectors. -/
def leading (V1 : Matrix (Fin (n + k)) (Fin n) ℝ) (V2 : Matrix (Fin (n + k)) (Fin k) ℝ) (h : q ≤ n + k) :
    Matrix (Fin (n + k)) (Fin q) ℝ := Matrix.of fun i j => Np.hstack V1 V2 i (Fin.castLE h j)

/-- The quadratic `P` in the first `q` variables as a function of active and inactive variables. -/
noncomputable def surrogate (V1 : Matrix (Fin (n + k)) (Fin n) ℝ) (V2 : Matrix (Fin (n + k)) (Fin k) ℝ) (h : q ≤ n + k)
    (P : MvPolynomial (Fin q) ℝ) (y : Fin n → ℝ) (z : Fin k → ℝ) : ℝ :=
  eval ((leading V1 V2 h)ᵀ *ᵥ (V1 *ᵥ y + V2 *ᵥ z)) P

/-- `P` is a quadratic of best fit to the data in the first `q` variables. -/
def BestQuadratic (V1 : Matrix (Fin (n + k)) (Fin n) ℝ) (V2 : Matrix (Fin (n + k)) (Fin k) ℝ) (h : q ≤ n + k)
    (X : Matrix (Fin M) (Fin (n + k)) ℝ) (f : Fin M → ℝ) (P : MvPolynomial (Fin q) ℝ) : Prop :=
  P.totalDegree ≤ 2 ∧ ∀ Q : MvPolynomial (Fin q) ℝ, Q.totalDegree ≤ 2 →
    ∑ i, (eval ((leading V1 V2 h)ᵀ *ᵥ X i) P - f i) ^ 2 ≤ ∑ i, (eval ((leading V1 V2 h)ᵀ *ᵥ X i) Q - f i) ^ 2

/-- The data stored by `train` for a quadratic with gradient `g` and Hessian `H` at the origin. -/
noncomputable def blocks (V1 : Matrix (Fin (n + k)) (Fin n) ℝ) (V2 : Matrix (Fin (n + k)) (Fin k) ℝ) (h : q ≤ n + k)
    (g : Fin q → ℝ) (H : Matrix (Fin q) (Fin q) ℝ) : (Fin k → ℝ) × Matrix (Fin k) (Fin n) ℝ × Matrix (Fin k) (Fin k) ℝ :=
  let U := leading V1 V2 h
  (V2ᵀ *ᵥ (U *ᵥ g), V2ᵀ * (U * (H * Uᵀ) * V1), V2ᵀ * (U * (H * Uᵀ) * V2) + (0.01 : ℝ) • 1)

theorem surrogateDim_eq (n k : ℕ) : surrogateDim (n + k) n = if 2 < k then n + 2 else n + 1 := by
  unfold surrogateDim
  by_cases h : 2 < k
  · rw [if_pos h, if_pos (by push_cast; omega)]
  · rw [if_neg h, if_neg (by push_cast; omega)]

theorem colMat_mul {a b : ℕ} (A : Matrix (Fin a) (Fin b) ℝ) (v : Fin b → ℝ) : A * colMat v = colMat (A *ᵥ v) := rfl

theorem quadFit_ok (lib : Model.ResponseSurfaces.Lib) (hl : LstsqOK lib) (hq : 1 ≤ q) (Yp : Matrix (Fin M) (Fin q) ℝ) (f : Fin M → ℝ)
    (hM : (2 + q).choose q ≤ M) : ∃ P : MvPolynomial (Fin q) ℝ, P.totalDegree ≤ 2 ∧
      quadFit lib (NpMat.of Yp) (NpMat.of (colMat f)) = .ok (NpMat.of (colMat fun j => eval 0 (pderiv j P)),
        NpMat.of (Matrix.of fun j l => eval 0 (pderiv j (pderiv l P)))) ∧
      ∀ Q : MvPolynomial (Fin q) ℝ, Q.totalDegree ≤ 2 →
        ∑ i, (eval (Yp i) P - f i) ^ 2 ≤ ∑ i, (eval (Yp i) Q - f i) ^ 2 := by
  obtain ⟨w', P, hrun, hdeg, -, -, -, -, hg, hH, hmin, -⟩ := fit_ok lib hl { N := 2 } hq (by norm_num) Yp f none hM
  refine ⟨P, hdeg, ?_, fun Q hQ => by simpa using hmin Q hQ⟩
  have hrun' : (PolyApprox.train lib (.mat (NpMat.of Yp)) (.mat (NpMat.of (colMat f))) none).run { N := 2 } = (.ok (), w') := hrun
  unfold quadFit
  rw [hrun']
  dsimp only
  rw [hg, hH (by norm_num)]
  rfl

theorem train_ok (hs : Split s V1 V2) (lib : Model.ResponseSurfaces.Lib) (X : Matrix (Fin M) (Fin (n + k)) ℝ) (f : Fin M → ℝ)
    (hq : q = min (if 2 < k then n + 2 else n + 1) (n + k)) (h : q ≤ n + k) {g : Fin q → ℝ} {H : Matrix (Fin q) (Fin q) ℝ}
    (hfit : quadFit lib (NpMat.of (X * leading V1 V2 h)) (NpMat.of (colMat f)) = .ok (NpMat.of (colMat g), NpMat.of H)) :
    Model.Optimizers.train lib s (.mat (NpMat.of X)) (.mat (NpMat.of (colMat f))) =
      .ok ⟨NpMat.of (colMat (blocks V1 V2 h g H).1), NpMat.of (blocks V1 V2 h g H).2.1, NpMat.of (blocks V1 V2 h g H).2.2⟩ := by
  have hW : (NpMat.of (Np.hstack V1 V2)).takeCols (surrogateDim (NpMat.of V1).rows (NpMat.of V1).cols)
      = NpMat.of (leading V1 V2 h) := by
    change (NpMat.of (Np.hstack V1 V2)).takeCols (surrogateDim (n + k) n) = _
    rw [surrogateDim_eq]
    subst hq
    rfl
  have hone : NpMat.of ((0.01 : ℝ) • (1 : Matrix (Fin ((NpMat.of V1).rows - (NpMat.of V1).cols))
      (Fin ((NpMat.of V1).rows - (NpMat.of V1).cols)) ℝ)) = NpMat.of ((0.01 : ℝ) • (1 : Matrix (Fin k) (Fin k) ℝ)) := by
    have : ∀ j, j = k → NpMat.of ((0.01 : ℝ) • (1 : Matrix (Fin j) (Fin j) ℝ))
      = NpMat.of ((0.01 : ℝ) • (1 : Matrix (Fin k) (Fin k) ℝ)) := by rintro _ rfl; rfl
    exact this _ (Nat.add_sub_cancel_left n k)
  have hp : Model.Misc.process_inputs_outputs (.mat (NpMat.of X)) (.mat (NpMat.of (colMat f))) = .ok ⟨NpMat.of X, NpMat.of (colMat f)⟩ := by
    simp [Model.Misc.process_inputs_outputs, Model.Misc.process_inputs, NpMat.of]
  unfold Model.Optimizers.train
  rw [hp, hs.w1, hs.eig, hs.w2]
  simp only [bind, Except.bind]
  have t1 : ∀ {a b : ℕ} (A : Matrix (Fin a) (Fin b) ℝ), (NpMat.of A).transpose = NpMat.of Aᵀ := fun _ => rfl
  simp only [hW, dot_of, hfit, t1, colMat_mul, hone, NpMat.zipB_same]
  rfl

theorem transpose_dot {a b : ℕ} (A : Matrix (Fin a) (Fin b) ℝ) (v : Fin a → ℝ) (w : Fin b → ℝ) :
    (Aᵀ *ᵥ v) ⬝ᵥ w = v ⬝ᵥ (A *ᵥ w) := by
  rw [Matrix.mulVec_transpose, Matrix.dotProduct_mulVec]

/-- The Hessian at the origin. -/
noncomputable def hess (P : MvPolynomial (Fin q) ℝ) : Matrix (Fin q) (Fin q) ℝ := Matrix.of fun j l => eval 0 (pderiv j (pderiv l P))

/-- The gradient at the origin. -/
noncomputable def grad (P : MvPolynomial (Fin q) ℝ) : Fin q → ℝ := fun j => eval 0 (pderiv j P)

theorem hess_symm (P : MvPolynomial (Fin q) ℝ) : (hess P)ᵀ = hess P := by
  ext j l
  change eval 0 (pderiv l (pderiv j P)) = eval 0 (pderiv j (pderiv l P))
  rw [hess_zero, hess_zero, pair_comm]
  by_cases h : j = l
  · subst h; rfl
  · rw [if_neg h, if_neg (Ne.symm h)]

theorem eval_quadratic (P : MvPolynomial (Fin q) ℝ) (hP : P.totalDegree ≤ 2) (x : Fin q → ℝ) :
    eval x P = eval 0 P + grad P ⬝ᵥ x + 1 / 2 * (x ⬝ᵥ hess P *ᵥ x) := by
  rw [taylor_two P hP x]
  congr 2
  simp only [dotProduct, Matrix.mulVec, hess, Matrix.of_apply, Finset.mul_sum]
  refine Finset.sum_congr rfl fun k _ => Finset.sum_congr rfl fun l _ => ?_
  ring

theorem quad_shift (B : Matrix (Fin q) (Fin q) ℝ) (hB : Bᵀ = B) (u a : Fin q → ℝ) :
    (u + a) ⬝ᵥ B *ᵥ (u + a) = u ⬝ᵥ B *ᵥ u + 2 * ((B *ᵥ u) ⬝ᵥ a) + a ⬝ᵥ B *ᵥ a := by
  have h1 : u ⬝ᵥ B *ᵥ a = (B *ᵥ u) ⬝ᵥ a := by rw [← transpose_dot, hB]
  have h2 : a ⬝ᵥ B *ᵥ u = (B *ᵥ u) ⬝ᵥ a := dotProduct_comm _ _
  rw [Matrix.mulVec_add, dotProduct_add, add_dotProduct, add_dotProduct, h1, h2]
  ring

/-- The quadratic in the inactive variables, for fixed active ones. -/
theorem surrogate_taylor (h : q ≤ n + k) (P : MvPolynomial (Fin q) ℝ) (hP : P.totalDegree ≤ 2) (y : Fin n → ℝ) (z : Fin k → ℝ) :
    surrogate V1 V2 h P y z = surrogate V1 V2 h P y 0
      + ((blocks V1 V2 h (grad P) (hess P)).1 + (blocks V1 V2 h (grad P) (hess P)).2.1 *ᵥ y) ⬝ᵥ z
      + 1 / 2 * (z ⬝ᵥ ((blocks V1 V2 h (grad P) (hess P)).2.2 - (0.01 : ℝ) • 1) *ᵥ z) := by
  have h1 : (blocks V1 V2 h (grad P) (hess P)).1 ⬝ᵥ z = grad P ⬝ᵥ (leading V1 V2 h)ᵀ *ᵥ (V2 *ᵥ z) := by
    change (V2ᵀ *ᵥ (leading V1 V2 h *ᵥ grad P)) ⬝ᵥ z = _
    rw [transpose_dot, ← transpose_dot (leading V1 V2 h)ᵀ, Matrix.transpose_transpose]
  have h2 : ((blocks V1 V2 h (grad P) (hess P)).2.1 *ᵥ y) ⬝ᵥ z
      = (hess P *ᵥ ((leading V1 V2 h)ᵀ *ᵥ (V1 *ᵥ y))) ⬝ᵥ (leading V1 V2 h)ᵀ *ᵥ (V2 *ᵥ z) := by
    change ((V2ᵀ * (leading V1 V2 h * (hess P * (leading V1 V2 h)ᵀ) * V1)) *ᵥ y) ⬝ᵥ z = _
    simp only [← Matrix.mulVec_mulVec]
    rw [transpose_dot, ← transpose_dot (leading V1 V2 h)ᵀ, Matrix.transpose_transpose]
  have h3 : z ⬝ᵥ ((blocks V1 V2 h (grad P) (hess P)).2.2 - (0.01 : ℝ) • 1) *ᵥ z
      = ((leading V1 V2 h)ᵀ *ᵥ (V2 *ᵥ z)) ⬝ᵥ hess P *ᵥ ((leading V1 V2 h)ᵀ *ᵥ (V2 *ᵥ z)) := by
    change z ⬝ᵥ (V2ᵀ * (leading V1 V2 h * (hess P * (leading V1 V2 h)ᵀ) * V2) + (0.01 : ℝ) • 1 - (0.01 : ℝ) • 1) *ᵥ z = _
    rw [add_sub_cancel_right]
    simp only [← Matrix.mulVec_mulVec]
    have e := transpose_dot (leading V1 V2 h)ᵀ (hess P *ᵥ ((leading V1 V2 h)ᵀ *ᵥ (V2 *ᵥ z))) (V2 *ᵥ z)
    rw [Matrix.transpose_transpose] at e
    rw [dotProduct_comm, transpose_dot, e, dotProduct_comm]
  unfold surrogate
  rw [Matrix.mulVec_zero, add_zero, add_dotProduct, h1, h2, h3, Matrix.mulVec_add,
    eval_quadratic P hP ((leading V1 V2 h)ᵀ *ᵥ (V1 *ᵥ y) + _), eval_quadratic P hP ((leading V1 V2 h)ᵀ *ᵥ (V1 *ᵥ y)),
    quad_shift _ (hess_symm P), dotProduct_add]
  ring

theorem blocks_symm (h : q ≤ n + k) (P : MvPolynomial (Fin q) ℝ) :
    (blocks V1 V2 h (grad P) (hess P)).2.2ᵀ = (blocks V1 V2 h (grad P) (hess P)).2.2 := by
  change (V2ᵀ * (leading V1 V2 h * (hess P * (leading V1 V2 h)ᵀ) * V2) + (0.01 : ℝ) • 1)ᵀ = _
  simp only [Matrix.transpose_add, Matrix.transpose_mul, Matrix.transpose_transpose, hess_symm, Matrix.transpose_smul,
    Matrix.transpose_one]
  simp only [blocks, Matrix.mul_assoc]

/-- A quadratic along a line. -/
theorem hasDerivAt_line (K : ℝ) (c : Fin k → ℝ) (B : Matrix (Fin k) (Fin k) ℝ) (hB : Bᵀ = B) (z v : Fin k → ℝ) :
    HasDerivAt (fun t : ℝ => K + c ⬝ᵥ (z + t • v) + 1 / 2 * ((z + t • v) ⬝ᵥ B *ᵥ (z + t • v))) ((c + B *ᵥ z) ⬝ᵥ v) 0 := by
  have e : (fun t : ℝ => K + c ⬝ᵥ (z + t • v) + 1 / 2 * ((z + t • v) ⬝ᵥ B *ᵥ (z + t • v)))
      = fun t => (K + c ⬝ᵥ z + 1 / 2 * (z ⬝ᵥ B *ᵥ z)) + ((c + B *ᵥ z) ⬝ᵥ v) * t + (1 / 2 * (v ⬝ᵥ B *ᵥ v)) * t ^ 2 := by
    funext t
    rw [quad_shift B hB, Matrix.mulVec_smul, dotProduct_add, add_dotProduct]
    simp only [dotProduct_smul, smul_dotProduct, smul_eq_mul]
    ring
  rw [e]
  have h1 := ((hasDerivAt_id (0 : ℝ)).const_mul ((c + B *ᵥ z) ⬝ᵥ v)).const_add (K + c ⬝ᵥ z + 1 / 2 * (z ⬝ᵥ B *ᵥ z))
  have h2 := ((hasDerivAt_id (0 : ℝ)).pow 2).const_mul (1 / 2 * (v ⬝ᵥ B *ᵥ v))
  refine (h1.add h2).congr_deriv ?_
  simp

/-! ## C64 -/

/-- C64: `train` fits a quadratic by least squares to the data in the first `q` variables, `q = n + 2` when there are more
than two inactive variables and `n + 1` otherwise (there are no more than `n + k` of them).  The attributes give the gradient
with respect to the inactive variables at every point: `_bz + _zAy y + (_zAz - 0.01 I) z`; `_zAz` is symmetric. -/
theorem C64_blocks (hs : Split s V1 V2) (lib : Model.ResponseSurfaces.Lib) (hl : LstsqOK lib) (hn : 1 ≤ n)
    (X : Matrix (Fin M) (Fin (n + k)) ℝ) (f : Fin M → ℝ) (hq : q = min (if 2 < k then n + 2 else n + 1) (n + k)) (h : q ≤ n + k)
    (hM : (2 + q).choose q ≤ M) :
    ∃ (P : MvPolynomial (Fin q) ℝ) (bz : Fin k → ℝ) (zAy : Matrix (Fin k) (Fin n) ℝ) (zAz : Matrix (Fin k) (Fin k) ℝ),
      Model.Optimizers.train lib s (.mat (NpMat.of X)) (.mat (NpMat.of (colMat f)))
        = .ok ⟨NpMat.of (colMat bz), NpMat.of zAy, NpMat.of zAz⟩ ∧
      BestQuadratic V1 V2 h X f P ∧ zAzᵀ = zAz ∧
      (∀ y z, surrogate V1 V2 h P y z = surrogate V1 V2 h P y 0 + (bz + zAy *ᵥ y) ⬝ᵥ z
        + 1 / 2 * (z ⬝ᵥ (zAz - (0.01 : ℝ) • 1) *ᵥ z)) ∧
      ∀ y z v, HasDerivAt (fun t : ℝ => surrogate V1 V2 h P y (z + t • v))
        ((bz + zAy *ᵥ y + (zAz - (0.01 : ℝ) • 1) *ᵥ z) ⬝ᵥ v) 0 := by
  have hq1 : 1 ≤ q := by
    rw [hq]
    split_ifs <;> omega
  obtain ⟨P, hdeg, hfit, hmin⟩ := quadFit_ok lib hl hq1 (X * leading V1 V2 h) f hM
  refine ⟨P, _, _, _, train_ok hs lib X f hq h hfit, ⟨hdeg, fun Q hQ => ?_⟩, blocks_symm h P, surrogate_taylor h P hdeg, ?_⟩
  · have e : ∀ i, (X * leading V1 V2 h) i = (leading V1 V2 h)ᵀ *ᵥ X i := fun i => by
      rw [Matrix.mulVec_transpose]
      rfl
    have := hmin Q hQ
    simp only [e] at this
    exact this
  · intro y z v
    have hB : ((blocks V1 V2 h (grad P) (hess P)).2.2 - (0.01 : ℝ) • (1 : Matrix (Fin k) (Fin k) ℝ))ᵀ
        = (blocks V1 V2 h (grad P) (hess P)).2.2 - (0.01 : ℝ) • 1 := by
      rw [Matrix.transpose_sub, blocks_symm, Matrix.transpose_smul, Matrix.transpose_one]
    have := hasDerivAt_line (surrogate V1 V2 h P y 0) ((blocks V1 V2 h (grad P) (hess P)).1
      + (blocks V1 V2 h (grad P) (hess P)).2.1 *ᵥ y) _ hB z v
    refine this.congr_of_eventuallyEq (Filter.Eventually.of_forall fun t => ?_)
    exact surrogate_taylor h P hdeg y (z + t • v)

/-- C64: with too few points for a quadratic in `q` variables `train` raises. -/
theorem C64_too_few (hs : Split s V1 V2) (lib : Model.ResponseSurfaces.Lib) (X : Matrix (Fin M) (Fin (n + k)) ℝ) (f : Fin M → ℝ)
    (hq : q = min (if 2 < k then n + 2 else n + 1) (n + k)) (hM : M < (2 + q).choose q) :
    Model.Optimizers.train lib s (.mat (NpMat.of X)) (.mat (NpMat.of (colMat f))) = .error .exception := by
  have h : q ≤ n + k := hq ▸ min_le_right _ _
  have hW : (NpMat.of (Np.hstack V1 V2)).takeCols (surrogateDim (NpMat.of V1).rows (NpMat.of V1).cols)
      = NpMat.of (leading V1 V2 h) := by
    change (NpMat.of (Np.hstack V1 V2)).takeCols (surrogateDim (n + k) n) = _
    rw [surrogateDim_eq]
    subst hq
    rfl
  have hfit : quadFit lib (NpMat.of (X * leading V1 V2 h)) (NpMat.of (colMat f)) = .error .exception := by
    have := C27_too_few lib { N := 2 } (X * leading V1 V2 h) f none hM
    have h2 : (PolyApprox.train lib (.mat (NpMat.of (X * leading V1 V2 h))) (.mat (NpMat.of (colMat f))) none).run { N := 2 }
      = (.error .exception, { N := 2 }) := this
    unfold quadFit
    rw [h2]
  have hp : Model.Misc.process_inputs_outputs (.mat (NpMat.of X)) (.mat (NpMat.of (colMat f))) = .ok ⟨NpMat.of X, NpMat.of (colMat f)⟩ := by
    simp [Model.Misc.process_inputs_outputs, Model.Misc.process_inputs, NpMat.of]
  unfold Model.Optimizers.train
  rw [hp, hs.w1, hs.eig]
  simp only [bind, Except.bind, hW, dot_of, hfit]

/-! ## An example: six points in the plane -/

/-- Six points that determine quadratics. -/
def sixPoints : Matrix (Fin 6) (Fin 2) ℝ := !![0, 0; 1, 0; -1, 0; 0, 1; 0, -1; 1, 1]

theorem sixPoints_unisolvent : Unisolvent 2 sixPoints := by
  intro P hP h
  have e := eval_quadratic P hP
  have hsym : hess P 1 0 = hess P 0 1 := congrFun (congrFun (hess_symm P) 0) 1
  have key : ∀ a b : ℝ, eval ![a, b] P = eval 0 P + (grad P 0 * a + grad P 1 * b)
      + 1 / 2 * (a * (hess P 0 0 * a + hess P 0 1 * b) + b * (hess P 0 1 * a + hess P 1 1 * b)) := by
    intro a b
    rw [e]
    simp [dotProduct, Matrix.mulVec, Fin.sum_univ_two, hsym]
  have h0 := h 0
  have h1 := h 1
  have h2 := h 2
  have h3 := h 3
  have h4 := h 4
  have h5 := h 5
  simp only [show sixPoints 0 = ![0, 0] from rfl, show sixPoints 1 = ![1, 0] from rfl, show sixPoints 2 = ![-1, 0] from rfl,
    show sixPoints 3 = ![0, 1] from rfl, show sixPoints 4 = ![0, -1] from rfl, show sixPoints 5 = ![1, 1] from rfl, key] at h0 h1 h2 h3 h4 h5
  refine MvPolynomial.funext fun x => ?_
  have hx : x = ![x 0, x 1] := by
    funext i
    fin_cases i <;> rfl
  rw [hx, key, map_zero]
  have c0 : eval 0 P = 0 := by linarith
  have g0 : grad P 0 = 0 := by linarith
  have g1 : grad P 1 = 0 := by linarith
  have a0 : hess P 0 0 = 0 := by linarith
  have a1 : hess P 1 1 = 0 := by linarith
  have a2 : hess P 0 1 = 0 := by linarith
  rw [c0, g0, g1, a0, a1, a2]
  ring

end Props
