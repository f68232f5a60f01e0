import Mathlib.LinearAlgebra.Matrix.ToLin
import Mathlib.LinearAlgebra.Dimension.StrongRankCondition
import Verif.Proofs.PolyTrain

/-!
# Properties C26 to C30 and C68: polynomial least-squares fits
-/

open Py Model.ResponseSurfaces MvPolynomial Proofs.PolyApprox Proofs.PolyTrain Spec

namespace Props

variable {M m N : ℕ}

/-- Contract of `np.linalg.lstsq`: a least-squares solution of smallest norm. -/
def LstsqOK (lib : Lib) : Prop :=
  ∀ r c A b, IsLeastSquares A b (lib.lstsq r c A b) ∧ ∀ v, IsLeastSquares A b v → sqNorm (lib.lstsq r c A b) ≤ sqNorm v

theorem lstsqOK_exists : ∃ lib, LstsqOK lib :=
  ⟨{ lstsq := fun _ _ A b => (Proofs.LeastSquares.exists_min_norm A b).choose
     cholesky := fun _ A => .ok A
     fminbound := fun _ a _ => .ok a },
   fun _ _ A b => (Proofs.LeastSquares.exists_min_norm A b).choose_spec⟩

/-- `train` on a sample `X` with values `f`. -/
noncomputable def fit (lib : Lib) (X : Matrix (Fin M) (Fin m) ℝ) (f : Fin M → ℝ) (weights : Option (Fin M → ℝ)) :
    PyM PolyApprox Unit :=
  PolyApprox.train lib (.mat (NpMat.of X)) (.mat (NpMat.of (Matrix.of fun i (_ : Fin 1) => f i))) (weights.map NpVec.of)

/-- The sample determines polynomials of degree at most `N`. -/
def Unisolvent (N : ℕ) (X : Matrix (Fin M) (Fin m) ℝ) : Prop :=
  ∀ q : MvPolynomial (Fin m) ℝ, q.totalDegree ≤ N → (∀ i, eval (X i) q = 0) → q = 0

/-! ## C26 -/

theorem predict_coefficients (N m : ℕ) (I : List (Fin m → ℕ)) (hI : index_set N m = .ok I) (hnd : I.Nodup)
    (hmem : ∀ α, α ∈ I ↔ ∑ k, α k ≤ N) (n : ℕ) (hn : I.length = n) :
    ∃ e : Fin n → (Fin m → ℕ), Function.Injective e ∧ Set.range e = {α | ∑ k, α k ≤ N} ∧
      ∀ (c : Fin n → ℝ) (s : PolyApprox), s.N = N → s.poly_weights = some (NpVec.of c) →
      ∀ (M : ℕ) (X : Matrix (Fin M) (Fin m) ℝ), ∃ df : Matrix (Fin M) (Fin m) ℝ,
        s.predict (.mat (NpMat.of X)) false = .ok (NpVec.of fun i => ∑ j, c j * ∏ k, X i k ^ e j k, none) ∧
        s.predict (.mat (NpMat.of X)) true = .ok (NpVec.of fun i => ∑ j, c j * ∏ k, X i k ^ e j k, some (NpMat.of df)) ∧
        ∀ i, HasFDerivAt (fun x : Fin m → ℝ => ∑ j, c j * ∏ k, x k ^ e j k)
          (∑ k, df i k • (ContinuousLinearMap.proj k : (Fin m → ℝ) →L[ℝ] ℝ)) (X i) := by
  subst hn
  refine ⟨I.get, List.nodup_iff_injective_get.mp hnd, ?_, ?_⟩
  · ext α
    rw [Set.mem_setOf_eq, ← hmem α, List.mem_iff_get]
    rfl
  · intro c s hs hc M X
    subst hs
    obtain ⟨h1, h2⟩ := predict_eq s hI c hc X
    simp only [eval_fitted] at h1 h2
    refine ⟨_, h1, h2, fun i => ?_⟩
    have h := hasFDerivAt_eval (fitted I c) (X i)
    simp only [eval_fitted] at h
    exact h

/-- C26: the coefficients belong to the multi-indices of degree at most `N` (in a fixed order); `predict` returns the
values of that polynomial and, on request, its gradient. -/
theorem C26_predict (N m : ℕ) (hm : 1 ≤ m) :
    ∃ e : Fin ((N + m).choose m) → (Fin m → ℕ), Function.Injective e ∧ Set.range e = {α | ∑ k, α k ≤ N} ∧
      ∀ (c : Fin ((N + m).choose m) → ℝ) (s : PolyApprox), s.N = N → s.poly_weights = some (NpVec.of c) →
      ∀ (M : ℕ) (X : Matrix (Fin M) (Fin m) ℝ), ∃ df : Matrix (Fin M) (Fin m) ℝ,
        s.predict (.mat (NpMat.of X)) false = .ok (NpVec.of fun i => ∑ j, c j * ∏ k, X i k ^ e j k, none) ∧
        s.predict (.mat (NpMat.of X)) true = .ok (NpVec.of fun i => ∑ j, c j * ∏ k, X i k ^ e j k, some (NpMat.of df)) ∧
        ∀ i, HasFDerivAt (fun x : Fin m → ℝ => ∑ j, c j * ∏ k, x k ^ e j k)
          (∑ k, df i k • (ContinuousLinearMap.proj k : (Fin m → ℝ) →L[ℝ] ℝ)) (X i) := by
  obtain ⟨I, hI, hnd, hmem, -, hlen⟩ := C25_enumerates N m hm
  exact predict_coefficients N m I hI hnd hmem _ hlen

/-- C26: before training `predict` raises. -/
theorem C26_untrained (s : PolyApprox) (hs : s.poly_weights = none) (hm : 1 ≤ m) (X : Matrix (Fin M) (Fin m) ℝ) (b : Bool) :
    s.predict (.mat (NpMat.of X)) b = .error .typeError := by
  obtain ⟨I, hI, -⟩ := C25_enumerates s.N m hm
  have h1 : polynomial_bases X s.N = .ok ⟨I, monomials X I⟩ := by rw [polynomial_bases, hI]
  have h2 : s.predictMat X b = .error .typeError := by
    unfold PolyApprox.predictMat
    rw [h1, hs]
    rfl
  simp only [PolyApprox.predict, Model.Misc.process_inputs, NpMat.of_val]
  erw [h2]

/-! ## Training -/

/-- The state after a successful `train`: the surface is a polynomial of degree at most `N`. -/
theorem fit_ok (lib : Lib) (hl : LstsqOK lib) (w : PolyApprox) (hm : 1 ≤ m) (hN : 1 ≤ w.N) (X : Matrix (Fin M) (Fin m) ℝ)
    (f : Fin M → ℝ) (weights : Option (Fin M → ℝ)) (hM : (w.N + m).choose m ≤ M) :
    ∃ (w' : PolyApprox) (P : MvPolynomial (Fin m) ℝ), (fit lib X f weights).run w = (.ok (), w') ∧ P.totalDegree ≤ w.N ∧
      w'.N = w.N ∧ w'.X = some (NpMat.of X) ∧
      w'.f = some (NpMat.of (Matrix.of fun i (_ : Fin 1) => (weights.getD fun _ => 1) i * f i)) ∧
      (∀ (M' : ℕ) (Y : Matrix (Fin M') (Fin m) ℝ),
        w'.predict (.mat (NpMat.of Y)) false = .ok (NpVec.of fun i => eval (Y i) P, none) ∧
        w'.predict (.mat (NpMat.of Y)) true = .ok (NpVec.of fun i => eval (Y i) P,
          some (NpMat.of (Matrix.of fun i k => eval (Y i) (pderiv k P))))) ∧
      w'.g = some (NpVec.of fun k => eval 0 (pderiv k P)) ∧
      (1 < w.N → w'.H = some (NpMat.of (Matrix.of fun k l => eval 0 (pderiv k (pderiv l P))))) ∧
      (∀ q : MvPolynomial (Fin m) ℝ, q.totalDegree ≤ w.N →
        ∑ i, ((weights.getD fun _ => 1) i * (eval (X i) P - f i)) ^ 2
          ≤ ∑ i, ((weights.getD fun _ => 1) i * (eval (X i) q - f i)) ^ 2) ∧
      w'.Rsqr = some (1 - (∑ i, ((weights.getD fun _ => 1) i * (eval (X i) P - f i)) ^ 2)
        / (M * npVar fun i => (weights.getD fun _ => 1) i * f i)) := by
  obtain ⟨I, hI, hnd, hmem, hlen, w', hrun, ht⟩ := train_run lib w hm hN X f weights hM
  have hB : ∀ c : Fin I.length → ℝ, ∀ i, ((applyWeights weights (monomials X I) f).1.mulVec c
      - (applyWeights weights (monomials X I) f).2) i = (weights.getD fun _ => 1) i * (eval (X i) (fitted I c) - f i) := by
    intro c i
    have h1 := congrFun (mulVec_monomials X I c) i
    cases weights with
    | none =>
      rw [Pi.sub_apply]
      simp only [applyWeights, Option.getD_none, one_mul]
      rw [h1]
    | some v =>
      rw [Pi.sub_apply]
      simp only [applyWeights, Option.getD_some]
      rw [← h1, mul_sub]
      congr 1
      simp only [Matrix.mulVec, dotProduct, Matrix.of_apply, Finset.mul_sum, mul_assoc]
  have hf : (applyWeights weights (monomials X I) f).2 = fun i => (weights.getD fun _ => 1) i * f i := by
    cases weights with
    | none => simp [applyWeights]
    | some v => simp [applyWeights]
  have hls := (hl M I.length (applyWeights weights (monomials X I) f).1 (applyWeights weights (monomials X I) f).2).1
  generalize lib.lstsq M I.length (applyWeights weights (monomials X I) f).1 (applyWeights weights (monomials X I) f).2 = c
    at ht hls
  have hres : normSq ((applyWeights weights (monomials X I) f).1.mulVec c - (applyWeights weights (monomials X I) f).2)
      = ∑ i, ((weights.getD fun _ => 1) i * (eval (X i) (fitted I c) - f i)) ^ 2 :=
    Finset.sum_congr rfl fun i _ => by rw [hB]
  refine ⟨w', fitted I c, hrun, totalDegree_fitted I c fun α hα => (hmem α).mp hα, ht.hN, ht.hX, ?_, ?_, ht.hg, ht.hH, ?_, ?_⟩
  · rw [ht.hf, hf]; rfl
  · intro M' Y
    exact predict_eq w' (by rw [ht.hN]; exact hI) c ht.hc Y
  · intro q hq
    have h1 := eq_fitted I hnd (fun α hα => (hmem α).mpr hα) q hq
    have h2 := hls fun j => coeff (fin (I.get j)) q
    simp only [sqNorm, hB] at h2
    rw [← h1] at h2
    exact h2
  · rw [ht.hR, hres, hf]

/-! ## C27 -/

theorem card_le_of_unisolvent (hm : 1 ≤ m) (X : Matrix (Fin M) (Fin m) ℝ) (hu : Unisolvent N X) :
    (N + m).choose m ≤ M := by
  obtain ⟨I, hI, hnd, hmem, -, hlen⟩ := C25_enumerates N m hm
  rw [← hlen]
  have hinj : Function.Injective (Matrix.mulVecLin (monomials X I)) := by
    rw [← LinearMap.ker_eq_bot, LinearMap.ker_eq_bot']
    intro c hc
    rw [Matrix.mulVecLin_apply, mulVec_monomials] at hc
    have h0 := hu (fitted I c) (totalDegree_fitted I c fun α hα => (hmem α).mp hα) fun i => congrFun hc i
    funext j
    rw [← coeff_fitted I hnd c j, h0, coeff_zero]
    rfl
  have h := LinearMap.finrank_le_finrank_of_injective hinj
  rwa [Module.finrank_fin_fun, Module.finrank_fin_fun] at h

/-- C27: values of a polynomial of degree at most `N` on a unisolvent sample: the fit is that polynomial, with its exact
gradient, and R-squared is 1. -/
theorem C27_reproduces (lib : Lib) (hl : LstsqOK lib) (w : PolyApprox) (hm : 1 ≤ m) (hN : 1 ≤ w.N)
    (X : Matrix (Fin M) (Fin m) ℝ) (hu : Unisolvent w.N X) (p : MvPolynomial (Fin m) ℝ) (hp : p.totalDegree ≤ w.N) :
    ∃ w', (fit lib X (fun i => eval (X i) p) none).run w = (.ok (), w') ∧ w'.Rsqr = some 1 ∧
      ∀ (M' : ℕ) (Y : Matrix (Fin M') (Fin m) ℝ),
        w'.predict (.mat (NpMat.of Y)) false = .ok (NpVec.of fun i => eval (Y i) p, none) ∧
        w'.predict (.mat (NpMat.of Y)) true = .ok (NpVec.of fun i => eval (Y i) p,
          some (NpMat.of (Matrix.of fun i k => eval (Y i) (pderiv k p)))) := by
  obtain ⟨w', P, hrun, hdeg, -, -, -, hpred, -, -, hmin, hR⟩ :=
    fit_ok lib hl w hm hN X (fun i => eval (X i) p) none (card_le_of_unisolvent hm X hu)
  have h1 := hmin p hp
  simp only [Option.getD_none, one_mul, sub_self, ne_eq, OfNat.ofNat_ne_zero, not_false_eq_true, zero_pow,
    Finset.sum_const_zero] at h1 hR
  have h2 : ∑ i, (eval (X i) P - eval (X i) p) ^ 2 = 0 :=
    le_antisymm h1 (Finset.sum_nonneg fun i _ => sq_nonneg _)
  have h3 : ∀ i, eval (X i) (P - p) = 0 := by
    intro i
    have := (Finset.sum_eq_zero_iff_of_nonneg fun i _ => sq_nonneg _).mp h2 i (Finset.mem_univ i)
    rw [map_sub]
    exact pow_eq_zero_iff two_ne_zero |>.mp this
  have h4 : P = p := by
    have := hu (P - p) ((totalDegree_sub P p).trans (max_le hdeg hp)) h3
    exact sub_eq_zero.mp this
  subst h4
  refine ⟨w', hrun, ?_, hpred⟩
  rw [hR, h2, zero_div, sub_zero]

/-- C27: with fewer than `C(N+m, m)` samples `train` raises and changes nothing. -/
theorem C27_too_few (lib : Lib) (w : PolyApprox) (X : Matrix (Fin M) (Fin m) ℝ) (f : Fin M → ℝ) (weights : Option (Fin M → ℝ))
    (hM : M < (w.N + m).choose m) : (fit lib X f weights).run w = (.error .exception, w) := by
  have h := train_eq lib w X f weights
  unfold fit
  change (PolyApprox.train lib (.mat (NpMat.of X)) (.mat (NpMat.of (colMat f))) (weights.map NpVec.of)).run w = _
  rw [h, trainMat, if_pos hM]
  rfl

/-! ## C28 -/

/-- C28: `g` and `H` are the gradient and the (symmetric) Hessian at the origin of the polynomial that `predict`
evaluates; for degree 2 they determine it up to the constant. -/
theorem C28_gradient_hessian (lib : Lib) (hl : LstsqOK lib) (w : PolyApprox) (hm : 1 ≤ m) (hN : 1 ≤ w.N)
    (X : Matrix (Fin M) (Fin m) ℝ) (f : Fin M → ℝ) (weights : Option (Fin M → ℝ)) (hM : (w.N + m).choose m ≤ M) :
    ∃ (w' : PolyApprox) (P : MvPolynomial (Fin m) ℝ) (g : Fin m → ℝ) (H : Matrix (Fin m) (Fin m) ℝ),
      (fit lib X f weights).run w = (.ok (), w') ∧
      (∀ (M' : ℕ) (Y : Matrix (Fin M') (Fin m) ℝ),
        w'.predict (.mat (NpMat.of Y)) false = .ok (NpVec.of fun i => eval (Y i) P, none)) ∧
      w'.g = some (NpVec.of g) ∧ (2 ≤ w.N → w'.H = some (NpMat.of H)) ∧
      (∀ k, g k = eval 0 (pderiv k P)) ∧ (∀ k l, H k l = eval 0 (pderiv k (pderiv l P))) ∧ H.transpose = H ∧
      (w.N = 2 → ∀ x, eval x P = eval 0 P + g ⬝ᵥ x + 1 / 2 * (x ⬝ᵥ H.mulVec x)) := by
  obtain ⟨w', P, hrun, hdeg, -, -, -, hpred, hg, hH, -, -⟩ := fit_ok lib hl w hm hN X f weights hM
  refine ⟨w', P, _, _, hrun, fun M' Y => (hpred M' Y).1, hg, fun h => hH h, fun _ => rfl, fun _ _ => rfl, ?_, ?_⟩
  · ext k l
    rw [Matrix.transpose_apply, Matrix.of_apply, Matrix.of_apply, hess_zero, hess_zero, pair_comm]
    by_cases h : k = l
    · subst h; rfl
    · rw [if_neg h, if_neg (Ne.symm h)]
  · intro h2 x
    rw [taylor_two P (h2 ▸ hdeg) x]
    congr 2
    simp only [dotProduct, Matrix.mulVec, Matrix.of_apply, Finset.mul_sum]
    refine Finset.sum_congr rfl fun k _ => Finset.sum_congr rfl fun l _ => ?_
    ring

/-! ## C29 -/

/-- C29: for data that are not constant R-squared lies in `[0, 1]` and is 1 exactly when the fit interpolates. -/
theorem C29_rsquared (lib : Lib) (hl : LstsqOK lib) (w : PolyApprox) (hm : 1 ≤ m) (hN : 1 ≤ w.N)
    (X : Matrix (Fin M) (Fin m) ℝ) (f : Fin M → ℝ) (hM : (w.N + m).choose m ≤ M) (hf : ∃ i j, f i ≠ f j) :
    ∃ (w' : PolyApprox) (r : ℝ), (fit lib X f none).run w = (.ok (), w') ∧ w'.Rsqr = some r ∧ 0 ≤ r ∧ r ≤ 1 ∧
      (r = 1 ↔ w'.predict (.mat (NpMat.of X)) false = .ok (NpVec.of f, none)) := by
  obtain ⟨w', P, hrun, hdeg, -, -, -, hpred, -, -, hmin, hR⟩ := fit_ok lib hl w hm hN X f none hM
  simp only [Option.getD_none, one_mul] at hmin hR
  have hM0 : (M : ℝ) ≠ 0 := by
    obtain ⟨i, -⟩ := hf
    have := i.pos
    exact_mod_cast this.ne'
  have hvar : M * npVar f = ∑ i, (f i - (∑ j, f j) / M) ^ 2 := by
    rw [npVar, mul_div_cancel₀ _ hM0]
  have hpos : 0 < ∑ i, (f i - (∑ j, f j) / M) ^ 2 := by
    refine lt_of_le_of_ne (Finset.sum_nonneg fun i _ => sq_nonneg _) fun h => ?_
    obtain ⟨i, j, hij⟩ := hf
    have h1 := fun i => (Finset.sum_eq_zero_iff_of_nonneg fun i _ => sq_nonneg _).mp h.symm i (Finset.mem_univ i)
    have h2 : ∀ i, f i = (∑ j, f j) / M := fun i => sub_eq_zero.mp (pow_eq_zero_iff two_ne_zero |>.mp (h1 i))
    exact hij ((h2 i).trans (h2 j).symm)
  have hle : ∑ i, (eval (X i) P - f i) ^ 2 ≤ ∑ i, (f i - (∑ j, f j) / M) ^ 2 := by
    have := hmin (C ((∑ j, f j) / M)) (by rw [totalDegree_C]; omega)
    simp only [eval_C] at this
    refine this.trans (le_of_eq (Finset.sum_congr rfl fun i _ => ?_))
    ring
  have h0 : 0 ≤ ∑ i, (eval (X i) P - f i) ^ 2 := Finset.sum_nonneg fun i _ => sq_nonneg _
  refine ⟨w', _, hrun, hR, ?_, ?_, ?_⟩
  · rw [hvar, sub_nonneg, div_le_one hpos]
    exact hle
  · rw [hvar]
    have := div_nonneg h0 hpos.le
    linarith
  · rw [hvar, sub_eq_self, div_eq_zero_iff, or_iff_left hpos.ne', (hpred M X).1]
    constructor
    · intro h
      have h1 := fun i => (Finset.sum_eq_zero_iff_of_nonneg fun i _ => sq_nonneg _).mp h i (Finset.mem_univ i)
      have h2 : (fun i => eval (X i) P) = f :=
        funext fun i => sub_eq_zero.mp (pow_eq_zero_iff two_ne_zero |>.mp (h1 i))
      rw [h2]
    · intro h
      have h1 := congrArg Prod.fst (Except.ok.inj h)
      have h2 : (fun i => eval (X i) P) = f := by
        have := NpVec.mk.inj h1
        exact eq_of_heq this.2
      refine Finset.sum_eq_zero fun i _ => ?_
      rw [congrFun h2 i, sub_self]
      norm_num

/-! ## C30 -/

/-- C30, the part that holds: the fit minimises the sum of `(weights_i * residual_i)^2` (not of
`weights_i * residual_i^2`), and the stored data are `weights_i * f_i` (not `f_i`). -/
theorem C30_weighted_partial (lib : Lib) (hl : LstsqOK lib) (w : PolyApprox) (hm : 1 ≤ m) (hN : 1 ≤ w.N)
    (X : Matrix (Fin M) (Fin m) ℝ) (f v : Fin M → ℝ) (hM : (w.N + m).choose m ≤ M) :
    ∃ (w' : PolyApprox) (P : MvPolynomial (Fin m) ℝ), (fit lib X f (some v)).run w = (.ok (), w') ∧ P.totalDegree ≤ w.N ∧
      (∀ (M' : ℕ) (Y : Matrix (Fin M') (Fin m) ℝ),
        w'.predict (.mat (NpMat.of Y)) false = .ok (NpVec.of fun i => eval (Y i) P, none)) ∧
      (∀ q : MvPolynomial (Fin m) ℝ, q.totalDegree ≤ w.N →
        ∑ i, v i ^ 2 * (eval (X i) P - f i) ^ 2 ≤ ∑ i, v i ^ 2 * (eval (X i) q - f i) ^ 2) ∧
      w'.f = some (NpMat.of (Matrix.of fun i (_ : Fin 1) => v i * f i)) := by
  obtain ⟨w', P, hrun, hdeg, -, -, hf, hpred, -, -, hmin, -⟩ := fit_ok lib hl w hm hN X f (some v) hM
  refine ⟨w', P, hrun, hdeg, fun M' Y => (hpred M' Y).1, fun q hq => ?_, hf⟩
  have := hmin q hq
  simp only [Option.getD_some, mul_pow] at this
  exact this

/-- C30 fails: a line through three weighted values, two at the same point. -/
theorem C30_fails (lib : Lib) (hl : LstsqOK lib) : ∃ (w' : PolyApprox) (P : MvPolynomial (Fin 1) ℝ),
    (fit lib (Matrix.of ![![0], ![0], ![1]]) ![0, 1, 0] (some ![1, 2, 1])).run { N := 1 } = (.ok (), w') ∧
      w'.predict (.mat (NpMat.of (Matrix.of ![![0], ![0], ![1]]))) false
        = .ok (NpVec.of fun i => eval ((Matrix.of ![![0], ![0], ![1]] : Matrix (Fin 3) (Fin 1) ℝ) i) P, none) ∧
      (∃ q : MvPolynomial (Fin 1) ℝ, q.totalDegree ≤ 1 ∧
        ∑ i, (![1, 2, 1] : Fin 3 → ℝ) i * (eval (Matrix.of ![![0], ![0], ![1]] i) q - ![0, 1, 0] i) ^ 2
          < ∑ i, (![1, 2, 1] : Fin 3 → ℝ) i * (eval (Matrix.of ![![0], ![0], ![1]] i) P - ![0, 1, 0] i) ^ 2) ∧
      w'.f ≠ some (NpMat.of (Matrix.of fun i (_ : Fin 1) => (![0, 1, 0] : Fin 3 → ℝ) i)) := by
  obtain ⟨w', P, hrun, hdeg, hpred, hmin, hf⟩ := C30_weighted_partial lib hl { N := 1 } le_rfl le_rfl
    (Matrix.of ![![0], ![0], ![1]] : Matrix (Fin 3) (Fin 1) ℝ) ![0, 1, 0] ![1, 2, 1] (by decide)
  have hq : ∀ t : ℝ, (C t - C t * X 0 : MvPolynomial (Fin 1) ℝ).totalDegree ≤ 1 := by
    intro t
    refine (totalDegree_sub _ _).trans (max_le (by rw [totalDegree_C]; omega) ?_)
    refine (totalDegree_mul _ _).trans ?_
    rw [totalDegree_C, totalDegree_X]
  have h1 := hmin (C (4 / 5) - C (4 / 5) * X 0) (hq _)
  simp only [Fin.sum_univ_three, map_sub, map_mul, eval_C, eval_X, Matrix.of_apply, Matrix.cons_val_zero,
    Matrix.cons_val_one, Matrix.cons_val] at h1
  have e0 : (Matrix.of ![![0], ![0], ![1]] : Matrix (Fin 3) (Fin 1) ℝ) 0 = ![0] := rfl
  have e1 : (Matrix.of ![![0], ![0], ![1]] : Matrix (Fin 3) (Fin 1) ℝ) 1 = ![0] := rfl
  have e2 : (Matrix.of ![![0], ![0], ![1]] : Matrix (Fin 3) (Fin 1) ℝ) 2 = ![1] := rfl
  rw [e0, e1, e2] at h1
  set a := eval ![0] P with ha
  set b := eval ![1] P with hb
  have h2 : 5 * (a - 4 / 5) ^ 2 + b ^ 2 ≤ 0 := by nlinarith [h1]
  have ha' : a = 4 / 5 := by
    have : (a - 4 / 5) ^ 2 = 0 := by nlinarith [sq_nonneg (a - 4 / 5), sq_nonneg b]
    have := pow_eq_zero_iff two_ne_zero |>.mp this
    linarith
  refine ⟨w', P, hrun, hpred 3 _, ⟨C (2 / 3) - C (2 / 3) * X 0, hq _, ?_⟩, ?_⟩
  · simp only [Fin.sum_univ_three, map_sub, map_mul, eval_C, eval_X, Matrix.of_apply, Matrix.cons_val_zero,
      Matrix.cons_val_one, Matrix.cons_val]
    rw [e0, e1, e2, ← ha, ← hb, ha']
    nlinarith [sq_nonneg b]
  · rw [hf]
    intro h
    have h3 := NpMat.of_injective (Option.some.inj h)
    have := congrFun (congrFun h3 1) 0
    norm_num at this

/-! ## C68 -/

/-- C68: for degree at least 1 and enough samples `train` succeeds. -/
theorem C68_train_partial (lib : Lib) (hl : LstsqOK lib) (w : PolyApprox) (hm : 1 ≤ m) (hN : 1 ≤ w.N)
    (X : Matrix (Fin M) (Fin m) ℝ) (f : Fin M → ℝ) (weights : Option (Fin M → ℝ)) (hM : (w.N + m).choose m ≤ M) :
    ∃ w', (fit lib X f weights).run w = (.ok (), w') := by
  obtain ⟨w', -, h, -⟩ := fit_ok lib hl w hm hN X f weights hM
  exact ⟨w', h⟩

/-- C68 fails for degree 0: `train` always raises `ValueError`, after it has stored the coefficients. -/
theorem C68_fails (lib : Lib) (w : PolyApprox) (hm : 1 ≤ m) (hN : w.N = 0) (X : Matrix (Fin M) (Fin m) ℝ) (hM : 1 ≤ M)
    (f : Fin M → ℝ) (weights : Option (Fin M → ℝ)) :
    ∃ w', (fit lib X f weights).run w = (.error .valueError, w') ∧ w'.poly_weights ≠ none ∧ w'.g = w.g := by
  have h := train_eq lib w X f weights
  unfold fit
  change ∃ w', (PolyApprox.train lib (.mat (NpMat.of X)) (.mat (NpMat.of (colMat f))) (weights.map NpVec.of)).run w = _ ∧ _
  obtain ⟨I, hI, -, -, -, hlen⟩ := C25_enumerates w.N m hm
  rw [hN, zero_add, Nat.choose_self] at hlen
  rw [h, trainMat, if_neg (by rw [hN, zero_add, Nat.choose_self]; omega), polynomial_bases, hI]
  simp only
  rw [PyM.run_bind_ok (PyM.run_modify _ _), organize, dif_neg (by omega)]
  exact ⟨_, rfl, by simp, rfl⟩

/-! ## Concrete instances -/

/-- Two points on the line determine polynomials of degree at most one. -/
theorem unisolvent_line : Unisolvent 1 (Matrix.of ![![0], ![1]] : Matrix (Fin 2) (Fin 1) ℝ) := by
  intro q hq h
  have hd : q = fitted [fun _ => 0, fun _ => 1] fun j => coeff (fin ([fun _ => 0, fun _ => 1].get j)) q := by
    refine eq_fitted (N := 1) _ ?_ ?_ q hq
    · simp [List.nodup_cons, funext_iff]
    · intro α hα
      rw [Fin.sum_univ_one] at hα
      have : α = fun _ => α 0 := by
        funext k; rw [Fin.fin_one_eq_zero k]
      rw [this]
      rcases (by omega : α 0 = 0 ∨ α 0 = 1) with h | h <;> rw [h] <;> simp
  have h0 := h 0
  have h1 := h 1
  rw [hd, eval_fitted] at h0 h1
  simp [Fin.sum_univ_two] at h0 h1
  rw [h0, zero_add] at h1
  rw [hd]
  unfold fitted
  simp only [List.length_cons, List.length_nil, Fin.sum_univ_two]
  simp [h0, h1]

/-- The hypotheses of C27 are met by two points and the polynomial `1 + 2 x`. -/
example (lib : Lib) (hl : LstsqOK lib) := C27_reproduces lib hl { N := 1 } le_rfl le_rfl _ unisolvent_line (C 1 + C 2 * X 0)
  (by
    refine (totalDegree_add _ _).trans (max_le (by rw [totalDegree_C]; omega) ?_)
    refine (totalDegree_mul _ _).trans ?_
    rw [totalDegree_C, totalDegree_X])

example : ∃ lib, LstsqOK lib := lstsqOK_exists

/-- Three values on a line that are not constant. -/
example (lib : Lib) (hl : LstsqOK lib) := C29_rsquared lib hl { N := 1 } le_rfl le_rfl
  (Matrix.of ![![0], ![1], ![2]] : Matrix (Fin 3) (Fin 1) ℝ) ![0, 1, 5] (by decide) ⟨0, 1, by simp⟩

/-- Six points in the plane for a quadratic. -/
example (lib : Lib) (hl : LstsqOK lib) := C28_gradient_hessian lib hl { N := 2 } (by omega) (by norm_num)
  (Matrix.of ![![0, 0], ![1, 0], ![0, 1], ![1, 1], ![2, 0], ![0, 2]] : Matrix (Fin 6) (Fin 2) ℝ) ![0, 1, 5, 3, 1, 2] none
  (by decide)

example (lib : Lib) (X : Matrix (Fin 3) (Fin 1) ℝ) (f : Fin 3 → ℝ) := C27_too_few lib { N := 3 } X f none (by decide)

example (lib : Lib) (X : Matrix (Fin 3) (Fin 1) ℝ) (f : Fin 3 → ℝ) := C68_fails lib { N := 0 } le_rfl rfl X (by omega) f none

end Props
