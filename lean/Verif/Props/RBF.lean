import Verif.Proofs.RBF
import Verif.Proofs.Cholesky
import Verif.Props.PolyApprox

/-!
# Properties C31 to C33, C69, C70: radial basis models
-/

open Py Model.ResponseSurfaces Proofs.PolyApprox Proofs.Kernel Proofs.RBF Matrix

namespace Props

variable {M m N : ℕ}

/-! ## C31 -/

/-- C31: the matrix of radial basis functions. -/
theorem C31_kernel (X : Matrix (Fin M) (Fin m) ℝ) (ell : Fin m → ℝ) (hl : ∀ k, 0 < ell k) :
    (exponential_squared X X 1 ell).transpose = exponential_squared X X 1 ell ∧
    (∀ i, exponential_squared X X 1 ell i i = 1) ∧
    (∀ i j, 0 < exponential_squared X X 1 ell i j ∧ exponential_squared X X 1 ell i j ≤ 1) ∧
    (exponential_squared X X 1 ell).PosSemidef := by
  refine ⟨?_, fun i => ?_, fun i j => ⟨?_, ?_⟩, gaussian_posSemidef X ell hl⟩
  · have := (gaussian_posSemidef X ell hl).isHermitian
    rwa [Matrix.IsHermitian, Matrix.conjTranspose_eq_transpose_of_trivial] at this
  · simp [exponential_squared]
  · rw [exponential_squared, Matrix.of_apply, one_mul]
    exact Real.exp_pos _
  · rw [exponential_squared, Matrix.of_apply, one_mul, Real.exp_le_one_iff]
    refine Finset.sum_nonpos fun k _ => mul_nonpos_of_nonneg_of_nonpos (mul_self_nonneg _) ?_
    exact div_nonpos_of_nonpos_of_nonneg (by norm_num) (hl k).le

/-- C31: for distinct points the matrix is positive definite even without regularisation. -/
theorem C31_distinct (X : Matrix (Fin M) (Fin m) ℝ) (ell : Fin m → ℝ) (hl : ∀ k, 0 < ell k) (hX : Function.Injective X) :
    (exponential_squared X X 1 ell).PosDef :=
  gaussian_posDef X ell hl hX

/-- The eigenvalues given to `train`: at least `m` non-negative ones, the first `m` positive. -/
def GoodEig (m : ℕ) (e : Option NpVec) : Prop :=
  ∀ u ∈ e, m ≤ u.n ∧ (∀ i, 0 ≤ u.val i) ∧ ∀ i : Fin u.n, (i : ℕ) < m → 0 < u.val i

/-- The noise levels given to `train`: one non-negative number per sample. -/
def GoodNoise (M : ℕ) (v : Option NpVec) : Prop := ∀ u ∈ v, u.n = M ∧ ∀ i, 0 ≤ u.val i

theorem params_ok {v e : Option NpVec} (hv : GoodNoise M v) (he : GoodEig m e) {g : ℝ} (hg : 0 < g) :
    ∃ q, params M m g v e = .ok q ∧ (∀ k, 0 < q.ell k) ∧ (∀ i, 0 ≤ q.v i) ∧
      ((v = none ∧ e = none) ∨ (∃ u, v = some u ∧ ∀ i, 0 < u.val i) ∨
        (v = none ∧ ∃ u, e = some u ∧ ∃ i : Fin u.n, m ≤ (i : ℕ) ∧ 0 < u.val i) → ∀ i, 0 < q.v i) := by
  cases e with
  | none =>
    cases v with
    | none => exact ⟨_, rfl, fun _ => hg, fun _ => by norm_num, fun _ _ => by norm_num⟩
    | some u =>
      obtain ⟨hn, hu⟩ := hv u rfl
      refine ⟨_, dif_pos hn, fun _ => hg, fun i => hu _, ?_⟩
      rintro (⟨h, -⟩ | ⟨u', h, hpos⟩ | ⟨h, -⟩) i
      · cases h
      · cases h; exact hpos _
      · cases h
  | some b =>
    obtain ⟨hm, hb, hbp⟩ := he b rfl
    have hell : ∀ k : Fin m, 0 < g * (∑ i, b.val i) / b.val (Fin.castLE hm k) := by
      intro k
      have hk : 0 < b.val (Fin.castLE hm k) := hbp _ k.isLt
      have hsum : 0 < ∑ i, b.val i :=
        lt_of_lt_of_le hk (Finset.single_le_sum (f := b.val) (fun i _ => hb i) (Finset.mem_univ _))
      exact div_pos (mul_pos hg hsum) hk
    cases v with
    | none =>
      have h0 : 0 ≤ ∑ i ∈ Finset.univ.filter (fun i : Fin b.n => m ≤ (i : ℕ)), b.val i :=
        Finset.sum_nonneg fun i _ => hb i
      refine ⟨_, dif_pos hm, hell, fun i => mul_nonneg hg.le h0, ?_⟩
      rintro (⟨-, h⟩ | ⟨u', h, -⟩ | ⟨-, u, h, i, hi, hpos⟩) j
      · cases h
      · cases h
      · cases h
        refine mul_pos hg (lt_of_lt_of_le hpos ?_)
        exact Finset.single_le_sum (f := b.val) (fun i _ => hb i) (Finset.mem_filter.mpr ⟨Finset.mem_univ i, hi⟩)
    | some u =>
      obtain ⟨hn, hu⟩ := hv u rfl
      refine ⟨⟨_, fun i => u.val (Fin.cast hn.symm i)⟩, ?_, hell, fun i => hu _, ?_⟩
      · simp only [params, dif_pos hm, dif_pos hn]
      · rintro (⟨h, -⟩ | ⟨u', h, hpos⟩ | ⟨h, -⟩) i
        · cases h
        · cases h; exact hpos _
        · cases h

theorem unisolvent_full_rank {X : Matrix (Fin M) (Fin m) ℝ} (hm : 1 ≤ m) (hu : Unisolvent N X) {I : List (Fin m → ℕ)}
    (hI : index_set N m = .ok I) : Spec.FullColumnRank (monomials X I) := by
  obtain ⟨I', hI', hnd, hmem, -⟩ := C25_enumerates N m hm
  obtain rfl : I = I' := Except.ok.inj (hI.symm.trans hI')
  intro c c' hc
  have hc0 : (monomials X I).mulVec (c - c') = 0 := by rw [Matrix.mulVec_sub]; exact sub_eq_zero.mpr hc
  rw [mulVec_monomials] at hc0
  have h0 := hu (fitted I (c - c')) (totalDegree_fitted I _ fun α hα => (hmem α).mp hα) fun i => congrFun hc0 i
  funext j
  have := coeff_fitted I hnd (c - c') j
  rw [h0, MvPolynomial.coeff_zero] at this
  exact (sub_eq_zero.mp this.symm)

theorem full_rank_unisolvent {X : Matrix (Fin M) (Fin m) ℝ} (hm : 1 ≤ m) {I : List (Fin m → ℕ)}
    (hI : index_set N m = .ok I) (hB : Spec.FullColumnRank (monomials X I)) : Unisolvent N X := by
  obtain ⟨I', hI', hnd, hmem, -⟩ := C25_enumerates N m hm
  obtain rfl : I = I' := Except.ok.inj (hI.symm.trans hI')
  intro q hq h
  have h1 := eq_fitted I hnd (fun α hα => (hmem α).mpr hα) q hq
  have h2 : (monomials X I).mulVec (fun j => MvPolynomial.coeff (fin (I.get j)) q) = (monomials X I).mulVec 0 := by
    rw [mulVec_monomials, Matrix.mulVec_zero, ← h1]
    funext i
    exact h i
  rw [h1, hB h2]
  simp [fitted]

/-- C31: with the regularisation of `train` the covariance is positive definite and every linear system of the fit is
well posed, for every sample that determines the polynomial part, repeated points included. -/
theorem C31_well_posed (hm : 1 ≤ m) (X : Matrix (Fin M) (Fin m) ℝ) (hu : Unisolvent N X) (f : Fin M → ℝ)
    (v e : Option NpVec) (hv : GoodNoise M v) (he : GoodEig m e) (g : ℝ) (hg : 0 < g) :
    ∃ t, rbfFit X f v N e g = .ok t ∧ t.K.PosDef ∧ IsUnit (saddle t.K (monomials X t.I)).det ∧
      ∀ i, t.K i i = 1 + t.q.v i ∧ (1e-6 : ℝ) ≤ t.q.v i := by
  obtain ⟨q, hq, hl, -, -⟩ := params_ok hv he hg
  obtain ⟨I, hI, -⟩ := C25_enumerates N m hm
  obtain ⟨t, ht⟩ := rbfFit_ok f hq hl hI (unisolvent_full_rank hm hu hI)
  obtain ⟨q0, hq0, hqt, hK, -, hS, -⟩ := rbfFit_spec ht
  obtain rfl := Except.ok.inj (hq0.symm.trans hq)
  refine ⟨t, ht, ?_, hS, fun i => ⟨?_, ?_⟩⟩
  · rw [hK, hqt]
    exact cov_posDef X _ hl fun i => lt_of_lt_of_le (by norm_num) (le_max_right _ _)
  · rw [hK, covMat, Matrix.add_apply, Matrix.diagonal_apply_eq]
    simp [exponential_squared]
  · rw [hqt]
    exact le_max_right _ _

/-! ## C32 -/

/-- C32: the model is a sum of Gaussians plus a polynomial, and the gradient returned is its derivative. -/
theorem C32_gradient (s : RBF) (hm : 1 ≤ m) (X0 : Matrix (Fin M) (Fin m) ℝ) (ell : Fin m → ℝ) (radial : Fin M → ℝ)
    (c : NpVec) (hX : s.X = some (NpMat.of X0)) (hell : s.ell = some (NpVec.of ell))
    (hr : s.radial_weights = some (NpVec.of radial)) (hc : s.poly_weights = some c) (hcn : c.n = (s.N + m).choose m) :
    ∃ P : MvPolynomial (Fin m) ℝ, P.totalDegree ≤ s.N ∧ ∀ (M' : ℕ) (Y : Matrix (Fin M') (Fin m) ℝ),
      ∃ df : Matrix (Fin M') (Fin m) ℝ,
      s.predict (.mat (NpMat.of Y)) false = .ok (NpVec.of fun i =>
        ∑ j, radial j * Real.exp (-∑ k, (Y i k - X0 j k) ^ 2 / ell k) + MvPolynomial.eval (Y i) P, none) ∧
      s.predict (.mat (NpMat.of Y)) true = .ok (NpVec.of fun i =>
        ∑ j, radial j * Real.exp (-∑ k, (Y i k - X0 j k) ^ 2 / ell k) + MvPolynomial.eval (Y i) P, some (NpMat.of df)) ∧
      ∀ i, HasFDerivAt (fun x : Fin m → ℝ =>
        ∑ j, radial j * Real.exp (-∑ k, (x k - X0 j k) ^ 2 / ell k) + MvPolynomial.eval x P)
          (∑ k, df i k • (ContinuousLinearMap.proj k : (Fin m → ℝ) →L[ℝ] ℝ)) (Y i) := by
  obtain ⟨I, hI, -, hmem, -, hlen⟩ := C25_enumerates s.N m hm
  obtain ⟨n, c⟩ := c
  simp only at hcn
  rw [← hlen] at hcn
  subst hcn
  refine ⟨fitted I c, totalDegree_fitted I c fun α hα => (hmem α).mp hα, fun M' Y => ?_⟩
  obtain ⟨h1, h2⟩ := rbfPredict_eq s hI X0 ell radial c hX hell hr hc Y
  exact ⟨_, h1, h2, fun i => hasFDerivAt_surface X0 ell radial (fitted I c) (Y i)⟩

/-! ## C33 -/

/-- `train` on a sample `X` with values `f`. -/
noncomputable def rfit (lib : Lib) (X : Matrix (Fin M) (Fin m) ℝ) (f : Fin M → ℝ) (v e : Option NpVec) : PyM RBF Unit :=
  RBF.train lib (.mat (NpMat.of X)) (.mat (NpMat.of (Matrix.of fun i (_ : Fin 1) => f i))) v e

theorem rfit_run (lib : Lib) (w : RBF) (X : Matrix (Fin M) (Fin m) ℝ) (f : Fin M → ℝ) (v e : Option NpVec) :
    (rfit lib X f v e).run w = match rbfTrainMat lib w.N X f v e with
      | .error er => (.error er, w)
      | .ok t => (.ok (), { w with X := some (NpMat.of X), f := some (NpVec.of f), Rsqr := some t.Rsqr, K := some (NpMat.of t.K),
                                   ell := some (NpVec.of t.q.ell), radial_weights := some (NpVec.of t.radial),
                                   poly_weights := some (NpVec.of t.poly) }) := by
  have hp : Model.Misc.process_inputs_outputs (.mat (NpMat.of X)) (.mat (NpMat.of (Matrix.of fun i (_ : Fin 1) => f i)))
      = .ok ⟨NpMat.of X, NpMat.of (Matrix.of fun i (_ : Fin 1) => f i)⟩ := by
    simp [Model.Misc.process_inputs_outputs, Model.Misc.process_inputs]
  have hf : (fun i : Fin M => (NpMat.of (Matrix.of fun i (_ : Fin 1) => f i)).get i 0) = f := by
    funext i
    exact NpMat.get_of (Matrix.of fun i (_ : Fin 1) => f i) i 0
  unfold rfit RBF.train
  rw [PyM.run_bind_ok (PyM.run_get w), hp]
  dsimp only
  have hT : rbfTrainMat lib w.N (NpMat.of X).val (fun i : Fin M => (NpMat.of (Matrix.of fun i (_ : Fin 1) => f i)).get i 0) v e
      = rbfTrainMat lib w.N X f v e := by rw [hf]; rfl
  cases hR : rbfTrainMat lib w.N X f v e with
  | error er =>
    erw [hT.trans hR]
    rfl
  | ok t =>
    erw [hT.trans hR]
    change (Except.ok (),
      { w with
        X := some (NpMat.of X)
        f := some (NpVec.of fun i : Fin M => (NpMat.of (Matrix.of fun i (_ : Fin 1) => f i)).get i 0)
        Rsqr := some t.Rsqr
        K := some (NpMat.of t.K)
        ell := some (NpVec.of t.q.ell)
        radial_weights := some (NpVec.of t.radial)
        poly_weights := some (NpVec.of t.poly) }) = _
    rw [hf]

theorem rbfTrainMat_ok {lib : Lib} {X : Matrix (Fin M) (Fin m) ℝ} {f : Fin M → ℝ} {v e : Option NpVec} {t : Fit M m}
    (h : rbfTrainMat lib N X f v e = .ok t) : ∃ g : ℝ, 0 < g ∧ rbfFit X f v N e g = .ok t := by
  unfold rbfTrainMat at h
  split_ifs at h
  split at h
  · cases h
  · exact ⟨_, Real.rpow_pos_of_pos (by norm_num) _, h⟩

/-- Facts about a successful training run, whatever the optimiser returned. -/
theorem rfit_ok (lib : Lib) (w w' : RBF) (X : Matrix (Fin M) (Fin m) ℝ) (f : Fin M → ℝ) (v e : Option NpVec)
    (h : (rfit lib X f v e).run w = (.ok (), w')) : ∃ (t : Fit M m) (g : ℝ), 0 < g ∧ rbfFit X f v w.N e g = .ok t ∧
      w'.N = w.N ∧ w'.X = some (NpMat.of X) ∧ w'.f = some (NpVec.of f) ∧ w'.Rsqr = some t.Rsqr ∧ w'.K = some (NpMat.of t.K) ∧
      w'.ell = some (NpVec.of t.q.ell) ∧
      w'.radial_weights = some (NpVec.of t.radial) ∧ w'.poly_weights = some (NpVec.of t.poly) := by
  rw [rfit_run] at h
  split at h
  · cases (Prod.mk.inj h).1
  · rename_i t ht
    obtain ⟨-, rfl⟩ := Prod.mk.inj h
    obtain ⟨g, hg, hfit⟩ := rbfTrainMat_ok ht
    exact ⟨t, g, hg, hfit, rfl, rfl, rfl, rfl, rfl, rfl, rfl, rfl⟩

/-- C33: whenever `train` completes, the fit misses datum `i` by exactly the regularisation times the radial weight, the
radial weights annihilate all polynomials of degree at most `N`, and polynomials of that degree are reproduced. -/
theorem C33_training (lib : Lib) (w w' : RBF) (hm : 1 ≤ m) (X : Matrix (Fin M) (Fin m) ℝ) (f : Fin M → ℝ) (v e : Option NpVec)
    (h : (rfit lib X f v e).run w = (.ok (), w')) :
    ∃ reg radial : Fin M → ℝ, w'.radial_weights = some (NpVec.of radial) ∧ (∀ i, 1e-6 ≤ reg i) ∧
      (∀ u, v = some (NpVec.of u) → ∀ i, reg i = max (u i) 1e-6) ∧ (v = none → e = none → ∀ i, reg i = 1e-6) ∧
      w'.predict (.mat (NpMat.of X)) false = .ok (NpVec.of fun i => f i - reg i * radial i, none) ∧
      (∀ q : MvPolynomial (Fin m) ℝ, q.totalDegree ≤ w.N → ∑ i, radial i * MvPolynomial.eval (X i) q = 0) ∧
      ∀ p : MvPolynomial (Fin m) ℝ, p.totalDegree ≤ w.N → (∀ i, f i = MvPolynomial.eval (X i) p) →
        ∀ (M' : ℕ) (Y : Matrix (Fin M') (Fin m) ℝ),
          w'.predict (.mat (NpMat.of Y)) false = .ok (NpVec.of fun i => MvPolynomial.eval (Y i) p, none) := by
  obtain ⟨t, g, hg, hfit, hN, hX, -, -, -, hell, hr, hc⟩ := rfit_ok lib w w' X f v e h
  obtain ⟨q0, hq0, hq, hK, hI, hS, -, hsys, horth, -⟩ := rbfFit_spec hfit
  obtain ⟨I', hI', hnd, hmem, -⟩ := C25_enumerates w.N m hm
  obtain rfl := Except.ok.inj (hI'.symm.trans hI)
  have hpred := fun (M' : ℕ) (Y : Matrix (Fin M') (Fin m) ℝ) =>
    (rbfPredict_eq w' (by rw [hN]; exact hI) X t.q.ell t.radial t.poly hX hell hr hc Y).1
  refine ⟨t.q.v, t.radial, hr, ?_, ?_, ?_, ?_, ?_, ?_⟩
  · intro i
    rw [hq]
    exact le_max_right _ _
  · rintro u rfl i
    rw [hq]
    cases e with
    | none =>
      have : q0 = ⟨fun _ => g, u⟩ := (Except.ok.inj (hq0.symm.trans (dif_pos rfl)))
      rw [this]
    | some b =>
      unfold params at hq0
      simp only at hq0
      split_ifs at hq0 with h1
      · have h2 := Except.ok.inj hq0
        rw [← h2]
        rfl
  · rintro rfl rfl i
    have := Except.ok.inj hq0
    rw [hq, ← this]
    exact max_self _
  · rw [hpred]
    congr 2
    congr 1
    funext i
    have h1 := congrFun (kernel_mulVec X t.q.ell t.radial X t.I t.poly) i
    have h2 := congrFun hsys i
    rw [hK, covMat, Matrix.add_mulVec, Pi.add_apply, Pi.add_apply, Matrix.mulVec_diagonal] at h2
    rw [Pi.add_apply] at h1
    rw [← h1]
    linarith
  · intro q hq'
    rw [eq_fitted t.I hnd (fun α hα => (hmem α).mpr hα) q hq']
    have h1 : ∀ i, MvPolynomial.eval (X i) (fitted t.I fun j => MvPolynomial.coeff (fin (t.I.get j)) q)
        = (monomials X t.I).mulVec (fun j => MvPolynomial.coeff (fin (t.I.get j)) q) i :=
      fun i => (congrFun (mulVec_monomials X t.I _) i).symm
    simp only [h1]
    change t.radial ⬝ᵥ (monomials X t.I).mulVec _ = 0
    rw [Matrix.dotProduct_mulVec, ← Matrix.mulVec_transpose, horth, zero_dotProduct]
  · intro p hp hf M' Y
    have hinj : Function.Injective (saddle t.K (monomials X t.I)).mulVec :=
      Matrix.mulVec_injective_of_isUnit ((Matrix.isUnit_iff_isUnit_det _).mpr hS)
    have hz : (Fin.append t.radial t.poly : Fin (M + t.I.length) → ℝ)
        = Fin.append 0 fun j => MvPolynomial.coeff (fin (t.I.get j)) p := by
      apply hinj
      rw [saddle_mulVec, saddle_mulVec]
      simp only [Fin.append_left, Fin.append_right]
      have e1 : (fun i => (0 : Fin M → ℝ) i) = 0 := rfl
      have e2 := mulVec_monomials X t.I fun j => MvPolynomial.coeff (fin (t.I.get j)) p
      rw [← eq_fitted t.I hnd (fun α hα => (hmem α).mpr hα) p hp] at e2
      rw [e1, Matrix.mulVec_zero, Matrix.mulVec_zero, zero_add, e2]
      have e3 : t.K.mulVec (fun i => t.radial i) + (monomials X t.I).mulVec (fun j => t.poly j) = f := hsys
      have e4 : (monomials X t.I).transpose.mulVec (fun i => t.radial i) = 0 := horth
      rw [e3, e4]
      congr 1
      funext i
      exact hf i
    have hr0 : t.radial = 0 := by
      funext i
      have := congrFun hz (Fin.castAdd _ i)
      rwa [Fin.append_left, Fin.append_left] at this
    have hc0 : t.poly = fun j => MvPolynomial.coeff (fin (t.I.get j)) p := by
      funext j
      have := congrFun hz (Fin.natAdd M j)
      rwa [Fin.append_right, Fin.append_right] at this
    rw [hpred, hr0, hc0, ← eq_fitted t.I hnd (fun α hα => (hmem α).mpr hα) p hp]
    simp [surface]

/-! ## C69 -/

/-- Contract of `np.linalg.cholesky` for symmetric matrices. -/
def CholeskyOK (lib : Lib) : Prop :=
  ∀ (n : ℕ) (A : Matrix (Fin n) (Fin n) ℝ), A.transpose = A →
    (A.PosDef → ∃ L, lib.cholesky n A = .ok L ∧ Spec.IsCholesky A L) ∧ (¬ A.PosDef → lib.cholesky n A = .error .linAlgError)

/-- Contract of `scipy.optimize.fminbound` with respect to exceptions: a point of the interval if the objective never
raises, the exception if it always raises. -/
def FminboundOK (lib : Lib) : Prop :=
  ∀ (F : ℝ → Except Err ℝ) (a b : ℝ), a ≤ b →
    ((∀ t ∈ Set.Icc a b, ∃ y, F t = .ok y) → ∃ t ∈ Set.Icc a b, lib.fminbound F a b = .ok t) ∧
    ∀ er, (∀ t ∈ Set.Icc a b, F t = .error er) → lib.fminbound F a b = .error er

/-- The three contracts can be met together. -/
theorem rbfLib_exists : ∃ lib : Lib, LstsqOK lib ∧ CholeskyOK lib ∧ FminboundOK lib := by
  classical
  refine ⟨{ lstsq := fun _ _ A b => (Proofs.LeastSquares.exists_min_norm A b).choose
            cholesky := fun _ A => if h : A.PosDef then .ok (Proofs.Cholesky.exists_cholesky h).choose else .error .linAlgError
            fminbound := fun F a _ => (F a).map fun _ => a }, ?_, ?_, ?_⟩
  · exact fun _ _ A b => (Proofs.LeastSquares.exists_min_norm A b).choose_spec
  · intro n A _
    constructor
    · intro h
      exact ⟨_, dif_pos h, (Proofs.Cholesky.exists_cholesky h).choose_spec⟩
    · intro h
      exact dif_neg h
  · intro F a b hab
    constructor
    · intro h
      obtain ⟨y, hy⟩ := h a ⟨le_rfl, hab⟩
      exact ⟨a, ⟨le_rfl, hab⟩, by simp [hy, Except.map]⟩
    · intro er h
      simp [h a ⟨le_rfl, hab⟩, Except.map]

theorem covMat_symm (X : Matrix (Fin M) (Fin m) ℝ) (q : Params M m) (hl : ∀ k, 0 < q.ell k) :
    (covMat X q).transpose = covMat X q := by
  rw [covMat, Matrix.transpose_add, (C31_kernel X q.ell hl).1, Matrix.diagonal_transpose]

/-- C69, the part that holds: training completes on every sample that determines the polynomial part if the points are
distinct, or the noise levels are positive, or the default noise is (no eigenvalues, or a positive discarded one). -/
theorem C69_train_partial (lib : Lib) (hch : CholeskyOK lib) (hfm : FminboundOK lib) (w : RBF) (hm : 1 ≤ m)
    (X : Matrix (Fin M) (Fin m) ℝ) (hu : Unisolvent w.N X) (f : Fin M → ℝ) (v e : Option NpVec) (hv : GoodNoise M v)
    (he : GoodEig m e)
    (hreg : Function.Injective X ∨ (v = none ∧ e = none) ∨ (∃ u, v = some u ∧ ∀ i, 0 < u.val i) ∨
        (v = none ∧ ∃ u, e = some u ∧ ∃ i : Fin u.n, m ≤ (i : ℕ) ∧ 0 < u.val i)) :
    ∃ w', (rfit lib X f v e).run w = (.ok (), w') := by
  obtain ⟨I, hI, -⟩ := C25_enumerates w.N m hm
  have hB := unisolvent_full_rank hm hu hI
  have hobj : ∀ t ∈ Set.Icc (-10 : ℝ) 1, ∃ y, rbf_objective lib X f v w.N e t = .ok y := by
    intro t _
    obtain ⟨q, hq, hl, hv0, hvp⟩ := params_ok hv he (Real.rpow_pos_of_pos (by norm_num : (0 : ℝ) < 10) t)
    have hK : (covMat X q).PosDef := by
      rcases hreg with h | h
      · exact cov_posDef_distinct X q hl hv0 h
      · exact cov_posDef X q hl (hvp h)
    obtain ⟨L, hL, -⟩ := (hch M _ (covMat_symm X q hl)).1 hK
    exact objective_ok lib f hq hK hL hI hB
  obtain ⟨t, -, ht⟩ := (hfm _ (-10) 1 (by norm_num)).1 hobj
  obtain ⟨s, hs, -⟩ := C31_well_posed hm X hu f v e hv he ((10 : ℝ) ^ t) (Real.rpow_pos_of_pos (by norm_num) t)
  have hM := card_le_of_unisolvent hm X hu
  have hmat : rbfTrainMat lib w.N X f v e = .ok s := by
    unfold rbfTrainMat
    rw [if_neg (by omega), ht]
    exact hs
  rw [rfit_run, hmat]
  exact ⟨_, rfl⟩

/-- C69 fails: two equal points, eigenvalues given for the active variables only, default noise.  The sample determines
the (constant) polynomial part, yet training raises `LinAlgError`: the objective lacks the floor that `train` applies. -/
theorem C69_fails (lib : Lib) (hch : CholeskyOK lib) (hfm : FminboundOK lib) (f : Fin 2 → ℝ) :
    Unisolvent 0 (Matrix.of ![![0], ![0]] : Matrix (Fin 2) (Fin 1) ℝ) ∧ GoodEig 1 (some (NpVec.of ![1])) ∧
    (rfit lib (Matrix.of ![![0], ![0]] : Matrix (Fin 2) (Fin 1) ℝ) f none (some (NpVec.of ![1]))).run { N := 0 }
      = (.error .linAlgError, { N := 0 }) := by
  refine ⟨?_, ?_, ?_⟩
  · intro q hq h
    obtain ⟨a, rfl⟩ : ∃ a, q = MvPolynomial.C a := ⟨_, MvPolynomial.totalDegree_eq_zero_iff_eq_C.mp (by omega)⟩
    have := h 0
    rw [MvPolynomial.eval_C] at this
    rw [this, map_zero]
  · rintro u hu
    obtain rfl := Option.some.inj hu
    exact ⟨le_rfl, fun i => by fin_cases i; simp [NpVec.of], fun i _ => by fin_cases i; simp [NpVec.of]⟩
  · have hobj : ∀ t ∈ Set.Icc (-10 : ℝ) 1, rbf_objective lib (Matrix.of ![![0], ![0]] : Matrix (Fin 2) (Fin 1) ℝ) f none 0
        (some (NpVec.of ![1])) t = .error .linAlgError := by
      intro t _
      have hg : (0 : ℝ) < 10 ^ t := Real.rpow_pos_of_pos (by norm_num) t
      have hq : params 2 1 ((10 : ℝ) ^ t) none (some (NpVec.of ![1])) = .ok ⟨fun _ => (10 : ℝ) ^ t, fun _ => 0⟩ := by
        unfold params
        simp only
        rw [dif_pos (show 1 ≤ (NpVec.of ![(1 : ℝ)]).n from le_rfl)]
        simp only [NpVec.of, Except.ok.injEq, Params.mk.injEq]
        constructor
        · funext k
          obtain rfl := Fin.fin_one_eq_zero k
          change (10 : ℝ) ^ t * (∑ i : Fin 1, ![(1 : ℝ)] i) / ![(1 : ℝ)] 0 = 10 ^ t
          rw [Fin.sum_univ_one]
          simp
        · funext i
          simp
      have hcov : covMat (Matrix.of ![![0], ![0]] : Matrix (Fin 2) (Fin 1) ℝ)
          (⟨fun _ => (10 : ℝ) ^ t, fun _ => 0⟩ : Params 2 1) = Matrix.of fun _ _ => 1 := by
        ext i j
        fin_cases i <;> fin_cases j <;> simp [covMat, exponential_squared]
      refine objective_error lib f hq ?_
      refine (hch 2 _ (covMat_symm _ _ fun _ => hg)).2 fun hpd => ?_
      rw [hcov] at hpd
      have := hpd.dotProduct_mulVec_pos (x := ![1, -1]) (by simp)
      simp [Matrix.mulVec, dotProduct, Fin.sum_univ_two] at this
    have := (hfm _ (-10) 1 (by norm_num)).2 _ hobj
    rw [rfit_run]
    unfold rbfTrainMat
    rw [if_neg (by norm_num), this]

/-! ## C70 -/

/-- C70: for data that are not all zero the reported R-squared lies in `[0, 1]`, and is 1 exactly when the polynomial part
alone interpolates the data. -/
theorem C70_rsquared (lib : Lib) (w w' : RBF) (hm : 1 ≤ m) (X : Matrix (Fin M) (Fin m) ℝ) (f : Fin M → ℝ) (hf : f ≠ 0)
    (v e : Option NpVec) (hv : GoodNoise M v) (he : GoodEig m e) (h : (rfit lib X f v e).run w = (.ok (), w')) :
    ∃ r, w'.Rsqr = some r ∧ 0 ≤ r ∧ r ≤ 1 ∧
      (r = 1 ↔ ∃ p : MvPolynomial (Fin m) ℝ, p.totalDegree ≤ w.N ∧ ∀ i, f i = MvPolynomial.eval (X i) p) := by
  obtain ⟨t, g, hg, hfit, hN, hX, -, hR, -, hell, hr, hc⟩ := rfit_ok lib w w' X f v e h
  obtain ⟨q0, hq0, hq, hKeq, hI, hS, hKu, hsys, horth, hRs⟩ := rbfFit_spec hfit
  obtain ⟨q, hq', hl, -, -⟩ := params_ok hv he hg
  obtain rfl := Except.ok.inj (hq0.symm.trans hq')
  obtain ⟨I', hI', hnd, hmem, -⟩ := C25_enumerates w.N m hm
  obtain rfl := Except.ok.inj (hI'.symm.trans hI)
  have hK : t.K.PosDef := by
    rw [hKeq, hq]
    exact cov_posDef X _ hl fun i => lt_of_lt_of_le (by norm_num) (le_max_right _ _)
  have hres : f - (monomials X t.I).mulVec t.poly = t.K.mulVec t.radial := by
    rw [← hsys]; abel
  have hinv : t.K⁻¹.mulVec (t.K.mulVec t.radial) = t.radial := by
    rw [Matrix.mulVec_mulVec, Matrix.nonsing_inv_mul _ hKu, Matrix.one_mulVec]
  set b := (monomials X t.I).mulVec t.poly with hb
  have hrb : t.radial ⬝ᵥ b = 0 := by
    rw [hb, Matrix.dotProduct_mulVec, ← Matrix.mulVec_transpose, horth, zero_dotProduct]
  have ha : (f - b) ⬝ᵥ t.K⁻¹.mulVec (f - b) = t.radial ⬝ᵥ t.K.mulVec t.radial := by
    rw [hres, hinv, dotProduct_comm]
  have hKs : t.K⁻¹.transpose = t.K⁻¹ := by
    have := hK.inv.isHermitian
    rwa [Matrix.IsHermitian, Matrix.conjTranspose_eq_transpose_of_trivial] at this
  have hden : f ⬝ᵥ t.K⁻¹.mulVec f = t.radial ⬝ᵥ t.K.mulVec t.radial + b ⬝ᵥ t.K⁻¹.mulVec b := by
    have h1 : f = t.K.mulVec t.radial + b := hsys.symm
    have h2 : t.K⁻¹.mulVec f = t.radial + t.K⁻¹.mulVec b := by
      rw [h1, Matrix.mulVec_add, hinv]
    rw [h2, dotProduct_add]
    have h3 : f ⬝ᵥ t.radial = t.radial ⬝ᵥ t.K.mulVec t.radial := by
      rw [dotProduct_comm, h1, dotProduct_add, hrb, add_zero]
    have h4 : t.K.mulVec t.radial ⬝ᵥ t.K⁻¹.mulVec b = 0 := by
      rw [Matrix.dotProduct_mulVec, ← Matrix.mulVec_transpose, hKs, hinv, hrb]
    rw [h3, h1, add_dotProduct, h4, zero_add]
  have hr0 : 0 ≤ t.radial ⬝ᵥ t.K.mulVec t.radial := by
    have := hK.posSemidef.dotProduct_mulVec_nonneg t.radial
    rwa [star_trivial] at this
  have hb0 : 0 ≤ b ⬝ᵥ t.K⁻¹.mulVec b := by
    have := hK.inv.posSemidef.dotProduct_mulVec_nonneg b
    rwa [star_trivial] at this
  have hpos : 0 < t.radial ⬝ᵥ t.K.mulVec t.radial + b ⬝ᵥ t.K⁻¹.mulVec b := by
    rw [← hden]
    have := hK.inv.dotProduct_mulVec_pos hf
    rwa [star_trivial] at this
  rw [ha, hden] at hRs
  refine ⟨t.Rsqr, hR, ?_, ?_, ?_⟩
  · rw [hRs, sub_nonneg, div_le_one hpos]
    linarith
  · rw [hRs]
    have := div_nonneg hr0 hpos.le
    linarith
  · rw [hRs, sub_eq_self, div_eq_zero_iff, or_iff_left hpos.ne']
    constructor
    · intro h0
      have hz : t.radial = 0 := by
        by_contra hne
        have := hK.dotProduct_mulVec_pos hne
        rw [star_trivial, h0] at this
        exact lt_irrefl _ this
      refine ⟨fitted t.I t.poly, totalDegree_fitted _ _ fun α hα => (hmem α).mp hα, fun i => ?_⟩
      rw [hz, Matrix.mulVec_zero, zero_add, hb, mulVec_monomials] at hsys
      exact (congrFun hsys i).symm
    · rintro ⟨p, hp, hfp⟩
      have e2 := mulVec_monomials X t.I fun j => MvPolynomial.coeff (fin (t.I.get j)) p
      rw [← eq_fitted t.I hnd (fun α hα => (hmem α).mpr hα) p hp] at e2
      have e3 : t.radial ⬝ᵥ f = 0 := by
        rw [show f = fun i => MvPolynomial.eval (X i) p from funext hfp, ← e2, Matrix.dotProduct_mulVec,
          ← Matrix.mulVec_transpose, horth, zero_dotProduct]
      rw [← hsys, dotProduct_add, hrb, add_zero] at e3
      exact e3

/-! ## Concrete instances -/

example : (exponential_squared (Matrix.of ![![0], ![1], ![1]] : Matrix (Fin 3) (Fin 1) ℝ) (Matrix.of ![![0], ![1], ![1]]) 1
    ![2]).PosSemidef := (C31_kernel _ _ fun k => by fin_cases k; simp).2.2.2

/-- Two points with linear polynomial part: every hypothesis of C31 and C69 holds. -/
example (lib : Lib) (hch : CholeskyOK lib) (hfm : FminboundOK lib) := C69_train_partial lib hch hfm { N := 1 } le_rfl _
  unisolvent_line ![3, 5] none none (by rintro u ⟨⟩) (by rintro u ⟨⟩) (Or.inr (Or.inl ⟨rfl, rfl⟩))

/-- So training does complete and C33 and C70 apply. -/
example (lib : Lib) (hch : CholeskyOK lib) (hfm : FminboundOK lib) : ∃ w' : RBF, ∃ r, w'.Rsqr = some r ∧ 0 ≤ r ∧ r ≤ 1 := by
  obtain ⟨w', h⟩ := C69_train_partial lib hch hfm { N := 1 } le_rfl _
    unisolvent_line ![3, 5] none none (by rintro u ⟨⟩) (by rintro u ⟨⟩) (Or.inr (Or.inl ⟨rfl, rfl⟩))
  obtain ⟨r, h1, h2, h3, -⟩ := C70_rsquared lib _ w' le_rfl _ _ (by intro h; have := congrFun h 0; norm_num at this)
    none none (by rintro u ⟨⟩) (by rintro u ⟨⟩) h
  exact ⟨w', r, h1, h2, h3⟩

/-- A trained model in one variable with one centre. -/
example := C32_gradient (m := 1) { N := 0, X := some (NpMat.of (Matrix.of ![![1]])), ell := some (NpVec.of ![2]),
                                   radial_weights := some (NpVec.of ![3]), poly_weights := some (NpVec.of ![4]) } le_rfl (Matrix.of ![![1]]) ![2] ![3]
  (NpVec.of ![4]) rfl rfl rfl rfl rfl

end Props
