import Verif.Props.SurfaceCoords
import Verif.Props.LocalWeights

/-!
# Property C137: a sample is a set of points with weights

The order of the points does not matter, a point may be given once or as several points that share its weight, and points of weight zero
may be left out.
-/

open Py Model.ResponseSurfaces MvPolynomial Proofs.PolyApprox Proofs.PolyTrain Proofs.Kernel Proofs.RBF Proofs.Bootstrap Spec Model.Subspaces

namespace Props

variable {S : Type} {M M' m N : ℕ}

/-! ## What is to be shown -/

/-- The same points with the same weights: all weighted sums agree. -/
def SameSample {α : Type} (x : Fin M → α) (w : Fin M → ℝ) (x' : Fin M' → α) (w' : Fin M' → ℝ) : Prop :=
  ∀ φ : α → ℝ, ∑ i, w i * φ (x i) = ∑ i, w' i * φ (x' i)

/-- Another order of the sample. -/
theorem sameSample_order {α : Type} (x : Fin M → α) (w : Fin M → ℝ) (σ : Equiv.Perm (Fin M)) :
    SameSample x w (x ∘ σ) (w ∘ σ) := fun φ => (Equiv.sum_comp σ fun i => w i * φ (x i)).symm

/-- A point given twice, with weights that add up to its weight. -/
theorem sameSample_split {α : Type} (x : Fin M → α) (w : Fin M → ℝ) (p : α) (a b : ℝ) :
    SameSample (Fin.cons p x : Fin (M + 1) → α) (Fin.cons (a + b) w : Fin (M + 1) → ℝ) (Fin.cons p (Fin.cons p x) : Fin (M + 2) → α)
      (Fin.cons a (Fin.cons b w) : Fin (M + 2) → ℝ) := fun φ => by
  simp only [Fin.sum_univ_succ, Fin.cons_zero, Fin.cons_succ]
  ring

/-! ## The estimates -/

/-- C137: the estimate from gradients depends on the gradients with their weights only. -/
theorem C137_gradients (lib : Model.Subspaces.Lib) {G : Matrix (Fin M) (Fin m) ℝ} {w : Fin M → ℝ} {G' : Matrix (Fin M') (Fin m) ℝ}
    {w' : Fin M' → ℝ} (h : SameSample (fun i => G i) w (fun i => G' i) w') :
    active_subspace lib (.mat (NpMat.of G)) (wcol w) = active_subspace lib (.mat (NpMat.of G')) (wcol w') := by
  rw [active_subspace_eq, active_subspace_eq]
  congr 2
  ext k l
  simp only [gradOuter, Matrix.of_apply]
  exact h fun g => g k * g l

/-- Two systems with the same normal equations have the same solution. -/
theorem lstsq_same {lib : Model.ResponseSurfaces.Lib} (hl : LstsqOK lib) {r r' c : ℕ} {A : Matrix (Fin r) (Fin c) ℝ} {b : Fin r → ℝ}
    {A' : Matrix (Fin r') (Fin c) ℝ} {b' : Fin r' → ℝ} (hA : A.transpose * A = A'.transpose * A')
    (hb : A.transpose.mulVec b = A'.transpose.mulVec b') : lib.lstsq r c A b = lib.lstsq r' c A' b' := by
  have key : ∀ z, IsLeastSquares A b z ↔ IsLeastSquares A' b' z := fun z => by
    rw [Proofs.LeastSquares.isLeastSquares_iff, Proofs.LeastSquares.isLeastSquares_iff, Matrix.mulVec_sub, Matrix.mulVec_sub,
      Matrix.mulVec_mulVec, Matrix.mulVec_mulVec, hA, hb]
  obtain ⟨h1, h2⟩ := hl r c A b
  obtain ⟨h3, h4⟩ := hl r' c A' b'
  exact min_norm_unique ((key _).mp h1) h3 (fun z hz => h2 z ((key z).mpr hz)) h4

/-- C137: the linear fit depends on the points, values and weights only. -/
theorem C137_linear (lib : Model.Subspaces.Lib) (hl : LstsqOK lib.surf) {X : Matrix (Fin M) (Fin m) ℝ} {f w : Fin M → ℝ}
    {X' : Matrix (Fin M') (Fin m) ℝ} {f' w' : Fin M' → ℝ} (hw : ∀ i, 0 ≤ w i) (hw' : ∀ i, 0 ≤ w' i)
    (h : SameSample (fun i => (X i, f i)) w (fun i => (X' i, f' i)) w') :
    ols_subspace lib (.mat (NpMat.of X)) (.mat (wcol f)) (wcol w) = ols_subspace lib (.mat (NpMat.of X')) (.mat (wcol f')) (wcol w') := by
  obtain ⟨u, hu, e1⟩ := ols_eq lib X f w
  obtain ⟨u', hu', e2⟩ := ols_eq lib X' f' w'
  rw [e1, e2]
  have : u = u' := by
    rw [hu, hu']
    -- a row of the design matrix as a function of the point
    have hrow : ∀ {K : ℕ} (Y : Matrix (Fin K) (Fin m) ℝ) i j, Np.hstack (Np.ones K 1) Y i j
        = (Fin.addCases (fun _ => 1) (fun k => Y i k) j : ℝ) := fun Y i j => by
      refine Fin.addCases (fun k => ?_) (fun k => ?_) j
      · rw [Np.hstack_castAdd, Fin.addCases_left]
        rfl
      · rw [Np.hstack_natAdd, Fin.addCases_right]
    refine lstsq_same hl ?_ ?_
    · ext j k
      simp only [Matrix.mul_apply, Matrix.transpose_apply, Matrix.of_apply, hrow]
      have := h fun p => (Fin.addCases (fun _ => 1) (fun k => p.1 k) j : ℝ) * (Fin.addCases (fun _ => 1) (fun k => p.1 k) k : ℝ)
      refine (Finset.sum_congr rfl fun i _ => ?_).trans (this.trans (Finset.sum_congr rfl fun i _ => ?_))
      · rw [mul_mul_mul_comm, Real.mul_self_sqrt (hw i), mul_comm]
      · rw [mul_mul_mul_comm, Real.mul_self_sqrt (hw' i), mul_comm]
    · ext j
      simp only [Matrix.mulVec, dotProduct, Matrix.transpose_apply, Matrix.of_apply, hrow]
      have := h fun p => (Fin.addCases (fun _ => 1) (fun k => p.1 k) j : ℝ) * p.2
      refine (Finset.sum_congr rfl fun i _ => ?_).trans (this.trans (Finset.sum_congr rfl fun i _ => ?_))
      · rw [mul_mul_mul_comm, Real.mul_self_sqrt (hw i), mul_comm]
      · rw [mul_mul_mul_comm, Real.mul_self_sqrt (hw' i), mul_comm]
  rw [this]

/-- `compute` without bootstrap does the same if the estimates are the same. -/
theorem compute_congr (lib : Model.Subspaces.Lib) (rng : Rng S) {X : Option (Matrix (Fin M) (Fin m) ℝ)} {f : Option (Fin M → ℝ)}
    {df : Option (Matrix (Fin M) (Fin m) ℝ)} {weights : Option (Fin M → ℝ)} {X' : Option (Matrix (Fin M') (Fin m) ℝ)} {f' : Option (Fin M' → ℝ)}
    {df' : Option (Matrix (Fin M') (Fin m) ℝ)} {weights' : Option (Fin M' → ℝ)} (h : X ≠ none ∨ df ≠ none) (h' : X' ≠ none ∨ df' ≠ none)
    {sstype ptype : String} {t : SS} (ht : SS.ofString sstype = some t) {nboot : ℤ} (hb : nboot ≤ 0)
    (hest : (estimate lib rng t X f df (weightsOf weights) : PyM (S × Subspaces) EigPair) = estimate lib rng t X' f' df' (weightsOf weights')) :
    computeOn lib rng X f df weights sstype ptype nboot = computeOn lib rng X' f' df' weights' sstype ptype nboot := by
  funext w
  change (computeOn lib rng X f df weights sstype ptype nboot).run w = (computeOn lib rng X' f' df' weights' sstype ptype nboot).run w
  unfold computeOn compute
  rw [PyM.run_bind_ok (lift_of (checkInputs_of X df h) w), PyM.run_bind_ok (lift_of (checkInputs_of X' df' h') w)]
  simp only [getD_weights, ht]
  unfold estimate at hest
  rw [hest]
  have hn : ¬ nboot > 0 := not_lt.mpr hb
  simp only [bootStep, if_neg hn]

/-- The gradient `(1, 2)` once, or twice with half the weight. -/
example : SameSample (fun _ : Fin 1 => (![1, 2] : Fin 2 → ℝ)) (fun _ => 1) (fun _ : Fin 2 => ![1, 2]) (fun _ => 1 / 2) := fun φ => by
  rw [Fin.sum_univ_one, Fin.sum_univ_two]
  ring

/-- The sample of the default weights, each point given twice. -/
example : SameSample (fun i : Fin 2 => ((![![0], ![1]] : Fin 2 → Fin 1 → ℝ) i, (![3, 4] : Fin 2 → ℝ) i)) (weightsOf none)
    (fun i : Fin 4 => ((![![0], ![1], ![0], ![1]] : Fin 4 → Fin 1 → ℝ) i, (![3, 4, 3, 4] : Fin 4 → ℝ) i)) (weightsOf none) := fun φ => by
  simp [weightsOf, Fin.sum_univ_succ]
  ring

/-- C137: `compute` with gradients, without bootstrap, does the same. -/
theorem C137_compute_gradients (lib : Model.Subspaces.Lib) (rng : Rng S) {G : Matrix (Fin M) (Fin m) ℝ} {weights : Option (Fin M → ℝ)}
    {G' : Matrix (Fin M') (Fin m) ℝ} {weights' : Option (Fin M' → ℝ)}
    (h : SameSample (fun i => G i) (weightsOf weights) (fun i => G' i) (weightsOf weights')) (ptype : String) {nboot : ℤ} (hb : nboot ≤ 0) :
    computeOn lib rng none none (some G) weights "AS" ptype nboot = computeOn lib rng none none (some G') weights' "AS" ptype nboot := by
  refine compute_congr lib rng (.inr (by simp)) (.inr (by simp)) (t := .AS) rfl hb ?_
  change PyM.lift (active_subspace lib (.mat (NpMat.of G)) (wcol (weightsOf weights))) = PyM.lift (active_subspace lib (.mat (NpMat.of G')) (wcol (weightsOf weights')))
  rw [C137_gradients lib h]

/-- C137: `compute` with a linear fit, without bootstrap, does the same. -/
theorem C137_compute_linear (lib : Model.Subspaces.Lib) (hl : LstsqOK lib.surf) (rng : Rng S) {X : Matrix (Fin M) (Fin m) ℝ} {f : Fin M → ℝ}
    {weights : Option (Fin M → ℝ)} {X' : Matrix (Fin M') (Fin m) ℝ} {f' : Fin M' → ℝ} {weights' : Option (Fin M' → ℝ)}
    (hw : ∀ i, 0 ≤ weightsOf weights i) (hw' : ∀ i, 0 ≤ weightsOf weights' i)
    (h : SameSample (fun i => (X i, f i)) (weightsOf weights) (fun i => (X' i, f' i)) (weightsOf weights')) (ptype : String) {nboot : ℤ}
    (hb : nboot ≤ 0) : computeOn lib rng (some X) (some f) none weights "OLS" ptype nboot
      = computeOn lib rng (some X') (some f') none weights' "OLS" ptype nboot := by
  refine compute_congr lib rng (.inl (by simp)) (.inl (by simp)) (t := .OLS) rfl hb ?_
  change PyM.lift (ols_subspace lib (.mat (NpMat.of X)) (.mat (wcol f)) (wcol (weightsOf weights)))
    = PyM.lift (ols_subspace lib (.mat (NpMat.of X')) (.mat (wcol f')) (wcol (weightsOf weights')))
  rw [C137_linear lib hl hw hw' h]

/-! ## Polynomials

The weights multiply the residuals before they are squared, so that the sample is the set of points with the squares of the weights. -/

/-- C137 for polynomial surfaces: the polynomial depends on the points, values and squares of the weights only. -/
theorem C137_polynomial_partial (lib : Model.ResponseSurfaces.Lib) (hl : LstsqOK lib) (w : PolyApprox) (hm : 1 ≤ m) (hN : 1 ≤ w.N)
    {X : Matrix (Fin M) (Fin m) ℝ} {f : Fin M → ℝ} {weights : Option (Fin M → ℝ)} {X' : Matrix (Fin M') (Fin m) ℝ} {f' : Fin M' → ℝ}
    {weights' : Option (Fin M' → ℝ)} (hM : (w.N + m).choose m ≤ M) (hM' : (w.N + m).choose m ≤ M')
    (h : SameSample (fun i => (X i, f i)) (fun i => (weights.getD fun _ => 1) i ^ 2) (fun i => (X' i, f' i))
      (fun i => (weights'.getD fun _ => 1) i ^ 2)) :
    ∃ w1 w2, (fit lib X f weights).run w = (.ok (), w1) ∧ (fit lib X' f' weights').run w = (.ok (), w2) ∧ w2.predict = w1.predict ∧
      w2.poly_weights = w1.poly_weights ∧ w2.g = w1.g ∧ (1 < w.N → w2.H = w1.H) := by
  obtain ⟨I, hI, hnd, hmem, hlen, w1, r1, t1⟩ := train_run lib w hm hN X f weights hM
  obtain ⟨I', hI', -, -, -, w2, r2, t2⟩ := train_run lib w hm hN X' f' weights' hM'
  obtain rfl : I = I' := Except.ok.inj (hI.symm.trans hI')
  have hA : ∀ {K : ℕ} (v : Option (Fin K → ℝ)) (Y : Matrix (Fin K) (Fin m) ℝ) (g : Fin K → ℝ) i j,
      (applyWeights v (monomials Y I) g).1 i j = (v.getD fun _ => 1) i * monomials Y I i j := fun v Y g i j => by
    cases v <;> simp [applyWeights]
  have hb : ∀ {K : ℕ} (v : Option (Fin K → ℝ)) (Y : Matrix (Fin K) (Fin m) ℝ) (g : Fin K → ℝ) i,
      (applyWeights v (monomials Y I) g).2 i = (v.getD fun _ => 1) i * g i := fun v Y g i => by
    cases v <;> simp [applyWeights]
  have hc : lib.lstsq M I.length (applyWeights weights (monomials X I) f).1 (applyWeights weights (monomials X I) f).2
      = lib.lstsq M' I.length (applyWeights weights' (monomials X' I) f').1 (applyWeights weights' (monomials X' I) f').2 := by
    have hmon : ∀ {K : ℕ} (Y : Matrix (Fin K) (Fin m) ℝ) i j, monomials Y I i j = ∏ k, Y i k ^ I.get j k := fun Y i j => rfl
    refine lstsq_same hl ?_ ?_
    · ext j k
      simp only [Matrix.mul_apply, Matrix.transpose_apply, hA, hmon]
      have := h fun p => (∏ l, p.1 l ^ I.get j l) * ∏ l, p.1 l ^ I.get k l
      refine (Finset.sum_congr rfl fun i _ => ?_).trans (this.trans (Finset.sum_congr rfl fun i _ => ?_)) <;> ring
    · ext j
      simp only [Matrix.mulVec, dotProduct, Matrix.transpose_apply, hA, hb, hmon]
      have := h fun p => (∏ l, p.1 l ^ I.get j l) * p.2
      refine (Finset.sum_congr rfl fun i _ => ?_).trans (this.trans (Finset.sum_congr rfl fun i _ => ?_)) <;> ring
  refine ⟨w1, w2, r1, r2, ?_, ?_, ?_, fun h => ?_⟩
  · have e : w2.poly_weights = w1.poly_weights := by rw [t2.hc, t1.hc, hc]
    funext Y cg
    simp only [PolyApprox.predict, PolyApprox.predictMat, e, t1.hN, t2.hN]
  · rw [t2.hc, t1.hc, hc]
  · rw [t2.hg, t1.hg, hc]
  · rw [t2.hH h, t1.hH h, hc]

/-- C137: the order of the sample does not matter for polynomial surfaces. -/
theorem C137_polynomial (lib : Model.ResponseSurfaces.Lib) (hl : LstsqOK lib) (w : PolyApprox) (hm : 1 ≤ m) (hN : 1 ≤ w.N)
    (X : Matrix (Fin M) (Fin m) ℝ) (f : Fin M → ℝ) (weights : Option (Fin M → ℝ)) (hM : (w.N + m).choose m ≤ M) (σ : Equiv.Perm (Fin M)) :
    ∃ w1 w2, (fit lib X f weights).run w = (.ok (), w1) ∧
      (fit lib (Matrix.of fun i j => X (σ i) j) (f ∘ σ) (weights.map (· ∘ σ))).run w = (.ok (), w2) ∧ w2.predict = w1.predict ∧
      w2.poly_weights = w1.poly_weights ∧ w2.g = w1.g ∧ (1 < w.N → w2.H = w1.H) := by
  refine C137_polynomial_partial lib hl w hm hN hM hM ?_
  have h := sameSample_order (fun i => (X i, f i)) (fun i => (weights.getD fun _ => 1) i ^ 2) σ
  cases weights <;> exact h

/-- Two values at zero, and one value at 1 given once with weight 2 or four times with weight 1. -/
example : SameSample (fun i : Fin 3 => ((![![0], ![0], ![1]] : Fin 3 → Fin 1 → ℝ) i, (![3, 4, 5] : Fin 3 → ℝ) i)) (fun i => (![1, 1, 2] : Fin 3 → ℝ) i ^ 2)
    (fun i : Fin 6 => ((![![0], ![0], ![1], ![1], ![1], ![1]] : Fin 6 → Fin 1 → ℝ) i, (![3, 4, 5, 5, 5, 5] : Fin 6 → ℝ) i)) (fun _ => 1 ^ 2) := fun φ => by
  simp [Fin.sum_univ_succ]
  ring

/-- The constant of `qphd_subspace` depends on the points only. -/
theorem gamma_same {X : Matrix (Fin M) (Fin m) ℝ} {f w : Fin M → ℝ} {X' : Matrix (Fin M') (Fin m) ℝ} {f' w' : Fin M' → ℝ} (hm : 0 < m)
    (hM : 0 < M) (hM' : 0 < M') (hw : ∀ i, w i ≠ 0) (hw' : ∀ i, w' i ≠ 0)
    (h : SameSample (fun i => (X i, f i)) (fun i => w i ^ 2) (fun i => (X' i, f' i)) (fun i => w' i ^ 2)) :
    gamma (NpMat.of X') = gamma (NpMat.of X) := by
  classical
  have key : ∀ {K : ℕ} (Y : Matrix (Fin K) (Fin m) ℝ) (g v : Fin K → ℝ), (∀ i, v i ≠ 0) →
      ((∃ i j, 1 < Y i j) ↔ 0 < ∑ i, v i ^ 2 * (fun p : (Fin m → ℝ) × ℝ => if ∃ j, 1 < p.1 j then (1 : ℝ) else 0) (Y i, g i)) :=
    fun Y g v hv => by
      have h0 : ∀ i ∈ Finset.univ, 0 ≤ v i ^ 2 * (fun p : (Fin m → ℝ) × ℝ => if ∃ j, 1 < p.1 j then (1 : ℝ) else 0) (Y i, g i) :=
        fun i _ => mul_nonneg (sq_nonneg _) (by dsimp only; split_ifs <;> norm_num)
      constructor
      · rintro ⟨i, hi⟩
        refine Finset.sum_pos' h0 ⟨i, Finset.mem_univ i, ?_⟩
        dsimp only
        rw [if_pos hi, mul_one]
        have := hv i
        positivity
      · intro hp
        by_contra hn
        push Not at hn
        refine hp.ne' (Finset.sum_eq_zero fun i _ => ?_)
        dsimp only
        rw [if_neg (by push Not; exact hn i), mul_zero]
  have hiff : (∃ i j, 1 < X i j) ↔ ∃ i j, 1 < X' i j := by
    rw [key X f w hw, key X' f' w' hw']
    exact Iff.of_eq (congrArg (fun t : ℝ => 0 < t) (h fun p => if ∃ j, 1 < p.1 j then (1 : ℝ) else 0))
  rcases gamma_of X hM hm with ⟨h1, e1⟩ | ⟨h1, e1⟩ <;> rcases gamma_of X' hM' hm with ⟨h2, e2⟩ | ⟨h2, e2⟩
  · rw [e1, e2]
  · obtain ⟨i, j, hij⟩ := hiff.mp h1
    exact absurd (h2 i j) (not_le.mpr hij)
  · obtain ⟨i, j, hij⟩ := hiff.mpr h2
    exact absurd (h1 i j) (not_le.mpr hij)
  · rw [e1, e2]

/-- C137 for the quadratic fit: the estimate depends on the points, values and squares of the weights only. -/
theorem C137_quadratic_partial (lib : Model.Subspaces.Lib) (hl : LstsqOK lib.surf) (hm : 1 ≤ m) {X : Matrix (Fin M) (Fin m) ℝ} {f w : Fin M → ℝ}
    {X' : Matrix (Fin M') (Fin m) ℝ} {f' w' : Fin M' → ℝ} (hM : (2 + m).choose m ≤ M) (hM' : (2 + m).choose m ≤ M') (hw : ∀ i, w i ≠ 0)
    (hw' : ∀ i, w' i ≠ 0) (h : SameSample (fun i => (X i, f i)) (fun i => w i ^ 2) (fun i => (X' i, f' i)) (fun i => w' i ^ 2)) :
    qphd_subspace lib (.mat (NpMat.of X)) (.mat (wcol f)) (wcol w) = qphd_subspace lib (.mat (NpMat.of X')) (.mat (wcol f')) (wcol w') := by
  have hpos : 0 < (2 + m).choose m := Nat.choose_pos (by omega)
  obtain ⟨w1, w2, r1, r2, -, -, hg, hH⟩ := C137_polynomial_partial lib.surf hl { N := 2 } hm (by norm_num) (weights := some w) (weights' := some w')
    hM hM' h
  have hH := hH (by norm_num)
  unfold qphd_subspace
  rw [process_col, process_col]
  have hγ := gamma_same hm (hpos.trans_le hM) (hpos.trans_le hM') hw hw' h
  change (do
    let gamma ← gamma (NpMat.of X)
    let weights ← toVec (wcol w)
    match (Model.ResponseSurfaces.PolyApprox.train lib.surf (.mat (NpMat.of X)) (.mat (wcol f)) (some weights)).run { N := 2 } with
    | (.error e, _) => .error e
    | (.ok _, pr) =>
      match pr.g, pr.H with
      | some b, some A => do
        let AA ← NpMat.dot A A.transpose
        let C ← NpMat.zipB (· + ·) ⟨b.n, b.n, Matrix.of fun i j => b.val i * b.val j⟩ (AA.map (gamma * ·))
        sorted_eigh lib C
      | _, _ => .error .attributeError) = (do
    let gamma ← gamma (NpMat.of X')
    let weights ← toVec (wcol w')
    match (Model.ResponseSurfaces.PolyApprox.train lib.surf (.mat (NpMat.of X')) (.mat (wcol f')) (some weights)).run { N := 2 } with
    | (.error e, _) => .error e
    | (.ok _, pr) =>
      match pr.g, pr.H with
      | some b, some A => do
        let AA ← NpMat.dot A A.transpose
        let C ← NpMat.zipB (· + ·) ⟨b.n, b.n, Matrix.of fun i j => b.val i * b.val j⟩ (AA.map (gamma * ·))
        sorted_eigh lib C
      | _, _ => .error .attributeError)
  rw [hγ]
  cases gamma (NpMat.of X) with
  | error e => rfl
  | ok γ =>
    have hv : toVec (wcol w) = .ok (NpVec.of w) := rfl
    have hv' : toVec (wcol w') = .ok (NpVec.of w') := rfl
    rw [hv, hv']
    simp only [bind, Except.bind]
    erw [r1, r2]
    simp only [hg, hH]

/-! ## The points with their weights do not determine the quadratic fit -/

/-- A quadratic in one variable through `a` at zero and through zero at 1 and -1. -/
theorem quad_values {P : MvPolynomial (Fin 1) ℝ} (hP : P.totalDegree ≤ 2) (h1 : eval ![1] P = 0) (h2 : eval ![-1] P = 0) :
    eval 0 (pderiv 0 P) = 0 ∧ eval 0 (pderiv 0 (pderiv 0 P)) = -2 * eval ![0] P := by
  have h0 : (![0] : Fin 1 → ℝ) = 0 := by
    funext i
    fin_cases i
    rfl
  rw [taylor_two P hP] at h1 h2
  simp only [Fin.sum_univ_one, Matrix.cons_val_zero] at h1 h2
  rw [h0]
  constructor <;> linarith

/-- The quadratic fit to the values `v i` at zero with weights `u i`, and to the value zero at 1 and -1. -/
theorem quad_middle (lib : Model.Subspaces.Lib) (hl : SubLibOK lib) {M : ℕ} (hM : 3 ≤ M) {X : Matrix (Fin M) (Fin 1) ℝ} {f w : Fin M → ℝ}
    {a t : ℝ} (hX : ∀ i j, X i j ≤ 1)
    (hS : ∀ q : (Fin 1 → ℝ) → ℝ, ∑ i, (w i * (q (X i) - f i)) ^ 2 = a * (q ![0] - t) ^ 2 + (∑ i, (w i * f i) ^ 2 - a * t ^ 2) + q ![1] ^ 2 + q ![-1] ^ 2)
    (ha : 0 < a) : ∃ (e : Fin 1 → ℝ) (W : Matrix (Fin 1) (Fin 1) ℝ),
      qphd_subspace lib (.mat (NpMat.of X)) (.mat (wcol f)) (wcol w) = .ok ⟨1, e, W⟩ ∧ e 0 = 4 / 3 * t ^ 2 := by
  have hγ : gamma (NpMat.of X) = .ok (1 / 3) := by
    rcases gamma_of X (by omega) one_pos with ⟨⟨i, j, h⟩, -⟩ | ⟨-, h⟩
    · exact absurd (hX i j) (not_le.mpr h)
    · exact h
  obtain ⟨P, hdeg, hmin, heq⟩ := qphd_eq lib hl.lstsq le_rfl X f w (by simpa using hM) hγ
  -- the quadratic `t (1 - x^2)` is at least as good
  have hq : (C t * (1 - MvPolynomial.X 0 ^ 2) : MvPolynomial (Fin 1) ℝ).totalDegree ≤ 2 := by
    refine (totalDegree_mul _ _).trans ?_
    rw [totalDegree_C, zero_add]
    refine (totalDegree_sub _ _).trans (max_le (by simp) ?_)
    refine (totalDegree_pow _ _).trans ?_
    rw [totalDegree_X]
  have h1 := hmin _ hq
  rw [hS fun x => eval x P, hS fun x => eval x (C t * (1 - MvPolynomial.X 0 ^ 2))] at h1
  simp only [map_mul, map_sub, map_one, map_pow, eval_X, eval_C, Matrix.cons_val_zero] at h1
  norm_num at h1
  have hb0 : (eval ![0] P - t) ^ 2 = 0 := by
    have : a * (eval ![0] P - t) ^ 2 ≤ 0 := by nlinarith [sq_nonneg (eval ![1] P), sq_nonneg (eval ![-1] P)]
    exact le_antisymm (nonpos_of_mul_nonpos_right this ha) (sq_nonneg _)
  rw [hb0] at h1
  have hb1 : eval ![1] P = 0 := by
    have : eval ![1] P ^ 2 ≤ 0 := by nlinarith [sq_nonneg (eval ![-1] P)]
    exact pow_eq_zero_iff (by norm_num) |>.mp (le_antisymm this (sq_nonneg _))
  have hb2 : eval ![-1] P = 0 := by
    have : eval ![-1] P ^ 2 ≤ 0 := by nlinarith [sq_nonneg (eval ![1] P)]
    exact pow_eq_zero_iff (by norm_num) |>.mp (le_antisymm this (sq_nonneg _))
  obtain ⟨g1, g2⟩ := quad_values hdeg hb1 hb2
  have hb3 : eval ![0] P = t := by
    have := pow_eq_zero_iff (n := 2) (by norm_num) |>.mp hb0
    linarith
  rw [hb3] at g2
  obtain ⟨e, W, h, hs⟩ := C34_posSemidef lib hl (by norm_num) _ (qphd_posSemidef (fun k => eval 0 (pderiv k P))
    (Matrix.of fun k r => eval 0 (pderiv k (pderiv r P))) (by norm_num : (0 : ℝ) ≤ 1 / 3))
  refine ⟨e, W, heq.trans h, ?_⟩
  have hv := congrFun (hs.vec 0) 0
  have ho := hs.orth 0 0
  rw [Matrix.mulVec, dotProduct, Fin.sum_univ_one, Matrix.of_apply, Fin.sum_univ_one, Matrix.of_apply, g1, g2,
    Pi.smul_apply, smul_eq_mul] at hv
  rw [Fin.sum_univ_one, if_pos rfl] at ho
  have hW : W 0 0 ≠ 0 := fun h => by rw [h] at ho; norm_num at ho
  have := mul_right_cancel₀ hW hv
  linarith

theorem of_row {n k : ℕ} (v : Fin n → Fin k → ℝ) (i : Fin n) : (Matrix.of v : Matrix (Fin n) (Fin k) ℝ) i = v i := rfl

/-- C137 fails for the quadratic fit.  At zero the value 0 with weight 2 and the value 1 with weight 1, and the value zero at 1 and -1: the
eigenvalue is 4/75.  With the value 0 at zero given twice with weight 1 it is 4/27. -/
theorem C137_quadratic_refuted (lib : Model.Subspaces.Lib) (hl : SubLibOK lib) :
    ∃ (X : Matrix (Fin 4) (Fin 1) ℝ) (f w : Fin 4 → ℝ) (X' : Matrix (Fin 5) (Fin 1) ℝ) (f' w' : Fin 5 → ℝ) (e : Fin 1 → ℝ)
      (W : Matrix (Fin 1) (Fin 1) ℝ) (e' : Fin 1 → ℝ) (W' : Matrix (Fin 1) (Fin 1) ℝ),
      (∀ i, 0 < w i) ∧ (∀ i, 0 < w' i) ∧ SameSample (fun i => (X i, f i)) w (fun i => (X' i, f' i)) w' ∧
      qphd_subspace lib (.mat (NpMat.of X)) (.mat (wcol f)) (wcol w) = .ok ⟨1, e, W⟩ ∧
      qphd_subspace lib (.mat (NpMat.of X')) (.mat (wcol f')) (wcol w') = .ok ⟨1, e', W'⟩ ∧ e 0 = 4 / 75 ∧ e' 0 = 4 / 27 := by
  obtain ⟨e, W, h1, h2⟩ := quad_middle lib hl (M := 4) (by norm_num) (X := Matrix.of ![![0], ![0], ![1], ![-1]]) (f := ![0, 1, 0, 0])
    (w := ![2, 1, 1, 1]) (a := 5) (t := 1 / 5) (by intro i j; fin_cases i <;> fin_cases j <;> norm_num)
    (fun q => by simp only [of_row]; simp [Fin.sum_univ_succ]; ring) (by norm_num)
  obtain ⟨e', W', h1', h2'⟩ := quad_middle lib hl (M := 5) (by norm_num) (X := Matrix.of ![![0], ![0], ![0], ![1], ![-1]]) (f := ![0, 0, 1, 0, 0])
    (w := ![1, 1, 1, 1, 1]) (a := 3) (t := 1 / 3) (by intro i j; fin_cases i <;> fin_cases j <;> norm_num)
    (fun q => by simp only [of_row]; simp [Fin.sum_univ_succ]; ring) (by norm_num)
  refine ⟨_, _, _, _, _, _, e, W, e', W', ?_, ?_, fun φ => ?_, h1, h1', ?_, ?_⟩
  · intro i
    fin_cases i <;> norm_num
  · intro i
    fin_cases i <;> norm_num
  · simp only [of_row]
    simp [Fin.sum_univ_succ]
    ring
  · rw [h2]
    norm_num
  · rw [h2']
    norm_num

/-! ## Radial basis functions -/

/-- The rows in another order. -/
def reorder {k : ℕ} (σ : Equiv.Perm (Fin M)) (X : Matrix (Fin M) (Fin k) ℝ) : Matrix (Fin M) (Fin k) ℝ := X.submatrix σ id

theorem colMat_reorder (σ : Equiv.Perm (Fin M)) (f : Fin M → ℝ) : colMat (f ∘ σ) = (colMat f).submatrix σ id := rfl

theorem monomials_reorder (σ : Equiv.Perm (Fin M)) (X : Matrix (Fin M) (Fin m) ℝ) (I : List (Fin m → ℕ)) :
    monomials (reorder σ X) I = (monomials X I).submatrix σ id := rfl

theorem covMat_reorder (σ : Equiv.Perm (Fin M)) (X : Matrix (Fin M) (Fin m) ℝ) (ell : Fin m → ℝ) (v : Fin M → ℝ) :
    covMat (reorder σ X) ⟨ell, v ∘ σ⟩ = (covMat X ⟨ell, v⟩).submatrix σ σ := by
  ext i j
  simp only [covMat, Matrix.add_apply, Matrix.submatrix_apply, Matrix.diagonal_apply, Function.comp_apply, EmbeddingLike.apply_eq_iff_eq]
  rfl

theorem params_reorder (σ : Equiv.Perm (Fin M)) (g : ℝ) (v : Option (Fin M → ℝ)) (e : Option NpVec) :
    params M m g ((v.map (· ∘ σ)).map NpVec.of) e = (params M m g (v.map NpVec.of) e).map fun q => ⟨q.ell, q.v ∘ σ⟩ := by
  cases v with
  | none =>
    cases e with
    | none => rfl
    | some e =>
      by_cases h : m ≤ e.n
      · simp only [params, Option.map_none, dif_pos h]
        rfl
      · simp only [params, Option.map_none, dif_neg h]
        rfl
  | some v =>
    cases e with
    | none =>
      simp only [params, Option.map_some]
      rw [dif_pos (show (NpVec.of (v ∘ σ)).n = M from rfl), dif_pos (show (NpVec.of v).n = M from rfl)]
      rfl
    | some e =>
      by_cases h : m ≤ e.n
      · simp only [params, Option.map_some, dif_pos h]
        rw [dif_pos (show (NpVec.of (v ∘ σ)).n = M from rfl), dif_pos (show (NpVec.of v).n = M from rfl)]
        rfl
      · simp only [params, Option.map_some, dif_neg h]
        rfl

theorem covMat_transpose (X : Matrix (Fin M) (Fin m) ℝ) (q : Params M m) : (covMat X q).transpose = covMat X q := by
  rw [covMat, Matrix.transpose_add, Matrix.diagonal_transpose]
  congr 1
  ext i j
  simp only [exponential_squared, Matrix.transpose_apply, Matrix.of_apply]
  congr 2
  exact Finset.sum_congr rfl fun k _ => by ring

theorem quad_reorder {a b : ℕ} (σ : Equiv.Perm (Fin M)) (K : Matrix (Fin M) (Fin M) ℝ) (A : Matrix (Fin M) (Fin a) ℝ) (B : Matrix (Fin M) (Fin b) ℝ) :
    (A.submatrix σ id).transpose * ((K.submatrix σ σ)⁻¹ * B.submatrix σ id) = A.transpose * (K⁻¹ * B) := by
  rw [Matrix.inv_submatrix_equiv, Matrix.submatrix_mul_equiv, Matrix.transpose_submatrix, Matrix.submatrix_mul_equiv, Matrix.submatrix_id_id]

theorem posDef_reorder (σ : Equiv.Perm (Fin M)) {K : Matrix (Fin M) (Fin M) ℝ} : (K.submatrix σ σ).PosDef ↔ K.PosDef := by
  constructor
  · intro h
    have := h.submatrix σ.symm.injective
    rwa [Matrix.submatrix_submatrix, Equiv.self_comp_symm, Matrix.submatrix_id_id] at this
  · intro h
    exact h.submatrix σ.injective

/-- The training objective is the same function. -/
theorem objective_reorder {lib : Model.ResponseSurfaces.Lib} (hch : CholeskyOK lib) (hm : 1 ≤ m) (σ : Equiv.Perm (Fin M)) (X : Matrix (Fin M) (Fin m) ℝ)
    (f : Fin M → ℝ) (v : Option (Fin M → ℝ)) (e : Option NpVec) (t : ℝ) :
    rbf_objective lib (reorder σ X) (f ∘ σ) ((v.map (· ∘ σ)).map NpVec.of) N e t = rbf_objective lib X f (v.map NpVec.of) N e t := by
  obtain ⟨I, hI, hnd, hmem, -⟩ := C25_enumerates N m hm
  have hb : ∀ Z : Matrix (Fin M) (Fin m) ℝ, polynomial_bases Z N = .ok ⟨I, monomials Z I⟩ := fun Z => by rw [polynomial_bases, hI]
  have hp := params_reorder (m := m) σ ((10 : ℝ) ^ t) v e
  unfold rbf_objective
  cases hq : params M m ((10 : ℝ) ^ t) (v.map NpVec.of) e with
  | error er =>
    rw [hq] at hp
    rw [bind_of_error hp, bind_of_error hq]
  | ok q =>
    rw [hq] at hp
    rw [bind_of_ok hp, bind_of_ok hq, covMat_reorder]
    change (do
      let L ← lib.cholesky M ((covMat X q).submatrix σ σ)
      _) = _
    have hsym := covMat_transpose X q
    set K := covMat X q
    have hsym' : (K.submatrix σ σ).transpose = K.submatrix σ σ := by rw [Matrix.transpose_submatrix, hsym]
    by_cases hpd : K.PosDef
    swap
    · rw [bind_of_error ((hch M K hsym).2 hpd), bind_of_error ((hch M _ hsym').2 fun h => hpd ((posDef_reorder σ).mp h))]
    obtain ⟨L, hL, hL1⟩ := (hch M K hsym).1 hpd
    obtain ⟨L', hL', hL1'⟩ := (hch M _ hsym').1 ((posDef_reorder σ).mpr hpd)
    rw [bind_of_ok hL, bind_of_ok hL', bind_of_ok (hb X), bind_of_ok (hb (reorder σ X))]
    simp only
    have hK : IsUnit K.det := hpd.det_pos.ne'.isUnit
    have hK' : IsUnit (K.submatrix σ σ).det := by rwa [Matrix.det_submatrix_equiv_self]
    rw [bind_of_ok (solve_ok hK _), bind_of_ok (solve_ok hK _), bind_of_ok (solve_ok hK' _), bind_of_ok (solve_ok hK' _), monomials_reorder,
      colMat_reorder, quad_reorder, quad_reorder]
    by_cases hG : IsUnit ((monomials X I).transpose * (K⁻¹ * monomials X I)).det
    swap
    · have h1 : ∀ Z : Matrix (Fin I.length) (Fin 1) ℝ, Np.solve ((monomials X I).transpose * (K⁻¹ * monomials X I)) Z = .error .linAlgError :=
        fun Z => by rw [Np.solve, if_neg hG]
      rw [bind_of_error (h1 _), bind_of_error (h1 _)]
    rw [bind_of_ok (solve_ok hG _), bind_of_ok (solve_ok hG _), bind_of_ok (solve_ok hK _), bind_of_ok (solve_ok hK' _)]
    have hres : ∀ β : Matrix (Fin I.length) (Fin 1) ℝ, (colMat f).submatrix σ id - (monomials X I).submatrix σ id * β
        = (colMat f - monomials X I * β).submatrix σ id := fun β => by
      ext i j
      simp [Matrix.mul_apply]
    rw [hres, quad_reorder, log_det_cholesky hL1, log_det_cholesky hL1', Matrix.det_submatrix_equiv_self]

/-- The order of the rows of the block matrix. -/
def blockPerm (σ : Equiv.Perm (Fin M)) (p : ℕ) : Equiv.Perm (Fin (M + p)) :=
  finSumFinEquiv.symm.trans ((Equiv.sumCongr σ (Equiv.refl (Fin p))).trans finSumFinEquiv)

theorem saddle_reorder {p : ℕ} (σ : Equiv.Perm (Fin M)) (K : Matrix (Fin M) (Fin M) ℝ) (B : Matrix (Fin M) (Fin p) ℝ) :
    saddle (K.submatrix σ σ) (B.submatrix σ id) = (saddle K B).submatrix (blockPerm σ p) (blockPerm σ p) := by
  have h1 : ∀ i, blockPerm σ p (Fin.castAdd p i) = Fin.castAdd p (σ i) := fun i => by simp [blockPerm]
  have h2 : ∀ i, blockPerm σ p (Fin.natAdd M i) = Fin.natAdd M i := fun i => by simp [blockPerm]
  ext a b
  rw [Matrix.submatrix_apply]
  refine Fin.addCases (fun i => ?_) (fun i => ?_) a <;> refine Fin.addCases (fun j => ?_) (fun j => ?_) b <;>
    simp only [h1, h2, saddle, Np.hstack_castAdd, Np.hstack_natAdd, Np.vstack_castAdd, Np.vstack_natAdd] <;> rfl

theorem rbfFit_reorder (hm : 1 ≤ m) (σ : Equiv.Perm (Fin M)) (X : Matrix (Fin M) (Fin m) ℝ) (f : Fin M → ℝ) (v : Option (Fin M → ℝ))
    (e : Option NpVec) (g : ℝ) :
    (∃ er, rbfFit X f (v.map NpVec.of) N e g = .error er ∧ rbfFit (reorder σ X) (f ∘ σ) ((v.map (· ∘ σ)).map NpVec.of) N e g = .error er) ∨
      ∃ t t' : Fit M m, rbfFit X f (v.map NpVec.of) N e g = .ok t ∧ rbfFit (reorder σ X) (f ∘ σ) ((v.map (· ∘ σ)).map NpVec.of) N e g = .ok t' ∧
        t'.q.ell = t.q.ell ∧ t'.K = t.K.submatrix σ σ ∧ t'.radial = t.radial ∘ σ ∧ fitted t'.I t'.poly = fitted t.I t.poly ∧ t'.Rsqr = t.Rsqr := by
  obtain ⟨I, hI, hnd, hmem, -⟩ := C25_enumerates N m hm
  have hb : ∀ Z : Matrix (Fin M) (Fin m) ℝ, polynomial_bases Z N = .ok ⟨I, monomials Z I⟩ := fun Z => by rw [polynomial_bases, hI]
  have hp := params_reorder (m := m) σ g v e
  cases hq : params M m g (v.map NpVec.of) e with
  | error er =>
    rw [hq] at hp
    refine .inl ⟨er, ?_, ?_⟩
    · unfold rbfFit
      rw [bind_of_error hq]
    · unfold rbfFit
      rw [bind_of_error hp]
  | ok q =>
    rw [hq] at hp
    have hcov : covMat (reorder σ X) (floored ⟨q.ell, q.v ∘ σ⟩) = (covMat X (floored q)).submatrix σ σ :=
      covMat_reorder σ X q.ell fun i => max (q.v i) 1e-6
    have hsad := saddle_reorder σ (covMat X (floored q)) (monomials X I)
    rw [← monomials_reorder, ← hcov] at hsad
    have hSd : (saddle (covMat (reorder σ X) (floored ⟨q.ell, q.v ∘ σ⟩)) (monomials (reorder σ X) I)).det
        = (saddle (covMat X (floored q)) (monomials X I)).det := by rw [hsad, Matrix.det_submatrix_equiv_self]
    have hKd : (covMat (reorder σ X) (floored ⟨q.ell, q.v ∘ σ⟩)).det = (covMat X (floored q)).det := by
      rw [hcov, Matrix.det_submatrix_equiv_self]
    by_cases hS : IsUnit (saddle (covMat X (floored q)) (monomials X I)).det
    swap
    · refine .inl ⟨.linAlgError, ?_, ?_⟩
      · unfold rbfFit
        rw [bind_of_ok hq, bind_of_ok (hb X)]
        simp only
        rw [bind_of_error (show Np.solve _ _ = .error .linAlgError by rw [Np.solve, if_neg hS])]
      · unfold rbfFit
        rw [bind_of_ok hp, bind_of_ok (hb _)]
        simp only
        rw [← hSd] at hS
        rw [bind_of_error (show Np.solve _ _ = .error .linAlgError by rw [Np.solve, if_neg hS])]
    have hS' : IsUnit (saddle (covMat (reorder σ X) (floored ⟨q.ell, q.v ∘ σ⟩)) (monomials (reorder σ X) I)).det := hSd ▸ hS
    by_cases hK : IsUnit (covMat X (floored q)).det
    swap
    · refine .inl ⟨.linAlgError, ?_, ?_⟩
      · unfold rbfFit
        rw [bind_of_ok hq, bind_of_ok (hb X)]
        simp only
        rw [bind_of_ok (solve_ok hS _), bind_of_error (show Np.solve _ _ = .error .linAlgError by rw [Np.solve, if_neg hK])]
      · unfold rbfFit
        rw [bind_of_ok hp, bind_of_ok (hb _)]
        simp only
        rw [← hKd] at hK
        rw [bind_of_ok (solve_ok hS' _), bind_of_error (show Np.solve _ _ = .error .linAlgError by rw [Np.solve, if_neg hK])]
    have hK' : IsUnit (covMat (reorder σ X) (floored ⟨q.ell, q.v ∘ σ⟩)).det := hKd ▸ hK
    obtain ⟨t, ht⟩ : ∃ t, rbfFit X f (v.map NpVec.of) N e g = .ok t := by
      unfold rbfFit
      rw [bind_of_ok hq, bind_of_ok (hb X)]
      simp only
      rw [bind_of_ok (solve_ok hS _), bind_of_ok (solve_ok hK _), bind_of_ok (solve_ok hK _)]
      exact ⟨_, rfl⟩
    obtain ⟨t', ht'⟩ : ∃ t, rbfFit (reorder σ X) (f ∘ σ) ((v.map (· ∘ σ)).map NpVec.of) N e g = .ok t := by
      unfold rbfFit
      rw [bind_of_ok hp, bind_of_ok (hb _)]
      simp only
      rw [bind_of_ok (solve_ok hS' _), bind_of_ok (solve_ok hK' _), bind_of_ok (solve_ok hK' _)]
      exact ⟨_, rfl⟩
    refine .inr ⟨t, t', ht, ht', ?_⟩
    obtain ⟨q1, hq1, hqt, hKt, hIt, -, -, e1, e2, e3⟩ := rbfFit_spec ht
    obtain ⟨q2, hq2, hqt', hKt', hIt', -, -, e1', e2', e3'⟩ := rbfFit_spec ht'
    obtain rfl := Except.ok.inj (hq1.symm.trans hq)
    obtain rfl := Except.ok.inj (hq2.symm.trans hp)
    obtain ⟨q', K, I1, r, u, R⟩ := t
    obtain ⟨q'', K', I2, r', u', R'⟩ := t'
    simp only at hqt hKt hIt e1 e2 e3 hqt' hKt' hIt' e1' e2' e3' ⊢
    subst hqt hqt'
    obtain rfl := Except.ok.inj (hIt.symm.trans hI)
    obtain rfl := Except.ok.inj (hIt'.symm.trans hIt)
    have hKK : K' = K.submatrix σ σ := by rw [hKt', hKt, hcov]
    have hmul : ∀ {k : ℕ} (A : Matrix (Fin M) (Fin k) ℝ) (x : Fin k → ℝ), (A.submatrix σ id).mulVec x = A.mulVec x ∘ σ := fun A x => rfl
    have hmul2 : ∀ (A : Matrix (Fin M) (Fin M) ℝ) (x : Fin M → ℝ), (A.submatrix σ σ).mulVec (x ∘ σ) = A.mulVec x ∘ σ := fun A x => by
      rw [Matrix.submatrix_mulVec_equiv]
      simp [Function.comp_assoc]
    have hdot : ∀ x y : Fin M → ℝ, (x ∘ σ) ⬝ᵥ (y ∘ σ) = x ⬝ᵥ y := fun x y => Equiv.sum_comp σ fun i => x i * y i
    have hsol := saddle_unique hS' (r := r') (r' := r ∘ σ) (u := u') (u' := u) (by
      rw [← hKt', e1', hKK, hmul2, monomials_reorder, hmul, ← e1]
      rfl) (by
      rw [e2', monomials_reorder, Matrix.transpose_submatrix]
      rw [Matrix.submatrix_mulVec_equiv]
      simp only [Function.comp_assoc, Equiv.self_comp_symm, Function.comp_id]
      rw [e2])
    obtain ⟨hr, hu⟩ := hsol
    subst hr hu
    refine ⟨rfl, hKK, rfl, rfl, ?_⟩
    have hsub : (f ∘ σ) - (monomials (reorder σ X) I2).mulVec u' = (f - (monomials X I2).mulVec u') ∘ σ := by
      rw [monomials_reorder, hmul]
      rfl
    rw [e3', e3, hsub, hKK, Matrix.inv_submatrix_equiv, hmul2, hmul2, hdot, hdot]

theorem surface_reorder (σ : Equiv.Perm (Fin M)) (X : Matrix (Fin M) (Fin m) ℝ) (ell : Fin m → ℝ) (r : Fin M → ℝ) (P : MvPolynomial (Fin m) ℝ) :
    surface (reorder σ X) ell (r ∘ σ) P = surface X ell r P ∧ surfaceGrad (reorder σ X) ell (r ∘ σ) P = surfaceGrad X ell r P := by
  constructor
  · funext y
    rw [surface, surface]
    congr 1
    exact Equiv.sum_comp σ fun i => r i * Real.exp (-∑ k, (y k - X i k) ^ 2 / ell k)
  · funext y k
    rw [surfaceGrad, surfaceGrad]
    congr 1
    exact Equiv.sum_comp σ fun i => r i * (Real.exp (-∑ k, (y k - X i k) ^ 2 / ell k) * (-(2 * (y k - X i k) / ell k)))

/-- C137: the order of the sample does not matter for `RadialBasisApproximation`: training fails with the same exception, or the surface is
the same. -/
theorem C137_rbf (lib : Model.ResponseSurfaces.Lib) (hch : CholeskyOK lib) (w : RBF) (hm : 1 ≤ m) (σ : Equiv.Perm (Fin M)) (X : Matrix (Fin M) (Fin m) ℝ)
    (f : Fin M → ℝ) (v : Option (Fin M → ℝ)) (e : Option NpVec) :
    (∃ er, (rfit lib X f (v.map NpVec.of) e).run w = (.error er, w) ∧
        (rfit lib (reorder σ X) (f ∘ σ) ((v.map (· ∘ σ)).map NpVec.of) e).run w = (.error er, w)) ∨
      ∃ w1 w2, (rfit lib X f (v.map NpVec.of) e).run w = (.ok (), w1) ∧
        (rfit lib (reorder σ X) (f ∘ σ) ((v.map (· ∘ σ)).map NpVec.of) e).run w = (.ok (), w2) ∧
        (∀ (K : ℕ) (Y : Matrix (Fin K) (Fin m) ℝ) cg, w2.predict (.mat (NpMat.of Y)) cg = w1.predict (.mat (NpMat.of Y)) cg) ∧
        w2.ell = w1.ell ∧ w2.Rsqr = w1.Rsqr := by
  have hT : (∃ er, rbfTrainMat lib w.N X f (v.map NpVec.of) e = .error er ∧
        rbfTrainMat lib w.N (reorder σ X) (f ∘ σ) ((v.map (· ∘ σ)).map NpVec.of) e = .error er) ∨
      ∃ (t t' : Fit M m) (g : ℝ), rbfTrainMat lib w.N X f (v.map NpVec.of) e = .ok t ∧
        rbfTrainMat lib w.N (reorder σ X) (f ∘ σ) ((v.map (· ∘ σ)).map NpVec.of) e = .ok t' ∧ rbfFit X f (v.map NpVec.of) w.N e g = .ok t ∧
        rbfFit (reorder σ X) (f ∘ σ) ((v.map (· ∘ σ)).map NpVec.of) w.N e g = .ok t' ∧
        t'.q.ell = t.q.ell ∧ t'.K = t.K.submatrix σ σ ∧ t'.radial = t.radial ∘ σ ∧ fitted t'.I t'.poly = fitted t.I t.poly ∧ t'.Rsqr = t.Rsqr := by
    unfold rbfTrainMat
    rw [show rbf_objective lib (reorder σ X) (f ∘ σ) ((v.map (· ∘ σ)).map NpVec.of) w.N e = rbf_objective lib X f (v.map NpVec.of) w.N e from
      funext fun t => objective_reorder hch hm σ X f v e t]
    split_ifs
    · exact .inl ⟨_, rfl, rfl⟩
    · cases lib.fminbound (rbf_objective lib X f (v.map NpVec.of) w.N e) (-10) 1 with
      | error er => exact .inl ⟨er, rfl, rfl⟩
      | ok y =>
        rcases rbfFit_reorder hm σ X f v e ((10 : ℝ) ^ y) (N := w.N) with ⟨er, h1, h2⟩ | ⟨t, t', h1, h2, h3⟩
        · exact .inl ⟨er, h1, h2⟩
        · exact .inr ⟨t, t', _, h1, h2, h1, h2, h3⟩
  rw [rfit_run, rfit_run]
  rcases hT with ⟨er, h1, h2⟩ | ⟨t, t', g, h1, h2, h3, h4, hq, hK, hr, hp, hR⟩
  · rw [h1, h2]
    exact .inl ⟨er, rfl, rfl⟩
  · rw [h1, h2]
    refine .inr ⟨_, _, rfl, rfl, fun M' Y cg => ?_, by rw [hq], by rw [hR]⟩
    obtain ⟨-, -, -, -, hIt, -⟩ := rbfFit_spec h3
    obtain ⟨-, -, -, -, hIt', -⟩ := rbfFit_spec h4
    obtain ⟨p1, p2⟩ := rbfPredict_eq (hI := hIt) X t.q.ell t.radial t.poly rfl rfl rfl rfl Y
      (s := { w with X := some (NpMat.of X), f := some (NpVec.of f), Rsqr := some t.Rsqr, K := some (NpMat.of t.K),
                     ell := some (NpVec.of t.q.ell), radial_weights := some (NpVec.of t.radial), poly_weights := some (NpVec.of t.poly) })
    obtain ⟨p1', p2'⟩ := rbfPredict_eq (hI := hIt') (reorder σ X) t'.q.ell t'.radial t'.poly rfl rfl rfl rfl Y
      (s := { w with X := some (NpMat.of (reorder σ X)), f := some (NpVec.of (f ∘ σ)), Rsqr := some t'.Rsqr, K := some (NpMat.of t'.K),
                     ell := some (NpVec.of t'.q.ell), radial_weights := some (NpVec.of t'.radial), poly_weights := some (NpVec.of t'.poly) })
    obtain ⟨s1, s2⟩ := surface_reorder σ X t.q.ell t.radial (fitted t.I t.poly)
    rw [hq, hr, hp, s1] at p1' p2'
    rw [s2] at p2'
    cases cg
    · rw [hq, hr, p1, p1']
    · rw [hq, hr, p2, p2']

end Props
