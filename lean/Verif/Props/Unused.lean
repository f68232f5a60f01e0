import Verif.Props.SurfaceCoords
import Verif.Props.FiniteDiff

/-!
# Property C138: directions in which the function does not change
-/

open Py Model.ResponseSurfaces Proofs.Bootstrap Proofs.Eigh Spec Model.Subspaces Model.ActiveSurfaces

namespace Props

variable {S R E W : Type} {M m n : ℕ}

/-! ## What is to be shown -/

/-- The function does not use input `k`. -/
def Unused (f : (Fin m → ℝ) → ℝ) (k : Fin m) : Prop := ∀ x x' : Fin m → ℝ, (∀ j, j ≠ k → x j = x' j) → f x = f x'

/-- The points of `X`, each moved in the direction `a`. -/
def movedBy (a : Fin m → ℝ) (X X' : Matrix (Fin M) (Fin m) ℝ) : Prop := ∃ t : Fin M → ℝ, ∀ i k, X' i k = X i k + t i * a k

/-! ## Gradients -/

/-- C138: finite differences in an input that is not used are exactly zero, whatever the step. -/
theorem C138_differences (g : (m : ℕ) → (Fin m → ℝ) → ℝ) (X : Matrix (Fin M) (Fin m) ℝ) (h : ℝ) (w : W) {k : Fin m} (hk : Unused (g m) k) :
    ∃ D : Matrix (Fin M) (Fin m) ℝ,
      (Model.Gradients.finite_difference_gradients (.mat (.of X)) (fun m x => pure (g m x)) h).run w = (.ok (.of D), w) ∧ ∀ i, D i k = 0 := by
  obtain ⟨D, h1, h2⟩ := C10_formula (W := W) g X h w
  refine ⟨D, h1, fun i => ?_⟩
  rw [h2, hk (X i + h • Pi.single k 1) (X i) fun j hj => by simp [Pi.single_apply, hj], sub_self, zero_div]

/-- The first input, of two. -/
example : Unused (fun x : Fin 2 → ℝ => Real.sin (x 0) + x 0 ^ 3) 1 := fun x x' h => by
  simp only [h 0 (by decide)]

/-- C138: gradients that are orthogonal to `a` give eigenvectors that are orthogonal to `a`, but for those of eigenvalue zero; and there is
an eigenvalue zero. -/
theorem C138_eigenvectors (lib : Model.Subspaces.Lib) (hl : SubLibOK lib) (hm : 0 < m) (G : Matrix (Fin M) (Fin m) ℝ) (w : Fin M → ℝ)
    (hw : ∀ i, 0 ≤ w i) {a : Fin m → ℝ} (ha : ∀ i, ∑ k, G i k * a k = 0) :
    ∃ (e : Fin m → ℝ) (V : Matrix (Fin m) (Fin m) ℝ), active_subspace lib (.mat (NpMat.of G)) (wcol w) = .ok ⟨m, e, V⟩ ∧
      (∀ j, e j ≠ 0 → ∑ k, V k j * a k = 0) ∧ (a ≠ 0 → ∀ j : Fin m, (j : ℕ) = m - 1 → e j = 0) := by
  obtain ⟨e, V, h1, hs, -⟩ := C35_active_subspace lib hl hm G w hw
  have key : ∀ j, e j ≠ 0 → ∑ k, V k j * a k = 0 := by
    intro j hj
    have hv := hs.vec j
    have h2 : ∑ k, (gradOuter G w).mulVec (fun i => V i j) k * a k = 0 := by
      simp only [Matrix.mulVec, dotProduct, gradOuter, Matrix.of_apply, Finset.sum_mul]
      rw [Finset.sum_comm]
      refine Finset.sum_eq_zero fun l _ => ?_
      rw [Finset.sum_comm]
      refine Finset.sum_eq_zero fun i _ => ?_
      have : ∑ k, w i * (G i k * G i l) * V l j * a k = w i * G i l * V l j * ∑ k, G i k * a k := by
        rw [Finset.mul_sum]
        exact Finset.sum_congr rfl fun k _ => by ring
      rw [this, ha, mul_zero]
    rw [hv] at h2
    simp only [Pi.smul_apply, smul_eq_mul, mul_assoc] at h2
    rw [← Finset.mul_sum] at h2
    exact (mul_eq_zero.mp h2).resolve_left hj
  refine ⟨e, V, h1, key, fun h0 j hj => ?_⟩
  -- the eigenvectors span, so that one of them is not orthogonal to `a`
  by_contra hne
  have hall : ∀ i, e i ≠ 0 := fun i => ((hs.nonneg j).lt_of_ne (Ne.symm hne) |>.trans_le (hs.anti (show i ≤ j by
    rw [Fin.le_def]
    omega))).ne'
  refine h0 ?_
  have hV : V * V.transpose = 1 := mul_eq_one_comm.mp (orth_of_entry hs.orth)
  have h2 : V.transpose.mulVec a = 0 := by
    funext i
    simp only [Matrix.mulVec, dotProduct, Matrix.transpose_apply]
    exact key i (hall i)
  rw [← Matrix.one_mulVec a, ← hV, ← Matrix.mulVec_mulVec, h2, Matrix.mulVec_zero]

/-! ## The active subspace and the surfaces -/

/-- C138: the active variables found by `compute` do not change in the direction `a`, unless all gradients are zero. -/
theorem C138_compute {lib : Model.Subspaces.Lib} (hl : SubLibOK lib) (rng : Rng S) (hm : 2 ≤ m) (hM : 0 < M) (G : Matrix (Fin M) (Fin m) ℝ)
    (weights : Option (Fin M → ℝ)) (hw : ∀ i, 0 ≤ weightsOf weights i) {a : Fin m → ℝ} (ha : ∀ i, ∑ k, G i k * a k = 0)
    (hG : ∃ i k, weightsOf weights i ≠ 0 ∧ G i k ≠ 0) {nboot : ℤ} (hb : nboot ≤ 0) (w : S × Subspaces) :
    ∃ (r : S × Subspaces) (n : ℕ) (V1 : Matrix (Fin m) (Fin n) ℝ) (V2 : Matrix (Fin m) (Fin (m - n)) ℝ),
      (computeOn lib rng none none (some G) weights "AS" "EVG" nboot).run w = (.ok (), r) ∧ 1 ≤ n ∧ r.2.W1 = some (NpMat.of V1) ∧
      r.2.W2 = some (NpMat.of V2) ∧ ∀ j, ∑ k, V1 k j * a k = 0 := by
  obtain ⟨e, V, h1, h2, h3⟩ := C138_eigenvectors lib hl (by omega) G (weightsOf weights) hw ha
  obtain ⟨e0, V0, r, hp, c1, c2, c3, c4, -, -, c5⟩ := compute_ok hl rng hm hM none none (some G) weights (.inr (by simp)) "AS" "EVG" .AS rfl nboot w w
    ⟨m, e, V⟩ (lift_of h1 w) (fun h => by omega) (.inl rfl)
  obtain ⟨rfl, rfl⟩ : e = e0 ∧ V = V0 := by injection hp with _ h1 h2; exact ⟨h1, h2⟩
  obtain ⟨n, d, V1, c6, c7⟩ := c5 rfl
  obtain ⟨-, -, -, hn, hnm, hcol, V2, o2⟩ := computed hl rng hm hM (X := none) (f := none) (df := some G) weights (.inr (by simp))
    (show SS.ofString "AS" = some .AS from rfl) hb (lift_of h1 w) c1 c7
  refine ⟨r, n, V1, V2, c1, hn, c7, o2, fun j => ?_⟩
  simp only [hcol]
  by_cases ha0 : a = 0
  · simp [ha0]
  refine h2 _ ?_
  -- the eigenvalues before the largest gap are positive
  obtain ⟨e1, V1', h1', hs, -, htr, -⟩ := C35_active_subspace lib hl (by omega) G (weightsOf weights) hw
  obtain ⟨rfl, rfl⟩ : e = e1 ∧ V = V1' := by
    have := Except.ok.inj (h1.symm.trans h1')
    injection this with _ h1 h2
    exact ⟨h1, h2⟩
  obtain ⟨n', hn1, hn2, d', hd, -, hgap, -⟩ := C38_gap hm e
  obtain rfl : n = n' := congrArg Prod.fst (Except.ok.inj (c6.symm.trans hd))
  have hlast := h3 ha0 ⟨m - 1, by omega⟩ rfl
  have hfirst : 0 < ∑ j, e j := by
    rw [htr]
    obtain ⟨i, k, hi, hk⟩ := hG
    refine Finset.sum_pos' (fun i _ => mul_nonneg (hw i) (Finset.sum_nonneg fun k _ => sq_nonneg _)) ⟨i, Finset.mem_univ i, ?_⟩
    have h1 : 0 < weightsOf weights i := (hw i).lt_of_ne (Ne.symm hi)
    have h2 : 0 < ∑ k, G i k ^ 2 := Finset.sum_pos' (fun k _ => sq_nonneg _) ⟨k, Finset.mem_univ k, by positivity⟩
    positivity
  have hpos : 0 < e ⟨n - 1, by omega⟩ := by
    by_contra hle
    have hz : e ⟨n - 1, by omega⟩ = 0 := le_antisymm (not_lt.mp hle) (hs.nonneg _)
    have hz' : e ⟨n, hn2⟩ = 0 := le_antisymm (hz ▸ hs.anti (by rw [Fin.le_def]; simp)) (hs.nonneg _)
    -- then there are no gaps at all
    have hno : ∀ k, (hk : k < m) → e ⟨k, hk⟩ = e ⟨0, by omega⟩ := by
      intro k
      induction k with
      | zero => intro _; rfl
      | succ k ih =>
        intro hk
        have := hgap (k + 1) (by omega) hk
        rw [hz, hz', sub_zero, abs_zero] at this
        have h0 := abs_nonpos_iff.mp this
        simp only [Nat.add_sub_cancel] at h0
        rw [← ih (by omega)]
        linarith
    have h0 : e ⟨0, by omega⟩ = 0 := (hno (m - 1) (by omega)).symm.trans hlast
    refine hfirst.ne' (Finset.sum_eq_zero fun j _ => ?_)
    exact (hno j j.isLt).trans h0
  have hle : e ⟨n - 1, by omega⟩ ≤ e (Fin.castLE hnm j) := hs.anti (by
    rw [Fin.le_def]
    have := j.isLt
    simp only [Fin.val_castLE]
    omega)
  exact (hpos.trans_le hle).ne'

/-- Gradients along the first of two inputs. -/
example : (∀ i, ∑ k, (Matrix.of ![![1, 0], ![-3, 0]] : Matrix (Fin 2) (Fin 2) ℝ) i k * (![0, 1] : Fin 2 → ℝ) k = 0) ∧
    ∃ i k, weightsOf (none : Option (Fin 2 → ℝ)) i ≠ 0 ∧ (Matrix.of ![![1, 0], ![-3, 0]] : Matrix (Fin 2) (Fin 2) ℝ) i k ≠ 0 := by
  constructor
  · intro i
    fin_cases i <;> simp
  · exact ⟨0, 0, by simp [weightsOf], by simp⟩

/-- C138: with these active variables every response surface predicts the same value and the same gradient after a move in the direction `a`, and
the gradient is orthogonal to `a`. -/
theorem C138_surface {s : Subspaces} {V1 : Matrix (Fin m) (Fin n) ℝ} {V2 : Matrix (Fin m) (Fin (m - n)) ℝ} (h1 : s.W1 = some (NpMat.of V1))
    (h2 : s.W2 = some (NpMat.of V2)) {a : Fin m → ℝ} (ha : ∀ j, ∑ k, V1 k j * a k = 0) (surf : Surface R) (r : R)
    {X X' : Matrix (Fin M) (Fin m) ℝ} (hX : movedBy a X X') (b : Bool) :
    predict surf r s (.mat (NpMat.of X')) b = predict surf r s (.mat (NpMat.of X)) b ∧
    ∀ (f : NpVec) (D : Matrix (Fin M) (Fin m) ℝ), predict surf r s (.mat (NpMat.of X)) true = .ok (f, some (NpMat.of D)) → ∀ i, ∑ k, D i k * a k = 0 := by
  obtain ⟨t, ht⟩ := hX
  refine ⟨(C55_ridge h1 h2 surf r X' X ?_ b).1, fun f D hD i => ?_⟩
  · ext i j
    rw [Matrix.mul_apply, Matrix.mul_apply]
    simp only [ht, add_mul, Finset.sum_add_distrib]
    have : ∑ k, t i * a k * V1 k j = t i * ∑ k, V1 k j * a k := by
      rw [Finset.mul_sum]
      exact Finset.sum_congr rfl fun k _ => by ring
    rw [this, ha, mul_zero, add_zero]
  · unfold predict at hD
    rw [forward_mul h1 h2] at hD
    simp only [bind, Except.bind, if_true] at hD
    cases hp : predict_av surf r (.mat (NpMat.of (X * V1))) true with
    | error er =>
      rw [hp] at hD
      exact absurd hD (by simp)
    | ok p =>
      rw [hp] at hD
      simp only [h1] at hD
      rcases p with ⟨g, _ | ⟨rows, cols, dy⟩⟩
      · exact absurd hD (by simp)
      · obtain ⟨dy, hdy, hD⟩ := Proofs.RBF.bind_ok hD
        have hdy' := (Prod.mk.inj (Except.ok.inj hD)).2
        obtain rfl := Option.some.inj hdy'
        change NpMat.dot _ (NpMat.of V1.transpose) = _ at hdy
        unfold NpMat.dot at hdy
        split at hdy
        · rename_i hc
          have hc' : cols = n := hc.symm
          subst hc'
          have hdy := Except.ok.inj hdy
          obtain rfl : rows = M := congrArg NpMat.rows hdy
          obtain rfl : _ = D := NpMat.of_injective hdy
          change ∑ k, (dy * V1.transpose) i k * a k = 0
          simp only [Matrix.mul_apply, Matrix.transpose_apply, Finset.sum_mul]
          rw [Finset.sum_comm]
          refine Finset.sum_eq_zero fun j _ => ?_
          simp only [mul_assoc]
          rw [← Finset.mul_sum, ha, mul_zero]
        · exact absurd hdy (by simp)

/-- C138, from the simulation to the predictions: if the simulation does not use input `k`, then after finite differences and `compute` no
response surface on the active variables uses it. -/
theorem C138_simulation {lib : Model.Subspaces.Lib} (hl : SubLibOK lib) (rng : Rng S) (hm : 2 ≤ m) (hM : 0 < M) (g : (m : ℕ) → (Fin m → ℝ) → ℝ)
    (X : Matrix (Fin M) (Fin m) ℝ) (h : ℝ) (u : W) {k : Fin m} (hk : Unused (g m) k) {nboot : ℤ} (hb : nboot ≤ 0) (w : S × Subspaces) :
    ∃ D : Matrix (Fin M) (Fin m) ℝ,
      (Model.Gradients.finite_difference_gradients (.mat (.of X)) (fun m x => pure (g m x)) h).run u = (.ok (.of D), u) ∧
      ((∃ i l, D i l ≠ 0) → ∃ r : S × Subspaces, (computeOn lib rng none none (some D) none "AS" "EVG" nboot).run w = (.ok (), r) ∧
        ∀ (R : Type) (surf : Surface R) (p : R) (K : ℕ) (Y Y' : Matrix (Fin K) (Fin m) ℝ), (∀ i l, l ≠ k → Y i l = Y' i l) → ∀ b,
          predict surf p r.2 (.mat (NpMat.of Y')) b = predict surf p r.2 (.mat (NpMat.of Y)) b) := by
  obtain ⟨D, h1, h2⟩ := C138_differences g X h u hk
  refine ⟨D, h1, fun ⟨i, l, hil⟩ => ?_⟩
  have hM0 : (M : ℝ) ≠ 0 := by positivity
  obtain ⟨r, n, V1, V2, c1, -, c2, c3, c4⟩ := C138_compute hl rng hm hM D none (fun i => by simp [weightsOf]) (a := Pi.single k 1)
    (fun i => by simp [Pi.single_apply, h2]) ⟨i, l, by simpa [weightsOf] using hM.ne', hil⟩ hb w
  refine ⟨r, c1, fun R surf p K Y Y' hY b => (C138_surface c2 c3 c4 surf p ⟨fun i => Y' i k - Y i k, fun i l => ?_⟩ b).1⟩
  by_cases hl : l = k
  · subst hl
    simp
  · simp [Pi.single_apply, hl, hY i l hl]

/-- C138 is not shared by the linear fit: for `f = x^2` of the first of two inputs at (0, 0), (1, 0) and (-1, 1), the direction found is
(1, 2), up to its length. -/
theorem C138_linear_refuted (lib : Model.Subspaces.Lib) (hl : SubLibOK lib) :
    ∃ (f : (Fin 2 → ℝ) → ℝ) (X : Matrix (Fin 3) (Fin 2) ℝ) (e : Fin 2 → ℝ) (V : Matrix (Fin 2) (Fin 2) ℝ), Unused f 1 ∧
      ols_subspace lib (.mat (NpMat.of X)) (.mat (wcol fun i => f (X i))) (wcol fun _ : Fin 3 => 1 / 3) = .ok ⟨2, e, V⟩ ∧ e 0 = 5 ∧
      V 1 0 = 2 * V 0 0 ∧ V 0 0 ≠ 0 := by
  obtain ⟨e, V, h1, h2, -, c, hc, hs⟩ := C36_affine lib hl (by norm_num) (Matrix.of ![![0, 0], ![1, 0], ![-1, 1]] : Matrix (Fin 3) (Fin 2) ℝ)
    (fun _ => 1 / 3) (fun _ => by norm_num) (fun a s h => by
      have h0 := h 0
      have h1 := h 1
      have h2 := h 2
      simp [Fin.sum_univ_two] at h0 h1 h2
      have e0 : s 0 = 0 := by linarith
      have e1 : s 1 = 0 := by linarith
      exact ⟨h0, by funext i; fin_cases i <;> simp [e0, e1]⟩) 0 ![1, 2]
  have s0 := hs 0
  have s1 := hs 1
  simp only [Matrix.cons_val_zero, Matrix.cons_val_one] at s0 s1
  have hc0 : c ≠ 0 := fun h => by simp [h] at s0
  refine ⟨fun x => x 0 ^ 2, Matrix.of ![![0, 0], ![1, 0], ![-1, 1]], e, V, fun x x' h => by simp only [h 0 (by decide)], ?_, ?_, ?_, ?_⟩
  · rw [← h1]
    congr 3
    funext i
    fin_cases i <;> norm_num [Fin.sum_univ_two]
  · refine h2.trans ?_
    norm_num [Fin.sum_univ_two]
  · have : c * V 1 0 = c * (2 * V 0 0) := by
      have e1 : c * V 1 ⟨0, by norm_num⟩ = c * V 1 0 := rfl
      have e0 : c * V 0 ⟨0, by norm_num⟩ = c * V 0 0 := rfl
      rw [e1] at s1
      rw [e0] at s0
      linarith
    exact mul_left_cancel₀ hc0 this
  · intro h
    have e0 : c * V 0 ⟨0, by norm_num⟩ = c * V 0 0 := rfl
    rw [e0, h, mul_zero] at s0
    norm_num at s0

end Props
