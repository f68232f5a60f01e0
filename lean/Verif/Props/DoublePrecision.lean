import Verif.Props.IntegralRules

/-!
# Properties C60 and C92: the sizes of the designs and rules, with roots in double precision
-/

open Py Model.Misc Model.QPSolver Model.Subspaces Model.Domains Model.ResponseSurfaces Model.ActiveSurfaces Model.Integrals Model.Quadrature Proofs.Run
open Spec MeasureTheory ProbabilityTheory

namespace Props

variable {S E : Type} {m n : ℕ}

/-- A square with finitely many zeros has a positive Gaussian integral. -/
theorem integral_nodes_pos {K : ℕ} (x : Fin K → ℝ) : 0 < ∫ t, ∏ i, (t - x i) ^ 2 ∂(gaussianReal 0 1) := by
  have hint : Integrable (fun t : ℝ => ∏ i, (t - x i) ^ 2) (gaussianReal 0 1) := by
    have := Proofs.HermitePoly.integrable_poly (∏ i, (Polynomial.X - Polynomial.C (x i)) ^ 2)
    simpa [Polynomial.eval_prod] using this
  have hnn : 0 ≤ fun t : ℝ => ∏ i, (t - x i) ^ 2 := fun t => Finset.prod_nonneg fun i _ => sq_nonneg _
  refine lt_of_le_of_ne (integral_nonneg hnn) fun h => ?_
  have h1 := (integral_eq_zero_iff_of_nonneg hnn hint).mp h.symm
  have := nullSingletonClass_gaussianReal (μ := 0) (v := 1) one_ne_zero
  have h2 : gaussianReal 0 1 (Set.range x) = 0 := (Set.finite_range x).measure_zero _
  have h3 : ∀ᵐ t ∂(gaussianReal 0 1), t ∉ Set.range x := measure_eq_zero_iff_ae_notMem.mp h2
  obtain ⟨t, h4, h5⟩ := (h1.and h3).exists
  obtain ⟨i, -, h6⟩ := Finset.prod_eq_zero_iff.mp h4
  exact h5 ⟨i, by linarith [pow_eq_zero_iff (two_ne_zero) |>.mp h6]⟩

/-- A tensor rule with `K` nodes in the first of `d + 1` dimensions is not exact for all polynomials of degree `2K`. -/
theorem tensor_not_exact {lib : Model.Quadrature.Lib} (hq : Proofs.Quadrature.LibOK lib) {d K : ℕ} (hK : 1 ≤ K) {r : Rule}
    (hr : gauss_hermite lib (.list (List.replicate (d + 1) (.int K))) = .ok r) :
    ∃ p : MvPolynomial (Fin (d + 1)) ℝ, p.degreeOf 0 ≤ 2 * K ∧ (∀ j, j ≠ 0 → p.degreeOf j = 0) ∧
      ∑ i : Fin r.x.rows, r.w.get i 0 * MvPolynomial.eval (fun j : Fin (d + 1) => r.x.get i j) p
        ≠ ∫ y, MvPolynomial.eval y p ∂(Measure.pi fun _ : Fin (d + 1) => gaussianReal 0 1) := by
  obtain ⟨rs, h1, hT⟩ := (C24_tensor lib _ r).1 hr
  have hcols : r.x.cols = d + 1 := by rw [hT.cols, ← h1.length_eq, List.length_replicate]
  rw [List.replicate_succ] at h1
  obtain ⟨r0, rs', h0, h1', rfl⟩ := List.forall₂_cons_left_iff.mp h1
  obtain ⟨y, x, w, hx, hw, -⟩ := g1d_full hq (q := .hermite) (by simp) hK h0
  refine ⟨∏ i, (MvPolynomial.X 0 - MvPolynomial.C (x i)) ^ 2, ?_, fun j hj => ?_, ?_⟩
  · refine (MvPolynomial.degreeOf_prod_le _ _ _).trans ?_
    refine (Finset.sum_le_card_nsmul _ _ 2 fun i _ => ?_).trans (by simp [mul_comm])
    refine (MvPolynomial.degreeOf_pow_le _ _ _).trans ?_
    have := MvPolynomial.degreeOf_sub_le (0 : Fin (d + 1)) (MvPolynomial.X 0) (MvPolynomial.C (x i))
    rw [MvPolynomial.degreeOf_X_self, MvPolynomial.degreeOf_C] at this
    omega
  · refine Nat.le_zero.mp ((MvPolynomial.degreeOf_prod_le _ _ _).trans ?_)
    refine le_of_eq (Finset.sum_eq_zero fun i _ => Nat.le_zero.mp ?_)
    refine (MvPolynomial.degreeOf_pow_le _ _ _).trans ?_
    have := MvPolynomial.degreeOf_sub_le j (MvPolynomial.X 0) (MvPolynomial.C (x i))
    rw [MvPolynomial.degreeOf_X_of_ne hj, MvPolynomial.degreeOf_C] at this
    omega
  · have e1 : ∀ z : Fin (d + 1) → ℝ, MvPolynomial.eval z (∏ i, (MvPolynomial.X 0 - MvPolynomial.C (x i)) ^ 2) = ∏ i, (z 0 - x i) ^ 2 := by
      intro z
      simp
    simp only [e1]
    have e2 : ∫ y : Fin (d + 1) → ℝ, ∏ i, (y 0 - x i) ^ 2 ∂(Measure.pi fun _ : Fin (d + 1) => gaussianReal 0 1)
        = ∫ t, ∏ i, (t - x i) ^ 2 ∂(gaussianReal 0 1) := by
      have := (measurePreserving_eval (fun _ : Fin (d + 1) => gaussianReal 0 1) 0).map_eq
      refine Eq.trans ?_ (congrArg (fun μ : Measure ℝ => ∫ t, ∏ i, (t - x i) ^ 2 ∂μ) this)
      refine (integral_map (φ := fun y : Fin (d + 1) → ℝ => y 0) (f := fun t : ℝ => ∏ i, (t - x i) ^ 2) (measurable_pi_apply 0).aemeasurable ?_).symm
      exact (by fun_prop : Continuous fun t : ℝ => ∏ i, (t - x i) ^ 2).aestronglyMeasurable
    rw [e2]
    refine ne_of_lt (lt_of_eq_of_lt ?_ (integral_nodes_pos x))
    refine Finset.sum_eq_zero fun i _ => mul_eq_zero_of_right _ ?_
    have h3 : (List.ofFn fun j : Fin r.x.cols => r.x.val i j, r.w.get i 0) ∈ points r := by
      rw [points, List.mem_ofFn]
      exact ⟨i, rfl⟩
    rw [hT.pts, List.map_cons] at h3
    simp only [tensor, List.mem_flatMap, List.mem_map] at h3
    obtain ⟨xw, h4, pv, -, h6⟩ := h3
    rw [points1_isCol hx hw, List.mem_ofFn] at h4
    obtain ⟨q, rfl⟩ := h4
    refine Finset.prod_eq_zero (Finset.mem_univ q) ?_
    have h7 : r.x.get i 0 = x q := by
      have := congrArg (fun t : List ℝ × ℝ => t.1[0]?) h6
      simp only [List.getElem?_cons_zero, List.getElem?_ofFn] at this
      rw [dif_pos (by omega)] at this
      rw [Option.some.inj this]
      exact dif_pos ⟨i.2, by omega⟩
    change (r.x.get i 0 - x q) ^ 2 = 0
    rw [h7]
    ring

section Weights

variable {a : AVMap S E} {V1 : Matrix (Fin m) (Fin n) ℝ}

/-- C58: on an unbounded domain the weights are positive and sum to one, however the root is rounded. -/
theorem C58_hermite (hd : a.dom = .unbounded) (hW : a.subspaces.W1 = some (NpMat.of V1)) {lib : Model.Integrals.Lib}
    (hq : Proofs.Quadrature.LibOK lib.base.quad) (rng : Rng S) (N : ℤ) {w w' : S × Files × E} {r : Rule}
    (hr : (av_quadrature_rule lib rng a N).run w = (.ok r, w')) :
    w' = w ∧ (∀ i : Fin r.x.rows, 0 < r.w.get i 0) ∧ ∑ i : Fin r.x.rows, r.w.get i 0 = 1 := by
  unfold av_quadrature_rule at hr
  rw [hW, hd] at hr
  dsimp only at hr
  obtain ⟨NN, w1, h1, h2⟩ := bind_inv hr
  obtain ⟨h3, rfl⟩ := lift_inv h1
  obtain ⟨h4, rfl⟩ := lift_inv h2
  unfold rootList at h3
  cases hi : rootInt lib.base.root N (NpMat.of V1).cols with
  | error e =>
    rw [hi] at h3
    cases h3
  | ok q =>
    rw [hi] at h3
    obtain rfl := Except.ok.inj h3
    obtain ⟨-, -, e3, e4⟩ := C24_weights hq (List.replicate (NpMat.of V1).cols q) (r := r) (.inl (by rw [List.map_replicate]; exact h4))
    exact ⟨rfl, e3, e4⟩

/-- C92: on a bounded domain the design has `N` points, and `N * NMC` points in the full space. -/
theorem C92_bounded_partial {k : ℕ} {V1 : Matrix (Fin (n + k)) (Fin n) ℝ} {V2 : Matrix (Fin (n + k)) (Fin k) ℝ} (h : Split a.subspaces V1 V2)
    (hreg : ShapeOK a.regularize_z n k) {b : Boundary} (hd : a.dom = .bounded b) (hb : b.n = n) (lib : Model.ActiveSurfaces.Lib) (rng : Rng S)
    {N NMC : ℤ} (hN : 0 < N) {w w' : S × Files × E} {d : Design}
    (hr : (av_design lib rng (some a) (.int N) (.int NMC)).run w = (.ok (some d), w')) :
    (d.Y.rows : ℤ) = N ∧ d.Y.cols = n ∧ (d.X.rows : ℤ) = N * NMC ∧ d.X.cols = n + k ∧ d.ind.rows = d.X.rows := by
  obtain ⟨T, NY, Y, Z, X, ind, h1, rfl, -, -, -, h2⟩ := C56_design h hreg (fun b' hb' => by
    rw [hd] at hb'
    cases hb'
    exact hb) lib rng N NMC w w' d hr
  have h3 := h2 b hd hN
  refine ⟨h3, rfl, ?_, rfl, rfl⟩
  change ((NY * T : ℕ) : ℤ) = N * NMC
  rw [← h3, ← h1]
  push_cast
  rfl

/-- C92: on an unbounded domain the design has `k^n <= N` points, with the `k` of C60; so `N` points only if `N` is a perfect power. -/
theorem C92_unbounded_partial {k : ℕ} {V1 : Matrix (Fin (n + k)) (Fin n) ℝ} {V2 : Matrix (Fin (n + k)) (Fin k) ℝ} (h : Split a.subspaces V1 V2)
    (hreg : ShapeOK a.regularize_z n k) (hd : a.dom = .unbounded) (hn : 1 ≤ n) {lib : Model.ActiveSurfaces.Lib}
    (hq : Proofs.Quadrature.LibOK lib.quad) (rng : Rng S) {N NMC : ℤ} (hN : 1 ≤ N) (hs : (n : ℤ) * 2 ^ n * N ≤ 2 ^ 45)
    (hroot : DoubleRoot N n (lib.root N n)) {w w' : S × Files × E} {d : Design}
    (hr : (av_design lib rng (some a) (.int N) (.int NMC)).run w = (.ok (some d), w')) :
    ∃ q : ℕ, 1 ≤ q ∧ (q : ℤ) ^ n ≤ N ∧ N ≤ ((q : ℤ) + 1) ^ n ∧ ((∀ q : ℤ, q ^ n ≠ N) ∨ IsDouble (1 / (n : ℝ)) → N < ((q : ℤ) + 1) ^ n) ∧
      d.Y.rows = q ^ n ∧ d.Y.cols = n ∧ (d.X.rows : ℤ) = (q : ℤ) ^ n * NMC := by
  obtain ⟨T, NY, Y, Z, X, ind, h1, rfl, -, -, ⟨w1, h2⟩, -⟩ := C56_design h hreg (fun b' hb' => by
    rw [hd] at hb'
    cases hb') lib rng N NMC w w' d hr
  obtain ⟨q, e1, e2, e3, e4, e5⟩ := root_bounds hN hn hs hroot
  unfold designPoints at h2
  rw [hd] at h2
  dsimp only at h2
  have h5 : rootList lib.root N (NpMat.of V1).cols = .ok (List.replicate n (.int q)) := by
    unfold rootList
    rw [show (NpMat.of V1).cols = n from rfl, e1]
    rfl
  rw [h5, PyM.run_bind_ok (PyM.run_lift _ _)] at h2
  obtain ⟨h6, rfl⟩ := lift_inv h2
  unfold gauss_hermite_design at h6
  cases hg : gauss_hermite lib.quad (.list (List.replicate n (.int q))) with
  | error e =>
    rw [hg] at h6
    cases h6
  | ok r =>
    rw [hg] at h6
    have h7 := Except.ok.inj h6
    obtain ⟨f1, -⟩ := C24_weights hq (List.replicate n (q : ℤ)) (r := r) (.inl (by rw [List.map_replicate]; exact hg))
    have h8 : NY = q ^ n := by
      have : r.x.rows = NY := congrArg NpMat.rows h7
      rw [← this, f1, List.map_replicate, List.prod_replicate, Int.toNat_natCast, max_eq_right e2]
    refine ⟨q, e2, e3, e4, e5, h8, rfl, ?_⟩
    change ((NY * T : ℕ) : ℤ) = _
    rw [h8, ← h1]
    push_cast
    rfl

end Weights

section Five

variable {a : AVMap S E}

theorem isDouble_half : IsDouble (1 / ((2 : ℕ) : ℝ)) := ⟨1, -1, by norm_num, by norm_num⟩

/-- C92 is false: with two active variables on an unbounded domain and `N = 5` both the design and the quadrature rule have 4 points. -/
theorem C92_refuted {k : ℕ} {V1 : Matrix (Fin (2 + k)) (Fin 2) ℝ} {V2 : Matrix (Fin (2 + k)) (Fin k) ℝ} (h : Split a.subspaces V1 V2)
    (hreg : ShapeOK a.regularize_z 2 k) (hd : a.dom = .unbounded) {lib : Model.Integrals.Lib} (hq : Proofs.Quadrature.LibOK lib.base.quad)
    (hroot : DoubleRoot 5 2 (lib.base.root 5 2)) (rng : Rng S) {w w' : S × Files × E} :
    (∀ NMC d, (av_design lib.base rng (some a) (.int 5) (.int NMC)).run w = (.ok (some d), w') → d.Y.rows = 4) ∧
    (∀ r, (av_quadrature_rule lib rng a 5).run w = (.ok r, w') → r.x.rows = 4) := by
  have key : ∀ q : ℕ, (q : ℤ) ^ 2 ≤ 5 → (5 : ℤ) < ((q : ℤ) + 1) ^ 2 → q = 2 := by
    intro q h1 h2
    have : q < 3 := by
      by_contra hc
      push Not at hc
      have : (3 : ℤ) ≤ q := by exact_mod_cast hc
      nlinarith
    interval_cases q <;> first | rfl | norm_num at h2
  constructor
  · intro NMC d hr
    obtain ⟨q, -, h1, -, h2, h3, -⟩ := C92_unbounded_partial h hreg hd (by norm_num) hq rng (by norm_num) (by norm_num) hroot hr
    rw [h3, key q h1 (h2 (.inr isDouble_half))]
    rfl
  · intro r hr
    obtain ⟨-, q, -, h1, -, h2, h3, -⟩ := C60_rule_partial hd h.w1 (by norm_num) hq rng (by norm_num) (by norm_num) hroot hr
    rw [h3, key q h1 (h2 (.inr isDouble_half))]
    rfl

/-- The rule with 5 requested points is returned. -/
example {V1 : Matrix (Fin m) (Fin 2) ℝ} (hd : a.dom = .unbounded) (hW : a.subspaces.W1 = some (NpMat.of V1)) {lib : Model.Integrals.Lib}
    (heig : ∀ {n : ℕ} (A : Matrix (Fin n) (Fin n) ℝ), A.transpose = A → ∃ eV, lib.base.quad.eig A = .ok eV)
    (hroot : DoubleRoot 5 2 (lib.base.root 5 2)) (rng : Rng S) (w : S × Files × E) : ∃ r, (av_quadrature_rule lib rng a 5).run w = (.ok r, w) :=
  C60_returns hd hW (by norm_num) heig rng (by norm_num) (by norm_num) hroot w

end Five

variable {a : AVMap S E} {V1 : Matrix (Fin m) (Fin 3) ℝ}

/-- C60 fails in double precision: with three active variables and `N = 64 = 4^3` the rule has 27 nodes, and some polynomial of degree at most 6
in one variable is not integrated exactly, although 4 nodes per dimension are exact for degree 7. -/
theorem C60_refuted (hd : a.dom = .unbounded) (hW : a.subspaces.W1 = some (NpMat.of V1)) {lib : Model.Integrals.Lib}
    (hq : Proofs.Quadrature.LibOK lib.base.quad) (hroot : DoubleRoot 64 3 (lib.base.root 64 3)) (rng : Rng S) {w w' : S × Files × E} {r : Rule}
    (hr : (av_quadrature_rule lib rng a 64).run w = (.ok r, w')) :
    r.x.rows = 27 ∧ ∃ p : MvPolynomial (Fin 3) ℝ, (∀ j, p.degreeOf j ≤ 6) ∧
      ∑ i : Fin r.x.rows, r.w.get i 0 * MvPolynomial.eval (fun j : Fin 3 => r.x.get i j) p
        ≠ ∫ y, MvPolynomial.eval y p ∂(Measure.pi fun _ : Fin 3 => gaussianReal 0 1) := by
  unfold av_quadrature_rule at hr
  rw [hW, hd] at hr
  dsimp only at hr
  have h5 : rootList lib.base.root 64 (NpMat.of V1).cols = .ok (List.replicate 3 (.int (3 : ℕ))) := by
    unfold rootList rootInt
    rw [show (NpMat.of V1).cols = 3 from rfl, if_neg (by norm_num), Proofs.Doubles.floor_root_64 hroot]
    rfl
  rw [h5, PyM.run_bind_ok (PyM.run_lift _ _)] at hr
  obtain ⟨h6, rfl⟩ := lift_inv hr
  obtain ⟨e1, -⟩ := C24_weights hq (List.replicate 3 ((3 : ℕ) : ℤ)) (r := r) (.inl (by rw [List.map_replicate]; exact h6))
  obtain ⟨p, p1, p2, p3⟩ := tensor_not_exact hq (d := 2) (K := 3) (by norm_num) h6
  refine ⟨by rw [e1]; rfl, p, fun j => ?_, p3⟩
  by_cases hj : j = 0
  · rw [hj]
    exact p1
  · rw [p2 j hj]
    omega

/-- The hypotheses are met: double precision roots exist, and with them the rule is returned. -/
example {lib : Model.Integrals.Lib} (hd : a.dom = .unbounded) (hW : a.subspaces.W1 = some (NpMat.of V1))
    (heig : ∀ {n : ℕ} (A : Matrix (Fin n) (Fin n) ℝ), A.transpose = A → ∃ eV, lib.base.quad.eig A = .ok eV) (rng : Rng S) (w : S × Files × E) :
    ∃ root : ℤ → ℕ → ℝ, (∀ N n, 1 ≤ N → 1 ≤ n → DoubleRoot N n (root N n)) ∧
      ∃ r, (av_quadrature_rule { lib with base := { lib.base with root := root } } rng a 64).run w = (.ok r, w) := by
  have h : ∀ (N : ℤ) (n : ℕ), ∃ p, 1 ≤ N → 1 ≤ n → DoubleRoot N n p := fun N n => by
    by_cases h : 1 ≤ N ∧ 1 ≤ n
    · obtain ⟨p, hp⟩ := Proofs.Doubles.exists_doubleRoot h.1 h.2
      exact ⟨p, fun _ _ => hp⟩
    · exact ⟨0, fun h1 h2 => absurd ⟨h1, h2⟩ h⟩
  choose root hroot using h
  exact ⟨root, hroot, C60_returns (lib := { lib with base := { lib.base with root := root } }) hd hW (by norm_num) heig rng (N := 64) (by norm_num)
    (by norm_num) (hroot 64 3 (by norm_num) (by norm_num)) w⟩

end Props
