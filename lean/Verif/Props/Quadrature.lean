import Mathlib.Algebra.Polynomial.BigOperators
import Verif.Proofs.Quadrature

/-!
# Properties C20-C23: recurrence coefficients and one-dimensional Gauss rules
-/

open Py Spec Polynomial Model.Quadrature Proofs.Quadrature MeasureTheory ProbabilityTheory

namespace Props

/-! ## C20 -/

theorem monicPoly_congr {a a' b b' : ℕ → ℝ} : ∀ k, (∀ j < k, a j = a' j) → (∀ j, 1 ≤ j → j < k → b j = b' j) →
    monicPoly a b k = monicPoly a' b' k := by
  intro k
  induction k using Nat.strong_induction_on with
  | _ k ih =>
    intro ha hb
    rcases k with _ | _ | k
    · rfl
    · simp only [monicPoly, ha 0 (by omega)]
    · rw [monicPoly, monicPoly, ha (k + 1) (by omega), hb (k + 1) (by omega) (by omega),
        ih (k + 1) (by omega) (fun j hj => ha j (by omega)) (fun j h1 hj => hb j h1 (by omega)),
        ih k (by omega) (fun j hj => ha j (by omega)) (fun j h1 hj => hb j h1 (by omega))]

theorem orth_poly {a b : ℕ → ℝ} (L : ℝ[X] →ₗ[ℝ] ℝ) (hL : ∀ k, L (monicPoly a b (k + 1)) = 0) (k : ℕ) (p : ℝ[X])
    (hp : p.degree < k) : L (p * monicPoly a b k) = 0 := by
  rw [p.as_sum_range_C_mul_X_pow, Finset.sum_mul, map_sum]
  refine Finset.sum_eq_zero fun j hj => ?_
  rw [Finset.mem_range, Nat.lt_succ_iff] at hj
  rw [mul_assoc, ← smul_eq_C_mul, map_smul]
  rcases eq_or_ne p 0 with rfl | h0
  · simp
  · have : p.natDegree < k := (natDegree_lt_iff_degree_lt h0).mpr hp
    rw [Proofs.GaussRule.orth L hL j k (by omega), smul_zero]

/-- C20: `r_hermite(N)`, `N >= 2`: `N+1` rows `(0, b_k)` with `b_0 = 1`, `b_k = k`; the monic polynomials they
generate are orthogonal with respect to the standard Gaussian (which determines the coefficients). -/
theorem C20_hermite {N : ℕ} (hN : 2 ≤ N) : ∃ ab, r_hermite (.int N) = .ok ab ∧ ab.rows = N + 1 ∧ ab.cols = 2 ∧
    (∀ k ≤ N, ab.get k 0 = 0) ∧ ab.get 0 1 = 1 ∧ (∀ k, 1 ≤ k → k ≤ N → ab.get k 1 = k) ∧
    ∀ k ≤ N + 1, ∀ p : ℝ[X], p.degree < k →
      ∫ x, (p * monicPoly (fun k => ab.get k 0) (fun k => ab.get k 1) k).eval x ∂(gaussianReal 0 1) = 0 := by
  obtain ⟨ab, h1, h2, h3, h4, h5, h6⟩ := hermite_get hN
  refine ⟨ab, h1, h2, h3, h4, h5, h6, fun k hk p hp => ?_⟩
  rw [monicPoly_congr (a' := fun _ => 0) (b' := fun k => k) k (fun j hj => h4 j (by omega))
    (fun j hj hjk => h6 j hj (by omega))]
  exact orth_poly Proofs.HermitePoly.gaussL Proofs.HermitePoly.gaussL_herm k p hp

/-- C20: the remaining arguments of `r_hermite`. -/
theorem C20_hermite_cases : (∃ ab, r_hermite (.int 1) = .ok ab ∧ ab.rows = 1 ∧ ab.cols = 2 ∧ ab.get 0 0 = 0 ∧ ab.get 0 1 = 1) ∧
    (∀ N ≤ 0, r_hermite (.int N) = .error .valueError) ∧ ∀ x, r_hermite (.float x) = .error .typeError := by
  refine ⟨⟨_, rfl, rfl, rfl, ?_, ?_⟩, fun N hN => ?_, fun _ => rfl⟩
  · simp [NpMat.get]
  · simp [NpMat.get]
  · simp [r_hermite, hN]

/-- Coefficients of the monic Jacobi polynomials for the weight `(1-x)^a (1+x)^b` on [-1,1]. -/
noncomputable def jacobiA (a b : ℝ) (k : ℕ) : ℝ :=
  if k = 0 then (b - a) / (a + b + 2) else (b ^ 2 - a ^ 2) / ((2 * k + a + b) * (2 * k + a + b + 2))

noncomputable def jacobiB (a b : ℝ) (k : ℕ) : ℝ :=
  if k = 1 then 4 * (1 + a) * (1 + b) / ((2 + a + b) ^ 2 * (3 + a + b))
  else 4 * k * (k + a) * (k + b) * (k + a + b) / ((2 * k + a + b) ^ 2 * (2 * k + a + b + 1) * (2 * k + a + b - 1))

/-- C20: `r_jacobi(N, l, r, a, b)`: the Jacobi coefficients carried from [-1,1] to [l,r]. -/
theorem C20_jacobi {N : ℕ} (hN : 1 ≤ N) (l r a b : ℝ) :
    ∃ ab, r_jacobi (.int N) l r a b = .ok ab ∧ ab.rows = N + 1 ∧ ab.cols = 2 ∧
    (∀ k ≤ N, ab.get k 0 = (r - l) / 2 * jacobiA a b k + (l + r) / 2) ∧ ab.get 0 1 = 1 ∧
    ∀ k, 1 ≤ k → k ≤ N → ab.get k 1 = ((r - l) / 2) ^ 2 * jacobiB a b k := by
  obtain ⟨ab, h1, h2, h3, h4, h5, h6, h7, h8⟩ := jacobi_get hN l r a b
  refine ⟨ab, h1, h2, h3, fun k hk => ?_, h5, fun k h1k hk => ?_⟩
  · rcases eq_or_ne k 0 with rfl | hk0
    · rw [h4, jacobiA, if_pos rfl]
      ring
    · rw [h6 k (by omega) hk, jacobiA, if_neg hk0,
        show 2 * ((k : ℝ) + 1) + a + b = 2 * k + a + b + 2 by ring]
      ring
  · rcases eq_or_ne k 1 with rfl | hk1
    · rw [h7, jacobiB, if_pos rfl, show (2 * 1 + a + b + 1 : ℝ) = 3 + a + b by ring, show (2 * 1 + a + b : ℝ) = 2 + a + b by ring]
      ring
    · rw [h8 k (by omega) hk, jacobiB, if_neg hk1]
      ring

theorem C20_jacobi_errors (l r a b : ℝ) : (∀ N ≤ 0, r_jacobi (.int N) l r a b = .error .valueError) ∧
    ∀ x, r_jacobi (.float x) l r a b = .error .typeError := by
  refine ⟨fun N hN => ?_, fun _ => rfl⟩
  simp [r_jacobi, hN]

/-- C20: in the Legendre case the coefficients are `0` and `k^2/(4k^2-1)` and the monic polynomials they generate
are orthogonal on [-1,1]. -/
theorem C20_legendre {N : ℕ} (hN : 1 ≤ N) : ∃ ab, r_jacobi (.int N) (-1) 1 0 0 = .ok ab ∧ ab.rows = N + 1 ∧
    (∀ k ≤ N, ab.get k 0 = 0) ∧ (∀ k, 1 ≤ k → k ≤ N → ab.get k 1 = (k : ℝ) ^ 2 / (4 * (k : ℝ) ^ 2 - 1)) ∧
    ∀ k ≤ N + 1, ∀ p : ℝ[X], p.degree < k →
      ∫ x in (-1 : ℝ)..1, (p * monicPoly (fun k => ab.get k 0) (fun k => ab.get k 1) k).eval x = 0 := by
  obtain ⟨ab, h1, h2, h3, h4, h5, h6, h7, h8⟩ := jacobi_get hN (-1) 1 0 0
  have ha : ∀ k ≤ N, ab.get k 0 = 0 := by
    intro k hk
    rcases eq_or_ne k 0 with rfl | hk0
    · rw [h4]; norm_num
    · rw [h6 k (by omega) hk]; norm_num
  have hb : ∀ k, 1 ≤ k → k ≤ N → ab.get k 1 = (k : ℝ) ^ 2 / (4 * (k : ℝ) ^ 2 - 1) := by
    intro k h1k hk
    rcases eq_or_ne k 1 with rfl | hk1
    · rw [h7]; norm_num
    · rw [h8 k (by omega) hk, legendre_b h1k]; rfl
  refine ⟨ab, h1, h2, ha, hb, fun k hk p hp => ?_⟩
  rw [monicPoly_congr (a' := fun _ => 0) (b' := Proofs.LegendrePoly.bLeg) k (fun j hj => ha j (by omega))
    (fun j hj hjk => hb j hj (by omega))]
  have := orth_poly Proofs.LegendrePoly.unifL Proofs.LegendrePoly.unifL_leg k p hp
  rw [Proofs.LegendrePoly.unifL_apply] at this
  linarith

/-- C20: `jacobi_matrix` of an array with `n+1` rows, `n >= 2`. -/
theorem C20_jacobi_matrix {n : ℕ} (hn : 2 ≤ n) (ab : Matrix (Fin (n + 1)) (Fin 2) ℝ) :
    ∃ J : Matrix (Fin n) (Fin n) ℝ, jacobi_matrix (.mat (NpMat.of ab)) = .ok (.mat (NpMat.of J)) ∧ J.transpose = J ∧
      (∀ i : Fin n, J i i = ab i.castSucc 0) ∧
      (∀ i j : Fin n, (j : ℕ) = i + 1 → J i j = Real.sqrt (ab j.castSucc 1)) ∧
      ∀ i j : Fin n, (i : ℕ) + 1 < j → J i j = 0 := by
  refine ⟨_, jacobi_matrix_eq hn rfl rfl, Proofs.GaussRule.tridiag_symm _ _ _, fun i => ?_, fun i j hij => ?_, fun i j hij => ?_⟩
  · rw [tridiag, Matrix.of_apply, if_pos rfl]
    exact NpMat.get_of ab i.castSucc 0
  · rw [tridiag, Matrix.of_apply, if_neg (by omega), if_pos hij]
    exact congrArg _ (NpMat.get_of ab j.castSucc 1)
  · rw [tridiag, Matrix.of_apply, if_neg (by omega), if_neg (by omega), if_neg (by omega)]

/-- C20: the remaining shapes: a scalar for one row; `IndexError` for two rows; `ValueError` when there is no row or
the array is not two-dimensional with two columns. -/
theorem C20_jacobi_matrix_cases : (∀ ab : Matrix (Fin 1) (Fin 2) ℝ, jacobi_matrix (.mat (NpMat.of ab)) = .ok (.scalar (ab 0 0))) ∧
    (∀ ab : Matrix (Fin 2) (Fin 2) ℝ, jacobi_matrix (.mat (NpMat.of ab)) = .error .indexError) ∧
    (∀ ab : Matrix (Fin 0) (Fin 2) ℝ, jacobi_matrix (.mat (NpMat.of ab)) = .error .valueError) ∧
    (∀ ab : NpMat, ab.cols ≠ 2 → jacobi_matrix (.mat ab) = .error .valueError) ∧
    ∀ ab : Arr, ab.ndim ≠ 2 → jacobi_matrix ab = .error .valueError := by
  refine ⟨fun ab => ?_, fun ab => ?_, fun ab => ?_, fun ab h => ?_, fun ab h => ?_⟩
  · simp only [jacobi_matrix, NpMat.of_cols, NpMat.of_rows, ne_eq, not_true_eq_false, if_false, one_ne_zero, if_true]
    rw [← NpMat.get_of ab 0 0]
    rfl
  · simp [jacobi_matrix]
  · simp [jacobi_matrix]
  · simp [jacobi_matrix, h]
  · cases ab with
    | mat A => exact absurd rfl h
    | _ => rfl

/-! ## C21, C22, C23 -/

/-- The contracts of `eig` and `argsort` can be met, by an `eig` that never fails on symmetric matrices. -/
theorem quadLib_exists : ∃ lib : Lib, LibOK lib ∧
    ∀ {n : ℕ} (A : Matrix (Fin n) (Fin n) ℝ), A.transpose = A → ∃ eV, lib.eig A = .ok eV := by
  classical
  have hex : ∀ {n : ℕ} (A : Matrix (Fin n) (Fin n) ℝ), ∃ eV : (Fin n → ℝ) × Matrix (Fin n) (Fin n) ℝ,
      A.transpose = A → IsEig A eV.1 eV.2 := by
    intro n A
    by_cases h : A.transpose = A
    · obtain ⟨e, V, hV, _⟩ := Proofs.EigSymm.exists_isEig h
      exact ⟨(e, V), fun _ => hV⟩
    · exact ⟨(0, 0), fun h' => absurd h' h⟩
  refine ⟨⟨fun A => .ok (hex A).choose, fun v => (Tuple.sort v : Equiv.Perm _)⟩, ⟨?_, ?_⟩, ?_⟩
  · intro n A e V hA h
    have h' := Except.ok.inj h
    have := (hex A).choose_spec hA
    rw [h'] at this
    exact this
  · intro n v
    exact Spec.argsortContract_sort v
  · intro n A _
    exact ⟨_, rfl⟩

/-- A returned column. -/
abbrev IsCol (A : NpMat) {n : ℕ} (v : Fin n → ℝ) : Prop := A = NpMat.of (Matrix.of fun i (_ : Fin 1) => v i)

theorem g1d_full {lib : Lib} (h : LibOK lib) {q : QuadType} (hq : q ≠ .other) {N : ℕ} (hN : 1 ≤ N) {r : Rule}
    (hr : g1d lib (.int N) q = .ok r) :
    ∃ y x w : Fin N → ℝ, IsCol r.x x ∧ IsCol r.w w ∧ StrictMono y ∧
      (∀ i, x i = y i ∨ (x i = 0 ∧ |y i| < 1e-12)) ∧ (∀ i, |y i| < 1e-12 → x i = 0) ∧ (∀ i, 0 < w i) ∧
      (∀ p : ℝ[X], p.natDegree < 2 * N → ∑ i, w i * p.eval (y i) = LOf q p) ∧
      (N ≤ 10 ^ 11 → x = y) := by
  rcases Nat.lt_or_ge N 2 with hN2 | hN2
  · obtain rfl : N = 1 := by omega
    rw [g1d_one lib q (by simp)] at hr
    obtain rfl := Except.ok.inj hr
    refine ⟨fun _ => 0, fun _ => 0, fun _ => 1, rfl, rfl, fun i j hij => absurd hij (by omega), fun i => .inl rfl,
      fun _ _ => rfl, fun _ => one_pos, fun p hp => ?_, fun _ => rfl⟩
    have hp' : p.natDegree ≤ 1 := by omega
    rw [eq_X_add_C_of_natDegree_le_one hp', Fin.sum_univ_one, map_add, ← smul_eq_C_mul, map_smul,
      show C (p.coeff 0) = (p.coeff 0) • (1 : ℝ[X]) by rw [smul_eq_C_mul, mul_one], map_smul, LOf_one]
    have hX : LOf q X = 0 := by
      have := LOf_monic q 0
      rwa [show monicPoly (fun _ => (0 : ℝ)) (bOf q) (0 + 1) = X by simp [monicPoly]] at this
    simp [hX]
  · obtain ⟨y, x, w, rfl, h1, h2, h3, h4, h5, h6⟩ := g1d_spec h hq hN2 hr
    refine ⟨y, x, w, rfl, rfl, h1, h2, h3, h4, h5, fun hle => ?_⟩
    funext i
    rcases h2 i with hi | ⟨hi, hlt⟩
    · exact hi
    · by_contra hne
      have hy : y i ≠ 0 := fun h0 => hne (by rw [hi, h0])
      obtain ⟨v, hv1, hv2⟩ := h6 i
      exact absurd (node_gap hle hy hv1 hv2) (not_le.mpr hlt)

theorem gaussL_def (p : ℝ[X]) : LOf .hermite p = ∫ t, p.eval t ∂(gaussianReal 0 1) := rfl

theorem unifL_def (p : ℝ[X]) : LOf .legendre p = (∫ t in (-1 : ℝ)..1, p.eval t) / 2 := rfl

/-- C21: the `N`-point Gauss-Hermite rule is exact for degree `2N-1`.  (Beyond `10^11` nodes the threshold 1e-12 for
"zero" nodes could move a node; see `C21_any_size`.) -/
theorem C21_exact {lib : Lib} (h : LibOK lib) {N : ℕ} (hN : 1 ≤ N) (hN' : N ≤ 10 ^ 11) {r : Rule}
    (hr : gh1d lib (.int N) = .ok r) :
    ∃ x w : Fin N → ℝ, IsCol r.x x ∧ IsCol r.w w ∧
      ∀ p : ℝ[X], p.natDegree ≤ 2 * N - 1 → ∑ i, w i * p.eval (x i) = ∫ t, p.eval t ∂(gaussianReal 0 1) := by
  obtain ⟨y, x, w, hx, hw, _, _, _, _, h5, h6⟩ := g1d_full h (by simp) hN hr
  obtain rfl := h6 hN'
  exact ⟨x, w, hx, hw, fun p hp => (h5 p (by omega)).trans (gaussL_def p)⟩

/-- C21: for every `N`, exactness at nodes that differ from the returned ones by less than 1e-12. -/
theorem C21_any_size {lib : Lib} (h : LibOK lib) {N : ℕ} (hN : 1 ≤ N) {r : Rule} (hr : gh1d lib (.int N) = .ok r) :
    ∃ y x w : Fin N → ℝ, IsCol r.x x ∧ IsCol r.w w ∧ (∀ i, |x i - y i| < 1e-12) ∧
      ∀ p : ℝ[X], p.natDegree ≤ 2 * N - 1 → ∑ i, w i * p.eval (y i) = ∫ t, p.eval t ∂(gaussianReal 0 1) := by
  obtain ⟨y, x, w, hx, hw, _, h2, _, _, h5, _⟩ := g1d_full h (by simp) hN hr
  refine ⟨y, x, w, hx, hw, fun i => ?_, fun p hp => (h5 p (by omega)).trans (gaussL_def p)⟩
  rcases h2 i with hi | ⟨hi, hlt⟩
  · rw [hi, sub_self, abs_zero]; norm_num
  · rw [hi, zero_sub, abs_neg]; exact hlt

/-- C22: the `N`-point Gauss-Legendre rule is exact for degree `2N-1`, with weights for the uniform density. -/
theorem C22_exact {lib : Lib} (h : LibOK lib) {N : ℕ} (hN : 1 ≤ N) (hN' : N ≤ 10 ^ 11) {r : Rule}
    (hr : gl1d lib (.int N) = .ok r) :
    ∃ x w : Fin N → ℝ, IsCol r.x x ∧ IsCol r.w w ∧
      ∀ p : ℝ[X], p.natDegree ≤ 2 * N - 1 → ∑ i, w i * p.eval (x i) = (∫ t in (-1 : ℝ)..1, p.eval t) / 2 := by
  obtain ⟨y, x, w, hx, hw, _, _, _, _, h5, h6⟩ := g1d_full h (by simp) hN hr
  obtain rfl := h6 hN'
  exact ⟨x, w, hx, hw, fun p hp => (h5 p (by omega)).trans (unifL_def p)⟩

/-- C22: for every `N`, exactness at nodes that differ from the returned ones by less than 1e-12. -/
theorem C22_any_size {lib : Lib} (h : LibOK lib) {N : ℕ} (hN : 1 ≤ N) {r : Rule} (hr : gl1d lib (.int N) = .ok r) :
    ∃ y x w : Fin N → ℝ, IsCol r.x x ∧ IsCol r.w w ∧ (∀ i, |x i - y i| < 1e-12) ∧
      ∀ p : ℝ[X], p.natDegree ≤ 2 * N - 1 → ∑ i, w i * p.eval (y i) = (∫ t in (-1 : ℝ)..1, p.eval t) / 2 := by
  obtain ⟨y, x, w, hx, hw, _, h2, _, _, h5, _⟩ := g1d_full h (by simp) hN hr
  refine ⟨y, x, w, hx, hw, fun i => ?_, fun p hp => (h5 p (by omega)).trans (unifL_def p)⟩
  rcases h2 i with hi | ⟨hi, hlt⟩
  · rw [hi, sub_self, abs_zero]; norm_num
  · rw [hi, zero_sub, abs_neg]; exact hlt

/-- Library and rule exist for every size: the hypotheses of C21-C23 are satisfiable. -/
example : ∃ lib : Lib, LibOK lib ∧ ∀ N : ℤ, (∃ r, gh1d lib (.int N) = .ok r) ∧ ∃ r, gl1d lib (.int N) = .ok r := by
  obtain ⟨lib, h1, h2⟩ := quadLib_exists
  exact ⟨lib, h1, fun N => ⟨g1d_ok (by simp) h2 N, g1d_ok (by simp) h2 N⟩⟩

/-- C23: `N` nodes in ascending order (strictly up to `10^11` nodes), positive weights with sum one. -/
theorem C23_rule {lib : Lib} (h : LibOK lib) {q : QuadType} (hq : q = .hermite ∨ q = .legendre) {N : ℕ} (hN : 1 ≤ N)
    {r : Rule} (hr : g1d lib (.int N) q = .ok r) :
    ∃ x w : Fin N → ℝ, IsCol r.x x ∧ IsCol r.w w ∧ (∀ i, 0 < w i) ∧ ∑ i, w i = 1 ∧ Monotone x ∧
      (N ≤ 10 ^ 11 → StrictMono x) := by
  obtain ⟨y, x, w, hx, hw, h1, h2, h3, h4, h5, h6⟩ := g1d_full h (by rcases hq with rfl | rfl <;> simp) hN hr
  refine ⟨x, w, hx, hw, h4, ?_, ?_, fun hle => by rw [h6 hle]; exact h1⟩
  · have := h5 1 (by simp; omega)
    rw [LOf_one] at this
    simpa using this
  · intro i j hij
    have hy := h1.monotone hij
    rcases h2 i with hi | ⟨hi, hilt⟩
    · rcases h2 j with hj | ⟨hj, hjlt⟩
      · rw [hi, hj]; exact hy
      · rw [hj]
        by_contra hpos
        push Not at hpos
        rw [hi] at hpos
        have : |y i| < 1e-12 := by
          rw [abs_of_pos hpos]
          rw [abs_of_pos (lt_of_lt_of_le hpos hy)] at hjlt
          linarith
        have := h3 i this
        rw [hi] at this
        linarith
    · rw [hi]
      rcases h2 j with hj | ⟨hj, hjlt⟩
      · rw [hj]
        by_contra hneg
        push Not at hneg
        have : |y j| < 1e-12 := by
          rw [abs_of_neg hneg]
          rw [abs_of_neg (lt_of_le_of_lt hy hneg)] at hilt
          linarith
        have := h3 j this
        rw [hj] at this
        linarith
      · rw [hj]

/-- C23: one node 0 with weight 1 for `N <= 1`, also when `N` is not an integer. -/
theorem C23_one (lib : Lib) (q : QuadType) : (∀ N : ℤ, N ≤ 1 → ∃ r, g1d lib (.int N) q = .ok r ∧
      IsCol r.x (fun _ : Fin 1 => 0) ∧ IsCol r.w (fun _ : Fin 1 => 1)) ∧
    (∀ x : ℝ, x ≤ 1 → ∃ r, g1d lib (.float x) q = .ok r ∧
      IsCol r.x (fun _ : Fin 1 => 0) ∧ IsCol r.w (fun _ : Fin 1 => 1)) := by
  constructor
  · intro N hN
    exact ⟨_, g1d_one lib q hN, rfl, rfl⟩
  · intro x hx
    have h1 : Num.gtOne (.float x) = false := by simpa [Num.gtOne] using hx
    refine ⟨⟨NpMat.of (Matrix.of fun (_ _ : Fin 1) => 0), NpMat.of (Matrix.of fun (_ _ : Fin 1) => 1)⟩, ?_, rfl, rfl⟩
    simp [g1d, h1]

/-- C23: a non-integer above one and an unknown type are rejected; an integer size succeeds when `eig` does. -/
theorem C23_errors (lib : Lib) : (∀ x : ℝ, 1 < x → gh1d lib (.float x) = .error .typeError ∧ gl1d lib (.float x) = .error .typeError) ∧
    (∀ N : ℤ, 1 < N → g1d lib (.int N) .other = .error .valueError) ∧
    ((∀ {n : ℕ} (A : Matrix (Fin n) (Fin n) ℝ), A.transpose = A → ∃ eV, lib.eig A = .ok eV) →
      ∀ N : ℤ, (∃ r, gh1d lib (.int N) = .ok r) ∧ ∃ r, gl1d lib (.int N) = .ok r) := by
  refine ⟨fun x hx => ?_, fun N hN => ?_, fun h N => ⟨g1d_ok (by simp) h N, g1d_ok (by simp) h N⟩⟩
  · have h1 : Num.gtOne (.float x) = true := by simpa [Num.gtOne] using hx
    simp [gh1d, gl1d, g1d, h1, r_hermite, r_jacobi]
  · have h1 : Num.gtOne (.int N) = true := by simpa [Num.gtOne] using hN
    simp [g1d, h1]

/-- C23: the Gauss-Legendre nodes are strictly inside (-1,1). -/
theorem C23_legendre_inside {lib : Lib} (h : LibOK lib) {N : ℕ} (hN : 1 ≤ N) {r : Rule} (hr : gl1d lib (.int N) = .ok r) :
    ∃ x : Fin N → ℝ, IsCol r.x x ∧ ∀ i, -1 < x i ∧ x i < 1 := by
  obtain ⟨y, x, w, hx, hw, h1, h2, h3, h4, h5, h6⟩ := g1d_full h (by simp) hN hr
  refine ⟨x, hx, fun i => ?_⟩
  let Q : ℝ[X] := ∏ j ∈ Finset.univ.erase i, (X - C (y j)) ^ 2
  have hQdeg : Q.natDegree ≤ 2 * (N - 1) := by
    refine (natDegree_prod_le _ _).trans ?_
    have : ∀ j ∈ Finset.univ.erase i, ((X - C (y j)) ^ 2 : ℝ[X]).natDegree = 2 := by
      intro j _
      rw [natDegree_pow, natDegree_X_sub_C]
    rw [Finset.sum_congr rfl this, Finset.sum_const, Finset.card_erase_of_mem (Finset.mem_univ i), Finset.card_univ,
      Fintype.card_fin, smul_eq_mul]
    omega
  have hQ0 : ∀ j, j ≠ i → Q.eval (y j) = 0 := by
    intro j hj
    rw [eval_prod]
    exact Finset.prod_eq_zero (Finset.mem_erase.mpr ⟨hj, Finset.mem_univ j⟩) (by simp)
  have hQn : ∀ t, 0 ≤ Q.eval t := by
    intro t
    rw [eval_prod]
    exact Finset.prod_nonneg fun j _ => by simp [sq_nonneg]
  have hQne : Q ≠ 0 := Finset.prod_ne_zero_iff.mpr fun j _ => pow_ne_zero 2 (X_sub_C_ne_zero _)
  have key : ∀ l : ℝ[X], l.natDegree ≤ 1 → l ≠ 0 → (∀ t, t ∈ Set.Icc (-1 : ℝ) 1 → 0 ≤ l.eval t) → 0 < l.eval (y i) := by
    intro l hl hl0 hlp
    have hdeg : (l * Q).natDegree < 2 * N := by
      have := natDegree_mul_le (p := l) (q := Q)
      omega
    have hsum := (h5 (l * Q) hdeg).trans (unifL_def _)
    rw [Finset.sum_eq_single i (fun j _ hj => by rw [eval_mul, hQ0 j hj]; ring) (fun hh => absurd (Finset.mem_univ i) hh)] at hsum
    have hpos : 0 < ∫ t in (-1 : ℝ)..1, (l * Q).eval t := by
      refine intervalIntegral.integral_pos (by norm_num) (l * Q).continuous.continuousOn ?_ ?_
      · intro t ht
        rw [eval_mul]
        exact mul_nonneg (hlp t ⟨ht.1.le, ht.2⟩) (hQn t)
      · by_contra hcon
        push Not at hcon
        have hz : ∀ t ∈ Set.Icc (-1 : ℝ) 1, (l * Q).IsRoot t := by
          intro t ht
          refine le_antisymm (hcon t ht) ?_
          rw [eval_mul]
          exact mul_nonneg (hlp t ht) (hQn t)
        have : (l * Q) = 0 := eq_zero_of_infinite_isRoot _ (Set.Infinite.mono hz (Set.Icc_infinite (by norm_num)))
        exact mul_ne_zero hl0 hQne this
    have h0 : 0 < w i * (l.eval (y i) * Q.eval (y i)) := by
      rw [eval_mul] at hsum
      rw [hsum]
      positivity
    have h7 := pos_of_mul_pos_right h0 (h4 i).le
    exact pos_of_mul_pos_left h7 (hQn _)
  have k1 := key (C 1 - X) (by compute_degree) (by
      intro h0
      have := congrArg (eval 0) h0
      simp at this) (fun t ht => by simpa using ht.2)
  have k2 := key (C 1 + X) (by compute_degree) (by
      intro h0
      have := congrArg (eval 0) h0
      simp at this) (fun t ht => by
        have := ht.1
        simp only [eval_add, eval_C, eval_X]
        linarith)
  simp only [eval_sub, eval_add, eval_C, eval_X] at k1 k2
  rcases h2 i with hi | ⟨hi, _⟩
  · rw [hi]
    constructor <;> linarith
  · rw [hi]
    constructor <;> norm_num

end Props
