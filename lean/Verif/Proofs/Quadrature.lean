import Verif.Model.Quadrature
import Verif.Spec.LinAlg
import Verif.Proofs.EigSymm
import Verif.Proofs.NodeGap
import Verif.Proofs.HermitePoly
import Verif.Proofs.LegendrePoly

/-!
# Lemmas about the one-dimensional rules
-/

open Py Polynomial Spec Model.Quadrature

namespace Proofs.Quadrature

/-- A column. -/
def col {n : ℕ} (v : Fin n → ℝ) : Matrix (Fin n) (Fin 1) ℝ := Matrix.of fun i _ => v i

theorem tridiag_congr {a a' b b' : ℕ → ℝ} {n : ℕ} (ha : ∀ k < n, a k = a' k) (hb : ∀ k, 1 ≤ k → k < n → b k = b' k) :
    tridiag a b n = tridiag a' b' n := by
  ext i j
  simp only [tridiag, Matrix.of_apply]
  split_ifs with h1 h2 h3
  · exact ha i i.2
  · rw [hb j (by omega) j.2]
  · rw [hb i (by omega) i.2]
  · rfl

theorem jacobiEntries_eq (ab : NpMat) {n : ℕ} (hn : 2 ≤ n) :
    jacobiEntries ab n = tridiag (fun k => ab.get k 0) (fun k => ab.get k 1) n := by
  ext i j
  have hi := i.2
  have hj := j.2
  simp only [jacobiEntries, tridiag, Matrix.of_apply]
  split_ifs <;> first | omega | rfl | (congr 1; omega) | (congr 2; omega)

theorem hermite_get {N : ℕ} (hN : 2 ≤ N) : ∃ ab, r_hermite (.int N) = .ok ab ∧ ab.rows = N + 1 ∧ ab.cols = 2 ∧
    (∀ k ≤ N, ab.get k 0 = 0) ∧ ab.get 0 1 = 1 ∧ ∀ k, 1 ≤ k → k ≤ N → ab.get k 1 = k := by
  have h1 : ¬ ((N : ℤ) ≤ 0) := by omega
  have h2 : ¬ ((N : ℤ) = 1) := by omega
  simp only [r_hermite, h1, h2, if_false]
  refine ⟨_, rfl, by simp; omega, rfl, ?_, ?_, ?_⟩
  · intro k hk
    simp only [NpMat.get]
    split_ifs with h
    · change Np.hstack _ _ _ (Fin.castAdd 1 (0 : Fin 1)) = 0
      rw [Np.hstack_castAdd]
      rfl
    · rfl
  · simp only [NpMat.get]
    rw [dif_pos (by simp)]
    change Np.hstack _ _ _ (Fin.natAdd 1 (0 : Fin 1)) = 1
    rw [Np.hstack_natAdd]
    change Np.vstack _ _ (Fin.castAdd _ (0 : Fin 1)) 0 = 1
    rw [Np.vstack_castAdd]
    rfl
  · intro k hk1 hk
    simp only [NpMat.get]
    rw [dif_pos (by simp; omega)]
    change Np.hstack _ _ _ (Fin.natAdd 1 (0 : Fin 1)) = (k : ℝ)
    rw [Np.hstack_natAdd]
    have : (⟨k, by simp; omega⟩ : Fin (1 + (N : ℤ).toNat)) = Fin.natAdd 1 ⟨k - 1, by simp; omega⟩ := by
      apply Fin.ext
      simp
      omega
    rw [this, Np.vstack_natAdd]
    simp only [Matrix.of_apply]
    rw [Nat.cast_sub hk1]
    simp

theorem jacobi_get {N : ℕ} (hN : 1 ≤ N) (l r a b : ℝ) : ∃ ab, r_jacobi (.int N) l r a b = .ok ab ∧ ab.rows = N + 1 ∧
    ab.cols = 2 ∧ ab.get 0 0 = (r - l) / 2 * ((b - a) / (a + b + 2)) + (l + (r - l) / 2) ∧ ab.get 0 1 = 1 ∧
    (∀ k, 1 ≤ k → k ≤ N → ab.get k 0
      = (r - l) / 2 * (b ^ 2 - a ^ 2) / ((2 * k + a + b) * (2 * (k + 1) + a + b)) + (l + (r - l) / 2)) ∧
    (ab.get 1 1 = ((r - l) ^ 2 * 1 * (1 + a) * (1 + b)) / ((2 * 1 + a + b) ^ 2 * (2 * 1 + a + b + 1))) ∧
    (∀ k, 2 ≤ k → k ≤ N → ab.get k 1 = ((r - l) ^ 2 * k * (k + a) * (k + b) * (k + a + b))
      / ((2 * k + a + b) ^ 2 * (2 * k + a + b + 1) * (2 * k + a + b - 1))) := by
  have h1 : ¬ ((N : ℤ) ≤ 0) := by omega
  simp only [r_jacobi, h1, if_false]
  refine ⟨_, rfl, by simp, rfl, ?_, ?_, ?_, ?_, ?_⟩
  · simp [NpMat.get]
  · simp [NpMat.get]
  · intro k hk1 hk
    have : k ≠ 0 := by omega
    simp [NpMat.get, this]
    intro h
    omega
  · have : 0 < N := hN
    simp [NpMat.get, this]
  · intro k hk1 hk
    have h0 : k ≠ 0 := by omega
    have h2 : k ≠ 1 := by omega
    simp [NpMat.get, h0, h2]
    intro h
    omega

/-- The contracts of the NumPy routines. -/
structure LibOK (lib : Lib) : Prop where
  eig : ∀ {n : ℕ} (A : Matrix (Fin n) (Fin n) ℝ) (e : Fin n → ℝ) (V : Matrix (Fin n) (Fin n) ℝ),
    A.transpose = A → lib.eig A = .ok (e, V) → IsEig A e V
  argsort : ∀ {n : ℕ} (v : Fin n → ℝ), IsArgsort v (lib.argsort v)

theorem jacobi_matrix_eq {ab : NpMat} {n : ℕ} (hn : 2 ≤ n) (hr : ab.rows = n + 1) (hc : ab.cols = 2) :
    jacobi_matrix (.mat ab) = .ok (.mat (NpMat.of (tridiag (fun k => ab.get k 0) (fun k => ab.get k 1) n))) := by
  have h1 : ¬ (n + 1 = 0) := by omega
  have h2 : ¬ (n + 1 = 1) := by omega
  have h3 : ¬ (n + 1 = 2) := by omega
  obtain ⟨rows, cols, val⟩ := ab
  dsimp only at hr hc
  subst hr hc
  simp only [jacobi_matrix, h1, h2, h3, ne_eq, not_true_eq_false, if_false]
  rw [← jacobiEntries_eq _ hn]
  rfl

theorem jacobiRule_eq (lib : Lib) {ab : NpMat} {n : ℕ} (hn : 2 ≤ n) (hr : ab.rows = n + 1) (hc : ab.cols = 2) :
    jacobiRule lib ab = eigRule lib (tridiag (fun k => ab.get k 0) (fun k => ab.get k 1) n) := by
  unfold jacobiRule
  rw [jacobi_matrix_eq hn hr hc]
  exact dif_pos rfl

/-- The recurrence coefficients `b_k` behind the two rules. -/
noncomputable def bOf : QuadType → ℕ → ℝ
  | .hermite => fun k => k
  | .legendre => LegendrePoly.bLeg
  | .other => LegendrePoly.bLeg

theorem bOf_pos (q : QuadType) (k : ℕ) (hk : 1 ≤ k) : 0 < bOf q k := by
  cases q
  · exact LegendrePoly.bLeg_pos k hk
  · exact Nat.cast_pos.mpr hk
  · exact LegendrePoly.bLeg_pos k hk

theorem bOf_nonneg (q : QuadType) (k : ℕ) : 0 ≤ bOf q k := by
  cases q
  · exact LegendrePoly.bLeg_nonneg k
  · simp [bOf]
  · exact LegendrePoly.bLeg_nonneg k

theorem legendre_b {k : ℕ} (hk : 1 ≤ k) : ((1 - -1 : ℝ) ^ 2 * k * (k + 0) * (k + 0) * (k + 0 + 0))
      / ((2 * k + 0 + 0) ^ 2 * (2 * k + 0 + 0 + 1) * (2 * k + 0 + 0 - 1)) = LegendrePoly.bLeg k := by
  have h1 : (1 : ℝ) ≤ k := by exact_mod_cast hk
  have h2 : (2 * (k : ℝ) - 1) ≠ 0 := by linarith
  have h3 : (2 * (k : ℝ) + 1) ≠ 0 := by linarith
  have h5 : (k : ℝ) ≠ 0 := by linarith
  have h4 : (4 * (k : ℝ) ^ 2 - 1) = (2 * k - 1) * (2 * k + 1) := by ring
  rw [LegendrePoly.bLeg, h4]
  simp only [add_zero]
  field_simp
  ring

/-- `g1d` for `N >= 2` is the eigenvalue rule of the tridiagonal matrix. -/
theorem g1d_eq (lib : Lib) (q : QuadType) (hq : q ≠ .other) {N : ℕ} (hN : 2 ≤ N) :
    g1d lib (.int N) q = eigRule lib (tridiag (fun _ => 0) (bOf q) N) := by
  have h1 : Num.gtOne (.int N) = true := by
    simp only [Num.gtOne, decide_eq_true_eq]
    omega
  cases q
  · obtain ⟨ab, hab, hr, hc, h00, h01, hk0, h11, hk1⟩ := jacobi_get (show 1 ≤ N by omega) (-1) 1 0 0
    have ht : tridiag (fun k => ab.get k 0) (fun k => ab.get k 1) N = tridiag (fun _ => 0) (bOf .legendre) N := by
      refine tridiag_congr ?_ ?_
      · intro k hk
        rcases Nat.eq_zero_or_pos k with rfl | hk0'
        · rw [h00]; norm_num
        · rw [hk0 k hk0' hk.le]; norm_num
      · intro k hk1' hk
        rcases Nat.lt_or_ge k 2 with h | h
        · obtain rfl : k = 1 := by omega
          rw [h11, bOf, LegendrePoly.bLeg]
          norm_num
        · rw [hk1 k h hk.le]
          exact legendre_b hk1'
    simp only [g1d, h1, if_true, hab, jacobiRule_eq lib hN hr hc, ht]
  · obtain ⟨ab, hab, hr, hc, hk0, h01, hk1⟩ := hermite_get hN
    have ht : tridiag (fun k => ab.get k 0) (fun k => ab.get k 1) N = tridiag (fun _ => 0) (bOf .hermite) N := by
      refine tridiag_congr ?_ ?_
      · intro k hk
        exact hk0 k hk.le
      · intro k hk1' hk
        exact hk1 k hk1' hk.le
    simp only [g1d, h1, if_true, hab, jacobiRule_eq lib hN hr hc, ht]
  · exact absurd rfl hq

theorem g1d_one (lib : Lib) (q : QuadType) {N : ℤ} (hN : N ≤ 1) :
    g1d lib (.int N) q = .ok ⟨NpMat.of (col fun _ : Fin 1 => 0), NpMat.of (col fun _ : Fin 1 => 1)⟩ := by
  have h1 : Num.gtOne (.int N) = false := by
    simp only [Num.gtOne, decide_eq_false_iff_not]
    omega
  simp only [g1d, h1]
  rfl

/-- The functional behind the two rules. -/
noncomputable def LOf : QuadType → ℝ[X] →ₗ[ℝ] ℝ
  | .hermite => HermitePoly.gaussL
  | _ => LegendrePoly.unifL

theorem LOf_one (q : QuadType) : LOf q 1 = 1 := by
  cases q
  · exact LegendrePoly.unifL_one
  · exact HermitePoly.gaussL_one
  · exact LegendrePoly.unifL_one

theorem LOf_monic (q : QuadType) (k : ℕ) : LOf q (monicPoly (fun _ => 0) (bOf q) (k + 1)) = 0 := by
  cases q
  · exact LegendrePoly.unifL_leg k
  · exact HermitePoly.gaussL_herm k
  · exact LegendrePoly.unifL_leg k

/-- What `g1d` returns for `N >= 2`: nodes `x`, obtained from exact Gauss nodes `y` by setting tiny ones to zero,
and weights `w`. -/
theorem g1d_spec {lib : Lib} (h : LibOK lib) {q : QuadType} (hq : q ≠ .other) {N : ℕ} (hN : 2 ≤ N) {r : Rule}
    (hr : g1d lib (.int N) q = .ok r) :
    ∃ y x w : Fin N → ℝ, r = ⟨NpMat.of (col x), NpMat.of (col w)⟩ ∧ StrictMono y ∧
      (∀ i, x i = y i ∨ (x i = 0 ∧ |y i| < 1e-12)) ∧ (∀ i, |y i| < 1e-12 → x i = 0) ∧ (∀ i, 0 < w i) ∧
      (∀ p : ℝ[X], p.natDegree < 2 * N → ∑ i, w i * p.eval (y i) = LOf q p) ∧
      ∀ i, ∃ v : Fin N → ℝ, ∑ k, v k ^ 2 = 1 ∧ (tridiag (fun _ => 0) (bOf q) N).mulVec v = y i • v := by
  rw [g1d_eq lib q hq hN] at hr
  unfold eigRule at hr
  split at hr
  · cases hr
  · rename_i e V heq
    have hE := h.eig _ _ _ (GaussRule.tridiag_symm _ _ _) heq
    have hS := h.argsort e
    have hn : 0 < N := by omega
    have hinj := EigSymm.tridiag_simple (bOf_pos q) hE
    refine ⟨fun i => e (lib.argsort e i), fun i => if |e (lib.argsort e i)| < 1e-12 then 0 else e (lib.argsort e i),
      fun i => V ⟨0, hn⟩ (lib.argsort e i) ^ 2, ?_, ?_, ?_, ?_, ?_, ?_, ?_⟩
    · have hr' := (Except.ok.inj hr).symm
      rw [hr']
      simp only [dif_pos hn]
      congr 2
      ext i j
      simp [col, sq]
    · exact hS.mono.strictMono_of_injective (hinj.comp hS.bij.injective)
    · intro i
      dsimp only
      split_ifs with h1
      · exact .inr ⟨rfl, h1⟩
      · exact .inl rfl
    · intro i h1
      exact if_pos h1
    · intro i
      exact EigSymm.weight_pos (bOf_pos q) hn hE _
    · intro p hp
      rw [← EigSymm.gauss (bOf_nonneg q) (bOf_pos q) hn hE (LOf q) (LOf_one q) (LOf_monic q) p hp]
      exact Function.Bijective.sum_comp hS.bij (fun i => V ⟨0, hn⟩ i ^ 2 * eval (e i) p)
    · intro i
      exact ⟨fun k => V k (lib.argsort e i), hE.unit _, EigSymm.vec_of hE.vecs _⟩

theorem g1d_ok {lib : Lib} {q : QuadType} (hq : q ≠ .other)
    (heig : ∀ {n : ℕ} (A : Matrix (Fin n) (Fin n) ℝ), A.transpose = A → ∃ eV, lib.eig A = .ok eV) (N : ℤ) :
    ∃ r, g1d lib (.int N) q = .ok r := by
  rcases le_or_gt N 1 with hN | hN
  · exact ⟨_, g1d_one lib q hN⟩
  · obtain ⟨n, rfl⟩ : ∃ n : ℕ, N = n := ⟨N.toNat, by omega⟩
    rw [g1d_eq lib q hq (by omega)]
    obtain ⟨⟨e, V⟩, h⟩ := heig (tridiag (fun _ => 0) (bOf q) n) (GaussRule.tridiag_symm _ _ _)
    unfold eigRule
    rw [h]
    exact ⟨_, rfl⟩

/-- Non-zero nodes are at least 1e-12 for every realistic size. -/
theorem node_gap {q : QuadType} {N : ℕ} (hN : N ≤ 10 ^ 11) {c : ℝ} (hc : c ≠ 0) {v : Fin N → ℝ}
    (hu : ∑ k, v k ^ 2 = 1) (hv : (tridiag (fun _ => 0) (bOf q) N).mulVec v = c • v) : 1e-12 ≤ |c| := by
  have key : 1 ≤ 8 * c ^ 2 * (N : ℝ) ^ 2 := by
    have leg : ∀ v : Fin N → ℝ, ∑ k, v k ^ 2 = 1 →
        (tridiag (fun _ => 0) LegendrePoly.bLeg N).mulVec v = c • v → 1 ≤ 8 * c ^ 2 * (N : ℝ) ^ 2 := by
      intro v hu hv
      refine NodeGap.gap hc hv hu (fun _ => 1) (by simp) (by simp) ?_ ?_
      · intro k hk
        simp only [one_mul]
        apply Real.sqrt_le_sqrt
        rw [LegendrePoly.bLeg, LegendrePoly.bLeg,
          div_le_div_iff₀ (LegendrePoly.four_sq_pos (k + 1) (by omega)) (LegendrePoly.four_sq_pos k hk)]
        push_cast
        have : (0 : ℝ) ≤ k := Nat.cast_nonneg k
        nlinarith
      · intro k hk
        rw [one_mul]
        apply Real.le_sqrt_of_sq_le
        rw [LegendrePoly.bLeg, le_div_iff₀ (LegendrePoly.four_sq_pos k hk)]
        have : (0 : ℝ) ≤ (k : ℝ) ^ 2 := sq_nonneg _
        nlinarith
    cases q
    · exact leg v hu hv
    · refine NodeGap.gap hc hv hu (fun k => 1 / Real.sqrt (bOf .hermite k)) ?_ ?_ ?_ ?_
      · intro k _
        positivity
      · intro k hk
        have h1 : (1 : ℝ) ≤ k := by exact_mod_cast hk
        have h2 : 1 ≤ Real.sqrt (bOf .hermite k) := by
          rw [← Real.sqrt_one]
          exact Real.sqrt_le_sqrt h1
        exact (div_le_one (by linarith)).mpr h2
      · intro k hk
        have h0 := Real.sqrt_pos.mpr (bOf_pos .hermite k hk)
        have h2 := Real.sqrt_pos.mpr (bOf_pos .hermite (k + 2) (by omega))
        have h3 : Real.sqrt (bOf .hermite (k + 1)) ≤ Real.sqrt (bOf .hermite (k + 2)) := by
          apply Real.sqrt_le_sqrt
          simp only [bOf]
          push_cast
          linarith
        rw [one_div_mul_cancel h0.ne', one_div, inv_mul_le_iff₀ h2, mul_one]
        exact h3
      · intro k hk
        have h0 := Real.sqrt_pos.mpr (bOf_pos .hermite k hk)
        rw [one_div_mul_cancel h0.ne']
        norm_num
    · exact leg v hu hv
  by_contra hlt
  push Not at hlt
  have h1 : |c| ^ 2 < (1e-12) ^ 2 := pow_lt_pow_left₀ hlt (abs_nonneg c) (by norm_num)
  rw [sq_abs] at h1
  have h2 : (N : ℝ) ≤ 10 ^ 11 := by exact_mod_cast hN
  have h3 : (N : ℝ) ^ 2 ≤ (10 ^ 11) ^ 2 := pow_le_pow_left₀ (Nat.cast_nonneg N) h2 2
  have h4 : 8 * c ^ 2 * (N : ℝ) ^ 2 ≤ 8 * (1e-12) ^ 2 * (10 ^ 11) ^ 2 := by
    apply mul_le_mul (by linarith) h3 (by positivity) (by positivity)
  norm_num at h4
  linarith

end Proofs.Quadrature
