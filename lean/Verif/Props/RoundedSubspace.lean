import Verif.Model.Rounded
import Verif.Proofs.FloatSum
import Verif.Props.Stability

/-!
# Property C127: `active_subspace` in double precision
-/

open Py Matrix Model.Subspaces Spec Proofs.Perturb Proofs.Eigh
open scoped Matrix.Norms.L2Operator

namespace Props

variable {M m : ℕ} {rd : ℝ → ℝ}

namespace Rounded

/-- Sorting both sequences does not increase the largest difference. -/
theorem sort_close {a b : Fin m → ℝ} {δ : ℝ} (h : ∀ j, |a j - b j| ≤ δ) (hb : Antitone b) (σ : Equiv.Perm (Fin m))
    (ha : Antitone (a ∘ σ)) (j : Fin m) : |a (σ j) - b j| ≤ δ := by
  have hform : ∀ (c : Fin m → ℝ) (x : Fin m → ℝ), x ⬝ᵥ (diagonal c).mulVec x = ∑ k, c k * (x k) ^ 2 := by
    intro c x
    rw [dotProduct]
    refine Finset.sum_congr rfl fun k _ => ?_
    rw [mulVec_diagonal]
    ring
  have hdiff : ∀ x : Fin m → ℝ, |∑ k, a k * (x k) ^ 2 - ∑ k, b k * (x k) ^ 2| ≤ δ * (x ⬝ᵥ x) := by
    intro x
    rw [← Finset.sum_sub_distrib, dotProduct, Finset.mul_sum]
    refine (Finset.abs_sum_le_sum_abs _ _).trans (Finset.sum_le_sum fun k _ => ?_)
    rw [← sub_mul, abs_mul, abs_of_nonneg (sq_nonneg (x k)), ← _root_.sq]
    exact mul_le_mul_of_nonneg_right (h k) (sq_nonneg _)
  have hA : IsEigh (diagonal a) (a ∘ σ) ((1 : Matrix (Fin m) (Fin m) ℝ).submatrix id σ) := by
    constructor
    · ext i k
      rw [diagonal_mul, mul_diagonal, submatrix_apply, id, one_apply]
      split_ifs with hi
      · rw [hi]; simp
      · simp
    · ext i k
      rw [mul_apply]
      simp only [transpose_apply, submatrix_apply, id, one_apply]
      simp [σ.injective.eq_iff, eq_comm]
  have hB : IsEigh (diagonal b) b 1 := ⟨by rw [Matrix.mul_one, Matrix.one_mul], by rw [transpose_one, Matrix.one_mul]⟩
  have h1 := weyl hA hB ha hb (δ := δ) (fun x => by rw [hform, hform]; exact (le_abs_self _).trans (hdiff x)) j
  have h2 := weyl hB hA hb ha (δ := δ) (fun x => by rw [hform, hform]; have := neg_le_of_abs_le (hdiff x); linarith) j
  rw [abs_le]
  constructor
  · simp only [Function.comp] at h2
    linarith
  · simp only [Function.comp] at h1
    linarith

theorem form_le (E : Matrix (Fin m) (Fin m) ℝ) (x : Fin m → ℝ) : x ⬝ᵥ E.mulVec x ≤ ‖E‖ * (x ⬝ᵥ x) := by
  have h1 := l2_opNorm_mulVec E (WithLp.toLp 2 x)
  change ‖WithLp.toLp 2 (E.mulVec x)‖ ≤ _ at h1
  rw [← sqrt_dot, ← sqrt_dot] at h1
  have h2 := abs_dot_le x (E.mulVec x)
  rw [sum_sq_dot, sum_sq_dot] at h2
  have h3 : x ⬝ᵥ x = Real.sqrt (x ⬝ᵥ x) * Real.sqrt (x ⬝ᵥ x) :=
    (Real.mul_self_sqrt (Finset.sum_nonneg fun i _ => mul_self_nonneg _)).symm
  calc x ⬝ᵥ E.mulVec x ≤ |∑ k, x k * E.mulVec x k| := le_abs_self _
    _ ≤ Real.sqrt (x ⬝ᵥ x) * Real.sqrt (E.mulVec x ⬝ᵥ E.mulVec x) := h2
    _ ≤ Real.sqrt (x ⬝ᵥ x) * (‖E‖ * Real.sqrt (x ⬝ᵥ x)) := by gcongr
    _ = ‖E‖ * (Real.sqrt (x ⬝ᵥ x) * Real.sqrt (x ⬝ᵥ x)) := by ring
    _ = ‖E‖ * (x ⬝ᵥ x) := by rw [← h3]

/-- A matrix bounded entry by entry like the average of outer products. -/
theorem norm_le_trace (G : Matrix (Fin M) (Fin m) ℝ) (w : Fin M → ℝ) (hw : ∀ k, 0 ≤ w k) {E : Matrix (Fin m) (Fin m) ℝ} {κ : ℝ}
    (hκ : 0 ≤ κ) (hE : ∀ i j, |E i j| ≤ κ * ∑ k, w k * (|G k i| * |G k j|)) : ‖E‖ ≤ κ * ∑ k, w k * ∑ i, G k i ^ 2 := by
  refine opNorm_le (mul_nonneg hκ (Finset.sum_nonneg fun k _ => mul_nonneg (hw k) (Finset.sum_nonneg fun i _ => sq_nonneg _))) fun x y => ?_
  have h1 : x ⬝ᵥ E.mulVec y ≤ ∑ i, ∑ j, |x i| * (κ * ∑ k, w k * (|G k i| * |G k j|)) * |y j| := by
    rw [dotProduct]
    refine Finset.sum_le_sum fun i _ => ?_
    rw [mulVec, dotProduct, Finset.mul_sum]
    refine Finset.sum_le_sum fun j _ => (le_abs_self _).trans ?_
    rw [abs_mul, abs_mul, ← mul_assoc]
    gcongr
    exact hE i j
  have h2 : ∑ i, ∑ j, |x i| * (κ * ∑ k, w k * (|G k i| * |G k j|)) * |y j|
      = κ * ∑ k, w k * ((∑ i, |x i| * |G k i|) * ∑ j, |y j| * |G k j|) := by
    simp only [Finset.mul_sum, Finset.sum_mul]
    rw [Finset.sum_congr rfl fun i _ => Finset.sum_comm, Finset.sum_comm]
    refine Finset.sum_congr rfl fun k _ => ?_
    rw [Finset.sum_comm]
    exact Finset.sum_congr rfl fun j _ => Finset.sum_congr rfl fun i _ => by ring
  rw [h2] at h1
  refine h1.trans ?_
  rw [mul_assoc, mul_assoc κ]
  refine mul_le_mul_of_nonneg_left ?_ hκ
  rw [Finset.sum_mul]
  refine Finset.sum_le_sum fun k _ => ?_
  rw [mul_assoc]
  refine mul_le_mul_of_nonneg_left ?_ (hw k)
  have a1 := (le_abs_self _).trans (abs_dot_le (fun i => |x i|) fun i => |G k i|)
  have a2 := (le_abs_self _).trans (abs_dot_le (fun i => |y i|) fun i => |G k i|)
  simp only [sq_abs] at a1 a2
  rw [sum_sq_dot] at a1 a2
  have h3 : ∑ i, G k i ^ 2 = Real.sqrt (∑ i, G k i ^ 2) * Real.sqrt (∑ i, G k i ^ 2) :=
    (Real.mul_self_sqrt (Finset.sum_nonneg fun i _ => sq_nonneg _)).symm
  calc (∑ i, |x i| * |G k i|) * ∑ j, |y j| * |G k j|
      ≤ (Real.sqrt (x ⬝ᵥ x) * Real.sqrt (∑ i, G k i ^ 2)) * (Real.sqrt (y ⬝ᵥ y) * Real.sqrt (∑ i, G k i ^ 2)) := by
        refine mul_le_mul a1 a2 (Finset.sum_nonneg fun i _ => by positivity) (by positivity)
    _ = (Real.sqrt (∑ i, G k i ^ 2) * Real.sqrt (∑ i, G k i ^ 2)) * (Real.sqrt (x ⬝ᵥ x) * Real.sqrt (y ⬝ᵥ y)) := by ring
    _ = (∑ i, G k i ^ 2) * (Real.sqrt (x ⬝ᵥ x) * Real.sqrt (y ⬝ᵥ y)) := by rw [← h3]

open Proofs.FloatSum in
/-- The computed matrix, entry by entry. -/
theorem entry_bound (hr : Rounding rd) {d : Model.Rounded.Dot} (hd : ∀ p n q A B, FloatDot rd A B (d p n q A B))
    (G : Matrix (Fin M) (Fin m) ℝ) (w : Fin M → ℝ) (hw : ∀ k, 0 ≤ w k) (i j : Fin m) :
    |d m M m G.transpose (Matrix.of fun k l => rd (G k l * w k)) i j - gradOuter G w i j|
      ≤ ((1 + u) ^ (M + 1) - 1) * ∑ k, w k * (|G k i| * |G k j|) := by
  have h1 := dot_bound hr (hd m M m G.transpose (Matrix.of fun k l => rd (G k l * w k))) i j
  simp only [transpose_apply, Matrix.of_apply] at h1
  have hrd : ∀ k, |rd (G k j * w k) - G k j * w k| ≤ u * (w k * |G k j|) := by
    intro k
    have := Proofs.Rounding.error hr (G k j * w k)
    rw [abs_mul, abs_of_nonneg (hw k)] at this
    refine this.trans (le_of_eq ?_)
    unfold u
    ring
  have h2 : ∑ k, |G k i * rd (G k j * w k)| ≤ (1 + u) * ∑ k, w k * (|G k i| * |G k j|) := by
    rw [Finset.mul_sum]
    refine Finset.sum_le_sum fun k _ => ?_
    rw [abs_mul]
    have : |rd (G k j * w k)| ≤ (1 + u) * (w k * |G k j|) := by
      have e : rd (G k j * w k) = G k j * w k + (rd (G k j * w k) - G k j * w k) := by ring
      rw [e]
      refine (abs_add_le _ _).trans ?_
      have e2 : |G k j * w k| = w k * |G k j| := by rw [abs_mul, abs_of_nonneg (hw k), mul_comm]
      rw [e2]
      linarith [hrd k]
    calc |G k i| * |rd (G k j * w k)| ≤ |G k i| * ((1 + u) * (w k * |G k j|)) := by gcongr
      _ = (1 + u) * (w k * (|G k i| * |G k j|)) := by ring
  have h3 : |∑ k, G k i * rd (G k j * w k) - gradOuter G w i j| ≤ u * ∑ k, w k * (|G k i| * |G k j|) := by
    rw [gradOuter, Matrix.of_apply, ← Finset.sum_sub_distrib, Finset.mul_sum]
    refine (Finset.abs_sum_le_sum_abs _ _).trans (Finset.sum_le_sum fun k _ => ?_)
    have e : G k i * rd (G k j * w k) - w k * (G k i * G k j) = G k i * (rd (G k j * w k) - G k j * w k) := by ring
    rw [e, abs_mul]
    calc |G k i| * |rd (G k j * w k) - G k j * w k| ≤ |G k i| * (u * (w k * |G k j|)) := by gcongr; exact hrd k
      _ = u * (w k * (|G k i| * |G k j|)) := by ring
  have h4 := mul_le_mul_of_nonneg_left h2 (by linarith [one_le_pow M] : 0 ≤ (1 + u) ^ M - 1)
  refine (abs_sub_le _ (∑ k, G k i * rd (G k j * w k)) _).trans ((add_le_add (h1.trans h4) h3).trans (le_of_eq ?_))
  rw [pow_succ]
  ring

theorem lower_symm (A : Matrix (Fin m) (Fin m) ℝ) : (lower A).transpose = lower A := by
  ext i j
  simp only [transpose_apply, lower, Matrix.of_apply, max_comm, min_comm]

/-- The columns of the result, next to orthonormal eigenvectors. -/
theorem sorted_near {lib : Model.Subspaces.Lib} (ha : ∀ (n : ℕ) (v : Fin n → ℝ), IsArgsort v (lib.argsort n v)) (hm : 0 < m)
    {A B : Matrix (Fin m) (Fin m) ℝ} {Q : Matrix (Fin m) (Fin m) ℝ} {ε : ℝ} (hB : IsEigh B (lib.eigh m A).1 Q) (hQ : ‖(lib.eigh m A).2 - Q‖ ≤ ε) :
    ∃ (σ : Equiv.Perm (Fin m)) (e : Fin m → ℝ) (W W' : Matrix (Fin m) (Fin m) ℝ), sortedEighMat lib hm A = ⟨m, e, W⟩ ∧
      (∀ j, e j = |(lib.eigh m A).1 (σ j)|) ∧ Antitone e ∧ IsEigh B (fun j => (lib.eigh m A).1 (σ j)) W' ∧ ‖W - W'‖ ≤ ε := by
  set lam := (lib.eigh m A).1 with hlam
  set V := (lib.eigh m A).2 with hV
  set ind := lib.argsort m fun i => |lam i| with hind
  have hs : IsArgsort (fun i => |lam i|) ind := ha m _
  let σ : Equiv.Perm (Fin m) := Fin.revPerm.trans (Equiv.ofBijective ind hs.bij)
  let P : Matrix (Fin m) (Fin m) ℝ := Matrix.of fun k j => if k = σ j then signFlip (V ⟨0, hm⟩ (σ j)) else 0
  have hP : P.transpose * P = 1 := by
    ext i j
    rw [mul_apply]
    simp only [transpose_apply, P, Matrix.of_apply]
    rw [Finset.sum_eq_single (σ i) (fun k _ hk => by rw [if_neg hk, zero_mul]) (fun h => absurd (Finset.mem_univ _) h), if_pos rfl, one_apply]
    by_cases hij : i = j
    · subst hij
      rw [if_pos rfl, if_pos rfl, flip_mul_self]
    · rw [if_neg (fun h => hij (σ.injective h)), if_neg hij, mul_zero]
  have hVP : ∀ (R : Matrix (Fin m) (Fin m) ℝ) i j, (R * P) i j = R i (σ j) * signFlip (V ⟨0, hm⟩ (σ j)) := by
    intro R i j
    rw [mul_apply]
    simp only [P, Matrix.of_apply]
    rw [Finset.sum_eq_single (σ j) (fun k _ hk => by rw [if_neg hk, mul_zero]) (fun h => absurd (Finset.mem_univ _) h), if_pos rfl]
  refine ⟨σ, fun j => |lam (σ j)|, V * P, Q * P, ?_, fun j => rfl, fun i j hij => hs.mono (Fin.rev_le_rev.mpr hij), ⟨?_, ?_⟩, ?_⟩
  · have : V * P = Matrix.of fun i j => V i (σ j) * signFlip (V ⟨0, hm⟩ (σ j)) := by
      ext i j
      rw [hVP, Matrix.of_apply]
    rw [this]
    rfl
  · rw [← Matrix.mul_assoc, hB.vecs]
    ext i j
    rw [mul_diagonal, hVP, hVP, mul_diagonal]
    ring
  · rw [transpose_mul, Matrix.mul_assoc, ← Matrix.mul_assoc Q.transpose, hB.orth, Matrix.one_mul, hP]
  · rw [← Matrix.sub_mul]
    exact (l2_opNorm_mul _ _).trans ((mul_le_of_le_one_right (norm_nonneg _) (opNorm_orth hP)).trans hQ)

open Proofs.FloatSum in
/-- What the computation amounts to: an eigendecomposition of a matrix near the exact one. -/
theorem subspace_core (hr : Rounding rd) {d : Model.Rounded.Dot} (hd : ∀ p n q A B, FloatDot rd A B (d p n q A B))
    {lib : Model.Subspaces.Lib} (ha : ∀ (n : ℕ) (v : Fin n → ℝ), IsArgsort v (lib.argsort n v)) {ε : ℝ}
    (he : ∀ A : Matrix (Fin m) (Fin m) ℝ, StableEigh ε A (lib.eigh m A).1 (lib.eigh m A).2) (hε : 0 ≤ ε) (hm : 0 < m)
    (G : Matrix (Fin M) (Fin m) ℝ) (w : Fin M → ℝ) (hw : ∀ k, 0 ≤ w k) {γ δ : ℝ} (hγ : γ = (1 + 1 / 2 ^ 53) ^ (M + 1) - 1)
    (hδ : δ = (γ + ε * (1 + γ)) * ∑ k, w k * ∑ i, G k i ^ 2) :
    ∃ (B : Matrix (Fin m) (Fin m) ℝ) (f e : Fin m → ℝ) (W W' : Matrix (Fin m) (Fin m) ℝ),
      Model.Rounded.active_subspace rd d lib (.mat (.of G)) (wcol w) = .ok ⟨m, e, W⟩ ∧ IsEigh B f W' ∧ B.transpose = B ∧
      (∀ j, e j = |f j|) ∧ Antitone e ∧ ‖W - W'‖ ≤ ε ∧ ‖B - gradOuter G w‖ ≤ δ := by
  set C : Matrix (Fin m) (Fin m) ℝ := d m M m G.transpose (Matrix.of fun k l => rd (G k l * w k)) with hC
  have hγu : γ = (1 + u) ^ (M + 1) - 1 := hγ
  have hγ0 : 0 ≤ γ := by rw [hγu]; linarith [one_le_pow (M + 1)]
  have hcode : Model.Rounded.active_subspace rd d lib (.mat (.of G)) (wcol w) = .ok (sortedEighMat lib hm C) := by
    unfold Model.Rounded.active_subspace
    change (do
      let dfw ← NpMat.zipB (fun a b => rd (a * b)) (NpMat.of G) (wcol w)
      let C ← Model.Rounded.dot d (NpMat.of G).transpose dfw
      sorted_eigh lib C) = _
    rw [zipB_wcol]
    change (do
      let C ← Model.Rounded.dot d (NpMat.of G.transpose) (NpMat.of (Matrix.of fun i j => rd (G i j * w i)))
      sorted_eigh lib C) = _
    have h1 : Model.Rounded.dot d (NpMat.of G.transpose) (NpMat.of (Matrix.of fun i j => rd (G i j * w i))) = .ok (NpMat.of C) := dif_pos rfl
    rw [h1]
    change sorted_eigh lib (NpMat.of C) = _
    unfold sorted_eigh
    rw [dif_pos (show (NpMat.of C).cols = (NpMat.of C).rows from rfl), dif_pos (show 0 < (NpMat.of C).rows from hm)]
    rfl
  have hent := entry_bound hr hd G w hw
  rw [← hC, ← hγu] at hent
  have hsy : ∀ i j, gradOuter G w i j = gradOuter G w j i := fun i j => congrFun (congrFun (Proofs.Bootstrap.gradOuter_symm G w) j) i
  have hlow : ‖lower C - gradOuter G w‖ ≤ γ * ∑ k, w k * ∑ i, G k i ^ 2 := by
    refine norm_le_trace G w hw hγ0 fun i j => ?_
    rw [Matrix.sub_apply, lower, Matrix.of_apply]
    rcases le_total i j with hij | hij
    · rw [max_eq_right hij, min_eq_left hij, hsy i j]
      refine (hent j i).trans (le_of_eq ?_)
      congr 1
      exact Finset.sum_congr rfl fun k _ => by ring
    · rw [max_eq_left hij, min_eq_right hij]
      exact hent i j
  have hex : ‖gradOuter G w‖ ≤ 1 * ∑ k, w k * ∑ i, G k i ^ 2 := by
    refine norm_le_trace G w hw zero_le_one fun i j => ?_
    rw [one_mul, gradOuter, Matrix.of_apply]
    refine (Finset.abs_sum_le_sum_abs _ _).trans (Finset.sum_le_sum fun k _ => le_of_eq ?_)
    rw [abs_mul, abs_mul, abs_of_nonneg (hw k)]
  obtain ⟨E, Q, hE, hEn, hQ, hVQ⟩ := he C
  obtain ⟨σ, e, W, W', h1, h2, h3, h4, h5⟩ := sorted_near ha hm hQ hVQ
  refine ⟨lower C + E, _, e, W, W', by rw [hcode, h1], h4, by rw [transpose_add, lower_symm, hE], h2, h3, h5, ?_⟩
  have e1 : lower C + E - gradOuter G w = (lower C - gradOuter G w) + E := by abel
  have e2 : lower C = (lower C - gradOuter G w) + gradOuter G w := by abel
  have h6 : ‖lower C‖ ≤ γ * (∑ k, w k * ∑ i, G k i ^ 2) + 1 * ∑ k, w k * ∑ i, G k i ^ 2 := by
    rw [e2]
    exact (norm_add_le _ _).trans (add_le_add hlow hex)
  have h7 := hEn.trans (mul_le_mul_of_nonneg_left h6 hε)
  rw [e1]
  refine (norm_add_le _ _).trans ((add_le_add hlow h7).trans (le_of_eq ?_))
  rw [hδ]
  ring

/-- The eigenvalues of two matrices, one of them positive semidefinite, by their absolute values. -/
theorem abs_eig_close {A B : Matrix (Fin m) (Fin m) ℝ} {f e e' : Fin m → ℝ} {V W : Matrix (Fin m) (Fin m) ℝ} {δ : ℝ} (hB : IsEigh B f W)
    (hs : IsSortedEigh A e V) (he : ∀ j, e' j = |f j|) (ha : Antitone e') (hE : ‖B - A‖ ≤ δ) :
    (∀ j, |e' j - e j| ≤ δ) ∧ ∀ j, -δ ≤ f j := by
  have hd : ∀ x : Fin m → ℝ, x ⬝ᵥ B.mulVec x - x ⬝ᵥ A.mulVec x ≤ δ * (x ⬝ᵥ x) := by
    intro x
    rw [← dotProduct_sub, ← Matrix.sub_mulVec]
    exact (form_le _ x).trans (mul_le_mul_of_nonneg_right hE (Finset.sum_nonneg fun i _ => mul_self_nonneg _))
  have hd' : ∀ x : Fin m → ℝ, x ⬝ᵥ A.mulVec x - x ⬝ᵥ B.mulVec x ≤ δ * (x ⬝ᵥ x) := by
    intro x
    rw [← dotProduct_sub, ← Matrix.sub_mulVec]
    rw [norm_sub_rev] at hE
    exact (form_le _ x).trans (mul_le_mul_of_nonneg_right hE (Finset.sum_nonneg fun i _ => mul_self_nonneg _))
  set τ : Equiv.Perm (Fin m) := Tuple.sort fun j => -f j with hτ
  have hanti : Antitone (f ∘ τ) := by
    intro i j hij
    have := Tuple.monotone_sort (fun j => -f j) hij
    simp only [Function.comp] at this ⊢
    linarith
  have hBτ : IsEigh B (f ∘ τ) (W.submatrix id τ) := by
    constructor
    · ext i j
      have := congrFun (congrFun hB.vecs i) (τ j)
      rw [mul_diagonal] at this ⊢
      exact this
    · ext i j
      have := congrFun (congrFun hB.orth (τ i)) (τ j)
      rw [one_apply] at this ⊢
      simp only [τ.injective.eq_iff] at this
      exact this
  have h1 := weyl hBτ hs.isEigh hanti hs.anti hd
  have h2 := weyl hs.isEigh hBτ hs.anti hanti hd'
  have h3 : ∀ j, |f (τ j) - e j| ≤ δ := fun j => by
    have a := h1 j
    have b := h2 j
    simp only [Function.comp] at a b
    rw [abs_le]
    constructor <;> linarith
  constructor
  · have h4 : ∀ j, |(|f (τ j)|) - e j| ≤ δ := fun j => by
      have := abs_abs_sub_abs_le_abs_sub (f (τ j)) (e j)
      rw [abs_of_nonneg (hs.nonneg j)] at this
      exact this.trans (h3 j)
    have h5 := sort_close (a := fun j => |f (τ j)|) h4 hs.anti τ.symm (by
      intro i j hij
      have := ha hij
      rw [he, he] at this
      simpa [Function.comp] using this)
    intro j
    have := h5 j
    simp only [Equiv.apply_symm_apply] at this
    rw [he]
    exact this
  · intro j
    have := neg_le_of_abs_le (h3 (τ.symm j))
    rw [Equiv.apply_symm_apply] at this
    linarith [hs.nonneg (τ.symm j)]

theorem firstCols_eigh {B : Matrix (Fin m) (Fin m) ℝ} {f : Fin m → ℝ} {W : Matrix (Fin m) (Fin m) ℝ} (h : IsEigh B f W) (n : ℕ) (hn : n ≤ m) :
    B * Np.firstCols W n hn = Np.firstCols W n hn * diagonal fun i => f (Fin.castLE hn i) := by
  ext r j
  have := congrFun (congrFun h.vecs r) (Fin.castLE hn j)
  rw [mul_diagonal] at this ⊢
  exact this

theorem lastCols_eigh {B : Matrix (Fin m) (Fin m) ℝ} {f : Fin m → ℝ} {W : Matrix (Fin m) (Fin m) ℝ} (h : IsEigh B f W) (n : ℕ) :
    B * Np.lastCols W n = Np.lastCols W n * diagonal fun i : Fin (m - n) => f ⟨n + i, by omega⟩ := by
  ext r j
  have := congrFun (congrFun h.vecs r) ⟨n + j, by omega⟩
  rw [mul_diagonal] at this ⊢
  exact this

/-- Selecting columns does not increase the norm. -/
theorem cols_norm {n : ℕ} (D : Matrix (Fin m) (Fin m) ℝ) (g : Fin n → Fin m) (hg : Function.Injective g) : ‖D.submatrix id g‖ ≤ ‖D‖ := by
  have h1 : D.submatrix id g = D * (1 : Matrix (Fin m) (Fin m) ℝ).submatrix id g := by
    ext i j
    rw [mul_apply]
    simp [one_apply]
  have h2 : ((1 : Matrix (Fin m) (Fin m) ℝ).submatrix id g).transpose * (1 : Matrix (Fin m) (Fin m) ℝ).submatrix id g = 1 := by
    ext i j
    rw [mul_apply]
    simp [one_apply, hg.eq_iff, eq_comm]
  rw [h1]
  exact (l2_opNorm_mul _ _).trans (mul_le_of_le_one_right (norm_nonneg _) (opNorm_orth h2))

theorem norm_apply {p q : ℕ} {R : Matrix (Fin p) (Fin q) ℝ} {b : ℝ} (hR : ‖R‖ ≤ b) {c : Fin q → ℝ} (hc : ∑ i, c i ^ 2 ≤ 1) :
    Real.sqrt (∑ j, (∑ i, R j i * c i) ^ 2) ≤ b := by
  have h1 := l2_opNorm_mulVec R (WithLp.toLp 2 c)
  change ‖WithLp.toLp 2 (R.mulVec c)‖ ≤ _ at h1
  rw [← sqrt_dot, ← sqrt_dot] at h1
  rw [sum_sq_dot] at hc
  have h2 : Real.sqrt (c ⬝ᵥ c) ≤ 1 := Real.sqrt_le_one.mpr hc
  have h3 := (h1.trans (mul_le_of_le_one_right (norm_nonneg _) h2)).trans hR
  rw [← sum_sq_dot] at h3
  exact h3

end Rounded

/-- C127: without rounding the definition is that of C35. -/
theorem C127_exact (lib : Model.Subspaces.Lib) (df : Arr) (weights : NpMat) :
    Model.Rounded.active_subspace id (fun _ _ _ A B => A * B) lib df weights = active_subspace lib df weights := rfl

/-- C127: the computed eigenvalues are within `δ` of those of the exact average of outer products, where `δ` is the trace of that
matrix times `γ + ε (1 + γ)`; `γ`, about `M` times the unit roundoff, is due to the products and sums, whatever their order, and `ε` is
the accuracy of `eigh`. -/
theorem C127_eigenvalues (hr : Rounding rd) {d : Model.Rounded.Dot} (hd : ∀ p n q A B, FloatDot rd A B (d p n q A B))
    {lib lib' : Model.Subspaces.Lib} (ha : ∀ (n : ℕ) (v : Fin n → ℝ), IsArgsort v (lib.argsort n v)) {ε : ℝ}
    (he : ∀ A : Matrix (Fin m) (Fin m) ℝ, StableEigh ε A (lib.eigh m A).1 (lib.eigh m A).2) (hε : 0 ≤ ε) (hl' : SubLibOK lib') (hm : 0 < m)
    (G : Matrix (Fin M) (Fin m) ℝ) (w : Fin M → ℝ) (hw : ∀ k, 0 ≤ w k) {γ δ : ℝ} (hγ : γ = (1 + 1 / 2 ^ 53) ^ (M + 1) - 1)
    (hδ : δ = (γ + ε * (1 + γ)) * ∑ k, w k * ∑ i, G k i ^ 2) :
    ∃ e W e' V, Model.Rounded.active_subspace rd d lib (.mat (.of G)) (wcol w) = .ok ⟨m, e, W⟩ ∧
      active_subspace lib' (.mat (.of G)) (wcol w) = .ok ⟨m, e', V⟩ ∧ Antitone e ∧ (∀ j, 0 ≤ e j) ∧ ∀ j, |e j - e' j| ≤ δ := by
  obtain ⟨B, f, e, W, W', h1, h2, -, h4, h5, -, h7⟩ := Rounded.subspace_core hr hd ha he hε hm G w hw hγ hδ
  obtain ⟨e', V, h, hs⟩ := C34_posSemidef lib' hl' hm _ (gradOuter_posSemidef G w hw)
  exact ⟨e, W, e', V, h1, by rw [active_subspace_eq, h], h5, fun j => by rw [h4]; exact abs_nonneg _, (Rounded.abs_eig_close h2 hs h4 h5 h7).1⟩

/-- C127: the computed eigenvectors are orthonormal up to `ε (2 + ε)`. -/
theorem C127_orthonormal (hr : Rounding rd) {d : Model.Rounded.Dot} (hd : ∀ p n q A B, FloatDot rd A B (d p n q A B))
    {lib : Model.Subspaces.Lib} (ha : ∀ (n : ℕ) (v : Fin n → ℝ), IsArgsort v (lib.argsort n v)) {ε : ℝ}
    (he : ∀ A : Matrix (Fin m) (Fin m) ℝ, StableEigh ε A (lib.eigh m A).1 (lib.eigh m A).2) (hε : 0 ≤ ε) (hm : 0 < m)
    (G : Matrix (Fin M) (Fin m) ℝ) (w : Fin M → ℝ) (hw : ∀ k, 0 ≤ w k) :
    ∃ e W, Model.Rounded.active_subspace rd d lib (.mat (.of G)) (wcol w) = .ok ⟨m, e, W⟩ ∧
      ∀ i j, |∑ k, W k i * W k j - if i = j then 1 else 0| ≤ ε * (2 + ε) := by
  obtain ⟨B, f, e, W, W', h1, h2, -, -, -, h6, -⟩ := Rounded.subspace_core hr hd ha he hε hm G w hw rfl rfl
  refine ⟨e, W, h1, fun i j => ?_⟩
  have e1 : W.transpose * W - 1 = (W - W').transpose * (W - W') + ((W - W').transpose * W' + W'.transpose * (W - W')) := by
    rw [transpose_sub, Matrix.sub_mul, Matrix.sub_mul, Matrix.mul_sub, Matrix.mul_sub, h2.orth]
    abel
  have hW' : ‖W'‖ ≤ 1 := opNorm_orth h2.orth
  have h0 := norm_nonneg (W - W')
  have h3 : ‖W.transpose * W - 1‖ ≤ ε * (2 + ε) := by
    rw [e1]
    have a1 := l2_opNorm_mul (W - W').transpose (W - W')
    have a2 := l2_opNorm_mul (W - W').transpose W'
    have a3 := l2_opNorm_mul W'.transpose (W - W')
    rw [opNorm_transpose] at a1 a2 a3
    have a4 := norm_add_le ((W - W').transpose * (W - W')) ((W - W').transpose * W' + W'.transpose * (W - W'))
    have a5 := norm_add_le ((W - W').transpose * W') (W'.transpose * (W - W'))
    have a6 : ‖W - W'‖ * ‖W - W'‖ ≤ ε * ε := mul_le_mul h6 h6 h0 hε
    have a7 : ‖W - W'‖ * ‖W'‖ ≤ ε * 1 := mul_le_mul h6 hW' (norm_nonneg _) hε
    nlinarith
  have h4 := Rounded.norm_apply h3 (c := Pi.single j 1) (by
    rw [Finset.sum_eq_single j (fun k _ hk => by rw [Pi.single_eq_of_ne hk]; norm_num) (fun h => absurd (Finset.mem_univ _) h), Pi.single_eq_same]
    norm_num)
  have h5 : ∀ k, ∑ l, (W.transpose * W - 1) k l * (Pi.single j (1 : ℝ) : Fin m → ℝ) l = (W.transpose * W - 1) k j := fun k => by
    rw [Finset.sum_eq_single j (fun l _ hl => by rw [Pi.single_eq_of_ne hl, mul_zero]) (fun h => absurd (Finset.mem_univ _) h), Pi.single_eq_same, mul_one]
  simp only [h5] at h4
  have h7 : ((W.transpose * W - 1) i j) ^ 2 ≤ ∑ k, ((W.transpose * W - 1) k j) ^ 2 :=
    Finset.single_le_sum (f := fun k => ((W.transpose * W - 1) k j) ^ 2) (fun k _ => sq_nonneg _) (Finset.mem_univ i)
  have h8 := (Real.abs_le_sqrt h7).trans h4
  rw [Matrix.sub_apply, mul_apply, one_apply] at h8
  exact h8

/-- C127: if the gap of the exact eigenvalues after `n` is larger than `2 δ`, then a combination of the first `n` computed
eigenvectors, the active variables' directions, with coefficients of length at most one has a projection of length at most
`δ / (gap - δ) + ε` on the exact inactive subspace, and a combination of the other ones such a projection on the exact active
subspace. -/
theorem C127_subspace (hr : Rounding rd) {d : Model.Rounded.Dot} (hd : ∀ p n q A B, FloatDot rd A B (d p n q A B))
    {lib lib' : Model.Subspaces.Lib} (ha : ∀ (n : ℕ) (v : Fin n → ℝ), IsArgsort v (lib.argsort n v)) {ε : ℝ}
    (he : ∀ A : Matrix (Fin m) (Fin m) ℝ, StableEigh ε A (lib.eigh m A).1 (lib.eigh m A).2) (hε : 0 ≤ ε) (hl' : SubLibOK lib')
    (n : ℕ) (hn : 1 ≤ n) (hnm : n < m)
    (G : Matrix (Fin M) (Fin m) ℝ) (w : Fin M → ℝ) (hw : ∀ k, 0 ≤ w k) {γ δ : ℝ} (hγ : γ = (1 + 1 / 2 ^ 53) ^ (M + 1) - 1)
    (hδ : δ = (γ + ε * (1 + γ)) * ∑ k, w k * ∑ i, G k i ^ 2) :
    ∃ e W e' V, Model.Rounded.active_subspace rd d lib (.mat (.of G)) (wcol w) = .ok ⟨m, e, W⟩ ∧
      active_subspace lib' (.mat (.of G)) (wcol w) = .ok ⟨m, e', V⟩ ∧
      (2 * δ < e' ⟨n - 1, by omega⟩ - e' ⟨n, hnm⟩ →
        (∀ c : Fin n → ℝ, ∑ i, c i ^ 2 ≤ 1 →
          Real.sqrt (∑ j : Fin (m - n), (∑ r, V r ⟨n + j, by omega⟩ * ∑ i, W r (Fin.castLE hnm.le i) * c i) ^ 2)
            ≤ δ / (e' ⟨n - 1, by omega⟩ - e' ⟨n, hnm⟩ - δ) + ε) ∧
        ∀ c : Fin (m - n) → ℝ, ∑ i, c i ^ 2 ≤ 1 →
          Real.sqrt (∑ j : Fin n, (∑ r, V r (Fin.castLE hnm.le j) * ∑ i : Fin (m - n), W r ⟨n + i, by omega⟩ * c i) ^ 2)
            ≤ δ / (e' ⟨n - 1, by omega⟩ - e' ⟨n, hnm⟩ - δ) + ε) := by
  have hm : 0 < m := by omega
  obtain ⟨B, f, e, W, W', h1, h2, hB, h4, h5, h6, h7⟩ := Rounded.subspace_core hr hd ha he hε hm G w hw hγ hδ
  obtain ⟨e', V, h, hs⟩ := C34_posSemidef lib' hl' hm _ (gradOuter_posSemidef G w hw)
  refine ⟨e, W, e', V, h1, by rw [active_subspace_eq, h], fun hgap => ?_⟩
  have hδ0 : 0 ≤ δ := (norm_nonneg _).trans h7
  obtain ⟨hclose, hneg⟩ := Rounded.abs_eig_close h2 hs h4 h5 h7
  set g := e' ⟨n - 1, by omega⟩ - e' ⟨n, hnm⟩ with hg
  have hgd : 0 < g - δ := by linarith
  have hen := hs.nonneg ⟨n, hnm⟩
  -- the first columns of the computed vectors against the last exact ones
  have hfirst : ∀ i : Fin n, e' ⟨n - 1, by omega⟩ - δ ≤ f (Fin.castLE hnm.le i) := by
    intro i
    have a1 : e ⟨n - 1, by omega⟩ ≤ e (Fin.castLE hnm.le i) := h5 (Fin.le_def.mpr (by simp; omega))
    have a2 := neg_le_of_abs_le (hclose ⟨n - 1, by omega⟩)
    rw [h4 (Fin.castLE hnm.le i)] at a1
    have a3 := hneg (Fin.castLE hnm.le i)
    rcases abs_cases (f (Fin.castLE hnm.le i)) with ⟨a4, -⟩ | ⟨a4, -⟩ <;> rw [a4] at a1 <;> linarith
  have d1 := davis_kahan (a := e' ⟨n - 1, by omega⟩ - δ) (b := e' ⟨n, hnm⟩) hB (Rounded.firstCols_eigh h2 n hnm.le)
    (Rounded.lastCols_eigh hs.isEigh n) (firstCols_orth' h2.orth n hnm.le) (lastCols_orth hs.isEigh.orth n) hfirst
    (fun i => by
      rw [abs_of_nonneg (hs.nonneg _)]
      exact hs.anti (Fin.le_def.mpr (by simp))) hen (by linarith) h7
  have d2 := davis_kahan (a := e' ⟨n - 1, by omega⟩) (b := e' ⟨n, hnm⟩ + δ) (Proofs.Bootstrap.gradOuter_symm G w)
    (Rounded.firstCols_eigh hs.isEigh n hnm.le)
    (Rounded.lastCols_eigh h2 n) (firstCols_orth' hs.isEigh.orth n hnm.le) (lastCols_orth h2.orth n)
    (fun i => hs.anti (Fin.le_def.mpr (by simp; omega)))
    (fun i => by
      rw [← h4]
      have b1 := le_of_abs_le (hclose ⟨n, hnm⟩)
      have b2 : e ⟨n + i, by omega⟩ ≤ e ⟨n, hnm⟩ := h5 (Fin.le_def.mpr (by simp))
      linarith) (by linarith) (by linarith) (δ := δ) ((norm_sub_rev _ _).trans_le h7)
  have d1' : ‖(Np.lastCols V n).transpose * Np.firstCols W' n hnm.le‖ ≤ δ / (g - δ) := by
    rw [le_div_iff₀ hgd, ← opNorm_transpose, transpose_mul, transpose_transpose, mul_comm]
    refine le_of_eq_of_le ?_ d1
    congr 1
    rw [hg]; ring
  have d2' : ‖(Np.firstCols V n hnm.le).transpose * Np.lastCols W' n‖ ≤ δ / (g - δ) := by
    rw [le_div_iff₀ hgd, mul_comm]
    refine le_of_eq_of_le ?_ d2
    congr 1
    rw [hg]; ring
  have key : ∀ {p q : ℕ} (K : Matrix (Fin m) (Fin p) ℝ) (S : Fin q → Fin m), K.transpose * K = 1 → Function.Injective S →
      ‖K.transpose * W'.submatrix id S‖ ≤ δ / (g - δ) → ‖K.transpose * W.submatrix id S‖ ≤ δ / (g - δ) + ε := by
    intro p q K S hK hS hn'
    have e1 : K.transpose * W.submatrix id S = K.transpose * W'.submatrix id S + K.transpose * (W - W').submatrix id S := by
      rw [← Matrix.mul_add]
      congr 1
      ext i j
      simp
    rw [e1]
    refine (norm_add_le _ _).trans (add_le_add hn' ?_)
    refine (l2_opNorm_mul _ _).trans ?_
    rw [opNorm_transpose]
    exact (mul_le_of_le_one_left (norm_nonneg _) (opNorm_orth hK)).trans ((Rounded.cols_norm _ S hS).trans h6)
  have expand : ∀ {p q : ℕ} (K : Matrix (Fin m) (Fin p) ℝ) (S : Fin q → Fin m) (c : Fin q → ℝ) (j : Fin p),
      ∑ r, K r j * ∑ i, W r (S i) * c i = ∑ i, (K.transpose * W.submatrix id S) j i * c i := by
    intro p q K S c j
    simp only [mul_apply, transpose_apply, submatrix_apply, id, Finset.mul_sum, Finset.sum_mul]
    rw [Finset.sum_comm]
    exact Finset.sum_congr rfl fun i _ => Finset.sum_congr rfl fun r _ => by ring
  constructor
  · intro c hc
    have k1 := Rounded.norm_apply (key (Np.lastCols V n) (Fin.castLE hnm.le) (lastCols_orth hs.isEigh.orth n)
      (Fin.castLE_injective hnm.le) d1') hc
    simp only [← expand] at k1
    exact k1
  · intro c hc
    have k1 := Rounded.norm_apply (key (Np.firstCols V n hnm.le) (fun i : Fin (m - n) => (⟨n + i, by omega⟩ : Fin m)) (firstCols_orth' hs.isEigh.orth n hnm.le)
      (fun i j hij => by
        have := congrArg Fin.val hij
        simp only at this
        exact Fin.ext (by omega)) d2') hc
    simp only [← expand] at k1
    exact k1

/-! ## The hypotheses are met -/

/-- Floating-point products exist for every rounding, as do an exact `eigh` of the lower triangle, which is stable for every `ε ≥ 0`,
and a sorting `argsort`. -/
theorem Rounded.contracts_exist : ∃ (rd : ℝ → ℝ) (d : Model.Rounded.Dot) (lib : Model.Subspaces.Lib), Rounding rd ∧
    (∀ p n q A B, FloatDot rd A B (d p n q A B)) ∧ (∀ (n : ℕ) (v : Fin n → ℝ), IsArgsort v (lib.argsort n v)) ∧
    ∀ (n : ℕ) (ε : ℝ), 0 ≤ ε → ∀ A : Matrix (Fin n) (Fin n) ℝ, StableEigh ε A (lib.eigh n A).1 (lib.eigh n A).2 := by
  obtain ⟨rd, hr⟩ := Proofs.Rounding.exists_rounding
  obtain ⟨lib, hl⟩ := subLibOK_exists
  refine ⟨rd, fun p n q A B => Matrix.of fun i j => (Proofs.FloatSum.exists_floatSum rd (List.ofFn fun k => (A i k, B k j))).choose,
    { lib with eigh := fun n A => lib.eigh n (lower A) }, hr, fun p n q A B i j => ?_, hl.argsort, fun n ε hε A => ?_⟩
  · exact (Proofs.FloatSum.exists_floatSum rd (List.ofFn fun k => (A i k, B k j))).choose_spec
  · refine ⟨0, (lib.eigh n (lower A)).2, transpose_zero, by rw [norm_zero]; exact mul_nonneg hε (norm_nonneg _), ?_, by rw [sub_self, norm_zero]; exact hε⟩
    rw [add_zero]
    exact hl.eigh n _ (Rounded.lower_symm A)

/-- Two gradients with equal weights: with `eigh` accurate to `1/2^40` the eigenvalues, exactly 2 and 1/2, are computed to ten
digits. -/
example (hr : Rounding rd) {d : Model.Rounded.Dot} (hd : ∀ p n q A B, FloatDot rd A B (d p n q A B))
    {lib lib' : Model.Subspaces.Lib} (ha : ∀ (n : ℕ) (v : Fin n → ℝ), IsArgsort v (lib.argsort n v))
    (he : ∀ A : Matrix (Fin 2) (Fin 2) ℝ, StableEigh (1 / 2 ^ 40) A (lib.eigh 2 A).1 (lib.eigh 2 A).2) (hl' : SubLibOK lib') :
    ∃ e W, Model.Rounded.active_subspace rd d lib (.mat (.of (!![2, 0; 0, 1] : Matrix (Fin 2) (Fin 2) ℝ))) (wcol fun _ : Fin 2 => 1 / 2) = .ok ⟨2, e, W⟩ ∧
      |e 0 - 2| ≤ 1 / 10 ^ 10 ∧ |e 1 - 1 / 2| ≤ 1 / 10 ^ 10 := by
  obtain ⟨e, W, e', V, h1, h2, -, -, h3⟩ := C127_eigenvalues hr hd ha he (by norm_num) hl' (by norm_num : 0 < 2)
    (!![2, 0; 0, 1] : Matrix (Fin 2) (Fin 2) ℝ) (fun _ => 1 / 2) (fun _ => by norm_num) rfl rfl
  obtain ⟨e2, V2, h4, hs⟩ := C34_posSemidef lib' hl' (by norm_num : 0 < 2) _
    (gradOuter_posSemidef (!![2, 0; 0, 1] : Matrix (Fin 2) (Fin 2) ℝ) (fun _ => 1 / 2) fun _ => by norm_num)
  rw [active_subspace_eq, h4] at h2
  obtain ⟨rfl, rfl⟩ : e2 = e' ∧ V2 = V := by
    have := Except.ok.inj h2
    injection this with _ a b
    exact ⟨a, b⟩
  have h5 : IsSortedEigh (gradOuter (!![2, 0; 0, 1] : Matrix (Fin 2) (Fin 2) ℝ) fun _ => 1 / 2) ![2, 1 / 2] 1 := by
    refine ⟨?_, ?_, ?_, ?_, ?_⟩
    · intro j
      ext i
      fin_cases i <;> fin_cases j <;> simp [gradOuter, Matrix.mulVec, dotProduct, Fin.sum_univ_two, Matrix.one_apply] <;> norm_num
    · intro j k
      fin_cases j <;> fin_cases k <;> simp [Fin.sum_univ_two, Matrix.one_apply]
    · intro j; fin_cases j <;> simp
    · intro i j hij
      fin_cases i <;> fin_cases j <;> simp_all <;> norm_num
    · intro i j _
      fin_cases i <;> fin_cases j <;> simp [Matrix.one_apply]
  obtain rfl := (C34_unique hs h5).1
  have hb : ((1 + 1 / 2 ^ 53) ^ (2 + 1) - 1 + 1 / 2 ^ 40 * (1 + ((1 + 1 / 2 ^ 53) ^ (2 + 1) - 1)) : ℝ) *
      ∑ k : Fin 2, (1 / 2 : ℝ) * ∑ i : Fin 2, (!![2, 0; 0, 1] : Matrix (Fin 2) (Fin 2) ℝ) k i ^ 2 ≤ 1 / 10 ^ 10 := by
    simp [Fin.sum_univ_two]
    norm_num
  exact ⟨e, W, h1, (h3 0).trans hb, (h3 1).trans hb⟩

end Props
