import Verif.Proofs.Eigh
import Verif.Proofs.KyFan
import Verif.Props.PolyApprox

/-!
# Properties C34, C35: `sorted_eigh` and `active_subspace`
-/

open Py Model.Subspaces Spec Matrix Proofs.Eigh

namespace Props

variable {M m n : ℕ}

/-- Contracts of the library: `eigh` decomposes symmetric matrices, `argsort` sorts, `lstsq` solves least squares. -/
structure SubLibOK (lib : Model.Subspaces.Lib) : Prop where
  eigh : ∀ (n : ℕ) (C : Matrix (Fin n) (Fin n) ℝ), C.transpose = C → IsEigh C (lib.eigh n C).1 (lib.eigh n C).2
  argsort : ∀ (n : ℕ) (v : Fin n → ℝ), IsArgsort v (lib.argsort n v)
  lstsq : LstsqOK lib.surf

/-- The contracts can be met. -/
theorem subLibOK_exists : ∃ lib : Model.Subspaces.Lib, SubLibOK lib := by
  classical
  obtain ⟨surf, hs⟩ := lstsqOK_exists
  refine ⟨{ eigh := fun _ C => if h : C.transpose = C then ((exists_isEigh h).choose, (exists_isEigh h).choose_spec.choose)
                       else (fun _ => 0, 0)
            argsort := fun _ v => Tuple.sort v
            surf := surf }, ?_, ?_, hs⟩
  · intro n C h
    simp only [dif_pos h]
    exact (exists_isEigh h).choose_spec.choose_spec
  · intro n v
    exact ⟨(Tuple.sort v).bijective, Tuple.monotone_sort v⟩

/-! ## C34 -/

/-- C34: for every symmetric matrix the result has non-negative eigenvalues in descending order, orthonormal columns, first
components non-negative, and every column is an eigenvector for its eigenvalue or its negative; the numbers are the absolute
values of the eigenvalues, with multiplicity. -/
theorem C34_sorted (lib : Model.Subspaces.Lib) (hl : SubLibOK lib) (hm : 0 < m) (C : Matrix (Fin m) (Fin m) ℝ)
    (hC : C.transpose = C) :
    ∃ (e : Fin m → ℝ) (W : Matrix (Fin m) (Fin m) ℝ), sorted_eigh lib (NpMat.of C) = .ok ⟨m, e, W⟩ ∧
      (∀ j, 0 ≤ e j) ∧ Antitone e ∧ (∀ j k, ∑ i, W i j * W i k = if j = k then 1 else 0) ∧
      (∀ j, C.mulVec (fun i => W i j) = e j • (fun i => W i j) ∨ C.mulVec (fun i => W i j) = -e j • (fun i => W i j)) ∧
      (∀ i j : Fin m, (i : ℕ) = 0 → 0 ≤ W i j) ∧
      (Finset.univ : Finset (Fin m)).val.map e = C.charpoly.roots.map fun x => |x| := by
  obtain ⟨e, W, σ, h, he, ha, ho, hv, hf⟩ := sortedEighMat_spec lib hm C (hl.eigh m C hC) (hl.argsort m _)
  refine ⟨e, W, ?_, fun j => he j ▸ abs_nonneg _, ha, ho, ?_, hf, ?_⟩
  · rw [sorted_eigh_of lib hm, h]
  · intro j
    rw [hv j, he j]
    rcases abs_choice ((lib.eigh m C).1 (σ j)) with h | h
    · left; rw [h]
    · right; rw [h, neg_neg]
  · rw [roots_of_eigh (hl.eigh m C hC), Multiset.map_map]
    have h1 : e = ((fun x : ℝ => |x|) ∘ (lib.eigh m C).1) ∘ σ := funext he
    rw [h1, ← Multiset.map_map]
    congr 1
    have := congrArg Finset.val (Finset.map_univ_equiv σ)
    rw [Finset.map_val] at this
    exact this

/-- C34 for positive semidefinite matrices. -/
theorem C34_posSemidef (lib : Model.Subspaces.Lib) (hl : SubLibOK lib) (hm : 0 < m) (C : Matrix (Fin m) (Fin m) ℝ)
    (hC : C.PosSemidef) :
    ∃ (e : Fin m → ℝ) (W : Matrix (Fin m) (Fin m) ℝ), sorted_eigh lib (NpMat.of C) = .ok ⟨m, e, W⟩ ∧ IsSortedEigh C e W := by
  have hs : C.transpose = C := by
    have := hC.isHermitian
    rwa [Matrix.IsHermitian, Matrix.conjTranspose_eq_transpose_of_trivial] at this
  obtain ⟨e, W, h, h0, ha, ho, hv, hf, -⟩ := C34_sorted lib hl hm C hs
  refine ⟨e, W, h, ⟨fun j => ?_, ho, h0, ha, hf⟩⟩
  rcases hv j with h1 | h1
  · exact h1
  · have h2 := hC.dotProduct_mulVec_nonneg fun i => W i j
    rw [h1, star_trivial, dotProduct_smul] at h2
    have h3 : (fun i => W i j) ⬝ᵥ (fun i => W i j) = 1 := (ho j j).trans (if_pos rfl)
    rw [h3, smul_eq_mul, mul_one] at h2
    have h4 : e j = 0 := le_antisymm (by linarith) (h0 j)
    rw [h1, h4, neg_zero]

theorem _root_.Spec.IsSortedEigh.isEigh {A : Matrix (Fin n) (Fin n) ℝ} {e : Fin n → ℝ} {W : Matrix (Fin n) (Fin n) ℝ}
    (h : IsSortedEigh A e W) : IsEigh A e W := by
  refine ⟨?_, orth_of_entry h.orth⟩
  ext i j
  rw [Matrix.mul_diagonal, Matrix.mul_apply]
  have := congrFun (h.vec j) i
  rw [Pi.smul_apply, smul_eq_mul, mul_comm] at this
  exact this

/-- C34: the eigenvalues do not depend on LAPACK's choices (nor, for simple eigenvalues with non-zero first component, do the
eigenvectors). -/
theorem C34_unique {A : Matrix (Fin n) (Fin n) ℝ} {e e' : Fin n → ℝ} {W W' : Matrix (Fin n) (Fin n) ℝ}
    (h : IsSortedEigh A e W) (h' : IsSortedEigh A e' W') :
    e = e' ∧ ∀ j, (∀ k, e k = e j → k = j) → (∃ i : Fin n, (i : ℕ) = 0 ∧ W i j ≠ 0) → ∀ i, W i j = W' i j := by
  have hee : e = e' := antitone_unique h.anti h'.anti ((roots_of_eigh h.isEigh).symm.trans (roots_of_eigh h'.isEigh))
  refine ⟨hee, ?_⟩
  subst hee
  intro j hj ⟨i0, hi0, hne⟩
  -- `W'_j` is a multiple of `W_j`
  have hsym : A.transpose = A := by
    have hE := h.isEigh
    have hV : W * W.transpose = 1 := mul_eq_one_comm.mp hE.orth
    have hA : A = W * Matrix.diagonal e * W.transpose := by rw [← hE.vecs, Matrix.mul_assoc, hV, Matrix.mul_one]
    rw [hA]
    simp [Matrix.transpose_mul, Matrix.mul_assoc]
  set c := fun k => ∑ i, W i k * W' i j with hc
  have hck : ∀ k, k ≠ j → c k = 0 := by
    intro k hk
    have h1 : (fun i => W i k) ⬝ᵥ A.mulVec (fun i => W' i j) = e j * c k := by
      rw [h'.vec j, dotProduct_smul]
      rfl
    have h2 : (fun i => W i k) ⬝ᵥ A.mulVec (fun i => W' i j) = e k * c k := by
      rw [Matrix.dotProduct_mulVec, ← Matrix.mulVec_transpose, hsym, h.vec k, smul_dotProduct]
      rfl
    have h3 : (e k - e j) * c k = 0 := by linear_combination h1 - h2
    exact (mul_eq_zero.mp h3).resolve_left (sub_ne_zero.mpr fun h => hk (hj k h))
  have hWW : W * W.transpose = 1 := mul_eq_one_comm.mp (orth_of_entry h.orth)
  have hexp : ∀ i, W' i j = c j * W i j := by
    intro i
    have h1 : (W * W.transpose).mulVec (fun i => W' i j) i = W' i j := by rw [hWW, Matrix.one_mulVec]
    rw [← Matrix.mulVec_mulVec] at h1
    rw [← h1]
    change ∑ k, W i k * c k = c j * W i j
    rw [Finset.sum_eq_single j (fun k _ hk => by rw [hck k hk, mul_zero]) (fun h => absurd (Finset.mem_univ j) h), mul_comm]
  have hsq : c j ^ 2 = 1 := by
    have h1 := h'.orth j j
    rw [if_pos rfl] at h1
    have h2 := h.orth j j
    rw [if_pos rfl] at h2
    calc c j ^ 2 = c j ^ 2 * ∑ i, W i j * W i j := by rw [h2, mul_one]
      _ = ∑ i, W' i j * W' i j := by
          rw [Finset.mul_sum]
          exact Finset.sum_congr rfl fun i _ => by rw [hexp i]; ring
      _ = 1 := h1
  have hpos : 0 ≤ c j := by
    by_contra hneg
    push Not at hneg
    have h1 := h.first i0 j hi0
    have h2 := h'.first i0 j hi0
    rw [hexp i0] at h2
    have : 0 < W i0 j := lt_of_le_of_ne h1 (Ne.symm hne)
    nlinarith
  have hone : c j = 1 := by nlinarith [hsq]
  intro i
  rw [hexp i, hone, one_mul]

/-- C34: other arguments. -/
theorem C34_errors (lib : Model.Subspaces.Lib) (r c : ℕ) (C : Matrix (Fin r) (Fin c) ℝ) :
    (c ≠ r → sorted_eigh lib (NpMat.of C) = .error .linAlgError) ∧
    (r = 0 → c = 0 → sorted_eigh lib (NpMat.of C) = .error .indexError) := by
  refine ⟨fun h => ?_, fun h1 h2 => ?_⟩
  · unfold sorted_eigh
    rw [dif_neg (show ¬ (NpMat.of C).cols = (NpMat.of C).rows from h)]
  · subst h1 h2
    unfold sorted_eigh
    rw [dif_pos (show (NpMat.of C).cols = (NpMat.of C).rows from rfl), dif_neg (show ¬ 0 < (NpMat.of C).rows from lt_irrefl 0)]

/-! ## C35 -/

/-- A column of weights. -/
def wcol (w : Fin M → ℝ) : NpMat := NpMat.of (Matrix.of fun i (_ : Fin 1) => w i)

/-- The weighted average of the outer products of the gradients. -/
def gradOuter (G : Matrix (Fin M) (Fin m) ℝ) (w : Fin M → ℝ) : Matrix (Fin m) (Fin m) ℝ :=
  Matrix.of fun k l => ∑ i, w i * (G i k * G i l)

theorem bget_wcol (w : Fin M → ℝ) (i : Fin M) (j : ℕ) : (wcol w).bget i j = w i := by
  have hi : (if M = 1 then 0 else (i : ℕ)) = i := by
    split_ifs with h
    · subst h; omega
    · rfl
  change (wcol w).get (if M = 1 then 0 else (i : ℕ)) 0 = w i
  rw [hi]
  exact NpMat.get_of (Matrix.of fun i (_ : Fin 1) => w i) i 0

theorem zipB_wcol (op : ℝ → ℝ → ℝ) (G : Matrix (Fin M) (Fin m) ℝ) (w : Fin M → ℝ) :
    NpMat.zipB op (NpMat.of G) (wcol w) = .ok (NpMat.of (Matrix.of fun i j => op (G i j) (w i))) := by
  have h1 : NpMat.bdim m 1 = some m := NpMat.bdim_one_right m
  simp only [NpMat.zipB, wcol, NpMat.of_rows, NpMat.of_cols, NpMat.bdim_self, h1]
  congr 1
  change NpMat.mk M m _ = NpMat.mk M m _
  congr 1
  ext i j
  rw [Matrix.of_apply, Matrix.of_apply, NpMat.bget_of]
  congr 1
  exact bget_wcol w i j

theorem dot_of {a b c : ℕ} (A : Matrix (Fin a) (Fin b) ℝ) (B : Matrix (Fin b) (Fin c) ℝ) :
    NpMat.dot (NpMat.of A) (NpMat.of B) = .ok (NpMat.of (A * B)) := dif_pos rfl

theorem active_subspace_eq (lib : Model.Subspaces.Lib) (G : Matrix (Fin M) (Fin m) ℝ) (w : Fin M → ℝ) :
    active_subspace lib (.mat (NpMat.of G)) (wcol w) = sorted_eigh lib (NpMat.of (gradOuter G w)) := by
  unfold active_subspace
  change (do
    let dfw ← NpMat.zipB (· * ·) (NpMat.of G) (wcol w)
    let C ← NpMat.dot (NpMat.of G).transpose dfw
    sorted_eigh lib C) = _
  rw [zipB_wcol]
  change (do
    let C ← NpMat.dot (NpMat.of G.transpose) (NpMat.of (Matrix.of fun i j => G i j * w i))
    sorted_eigh lib C) = _
  rw [dot_of]
  change sorted_eigh lib _ = _
  congr 2
  ext k l
  rw [Matrix.mul_apply, gradOuter, Matrix.of_apply]
  exact Finset.sum_congr rfl fun i _ => by rw [Matrix.transpose_apply, Matrix.of_apply]; ring

theorem gradOuter_form (G : Matrix (Fin M) (Fin m) ℝ) (w : Fin M → ℝ) (x y : Fin m → ℝ) :
    x ⬝ᵥ (gradOuter G w).mulVec y = ∑ i, w i * ((∑ k, G i k * x k) * ∑ k, G i k * y k) := by
  have h1 : ∀ k, x k * (gradOuter G w).mulVec y k = ∑ i, w i * (G i k * x k) * ∑ l, G i l * y l := by
    intro k
    simp only [Matrix.mulVec, dotProduct, gradOuter, Matrix.of_apply, Finset.sum_mul, Finset.mul_sum]
    rw [Finset.sum_comm]
    exact Finset.sum_congr rfl fun i _ => Finset.sum_congr rfl fun l _ => by ring
  rw [dotProduct, Finset.sum_congr rfl fun k _ => h1 k, Finset.sum_comm]
  refine Finset.sum_congr rfl fun i _ => ?_
  rw [← Finset.sum_mul, ← Finset.mul_sum, mul_assoc]

theorem gradOuter_posSemidef (G : Matrix (Fin M) (Fin m) ℝ) (w : Fin M → ℝ) (hw : ∀ i, 0 ≤ w i) :
    (gradOuter G w).PosSemidef := by
  refine Matrix.PosSemidef.of_dotProduct_mulVec_nonneg ?_ fun x => ?_
  · rw [Matrix.IsHermitian, Matrix.conjTranspose_eq_transpose_of_trivial]
    ext k l
    rw [Matrix.transpose_apply, gradOuter, Matrix.of_apply, Matrix.of_apply]
    exact Finset.sum_congr rfl fun i _ => by ring
  · rw [star_trivial, gradOuter_form]
    exact Finset.sum_nonneg fun i _ => mul_nonneg (hw i) (mul_self_nonneg _)

/-- C35: the decomposition of the average outer product of the gradients.  Every eigenvalue is the mean squared derivative in
its direction, the eigenvalues sum to the mean squared gradient length, and no `n` orthonormal directions capture more than
the first `n` columns. -/
theorem C35_active_subspace (lib : Model.Subspaces.Lib) (hl : SubLibOK lib) (hm : 0 < m) (G : Matrix (Fin M) (Fin m) ℝ)
    (w : Fin M → ℝ) (hw : ∀ i, 0 ≤ w i) :
    ∃ (e : Fin m → ℝ) (W : Matrix (Fin m) (Fin m) ℝ),
      active_subspace lib (.mat (NpMat.of G)) (wcol w) = .ok ⟨m, e, W⟩ ∧ IsSortedEigh (gradOuter G w) e W ∧
      (∀ j, e j = ∑ i, w i * (∑ k, G i k * W k j) ^ 2) ∧ (∑ j, e j = ∑ i, w i * ∑ k, G i k ^ 2) ∧
      ∀ n ≤ m, ∀ V : Matrix (Fin m) (Fin n) ℝ, (∀ a b, ∑ k, V k a * V k b = if a = b then 1 else 0) →
        ∑ a, ∑ i, w i * (∑ k, G i k * V k a) ^ 2 ≤ ∑ j : Fin m, if (j : ℕ) < n then e j else 0 := by
  obtain ⟨e, W, h, hs⟩ := C34_posSemidef lib hl hm _ (gradOuter_posSemidef G w hw)
  have hej : ∀ j, e j = ∑ i, w i * (∑ k, G i k * W k j) ^ 2 := by
    intro j
    have h1 : (fun i => W i j) ⬝ᵥ (gradOuter G w).mulVec (fun i => W i j) = e j := by
      rw [hs.vec j, dotProduct_smul]
      have := hs.orth j j
      rw [if_pos rfl] at this
      change e j * ∑ i, W i j * W i j = e j
      rw [this, mul_one]
    rw [← h1, gradOuter_form]
    exact Finset.sum_congr rfl fun i _ => by rw [sq]
  refine ⟨e, W, by rw [active_subspace_eq, h], hs, hej, ?_, ?_⟩
  · rw [Finset.sum_congr rfl fun j _ => hej j, Finset.sum_comm]
    refine Finset.sum_congr rfl fun i _ => ?_
    rw [← Finset.mul_sum]
    congr 1
    have := Proofs.KyFan.parseval (orth_of_entry hs.orth) (G i)
    rw [dotProduct, dotProduct] at this
    rw [Finset.sum_congr rfl fun k _ => sq (G i k), ← this]
    refine Finset.sum_congr rfl fun j _ => ?_
    have : W.transpose.mulVec (G i) j = ∑ k, G i k * W k j := by
      rw [Matrix.mulVec, dotProduct]
      exact Finset.sum_congr rfl fun k _ => by rw [Matrix.transpose_apply, mul_comm]
    rw [this, sq]
  · intro n hn V hV
    have hV' : V.transpose * V = 1 := by
      ext a b
      rw [Matrix.mul_apply, Matrix.one_apply]
      exact hV a b
    refine le_trans (le_of_eq ?_) (Proofs.KyFan.capture_le hs.isEigh.vecs hs.isEigh.orth hs.anti hn hV')
    rw [Matrix.trace]
    refine Finset.sum_congr rfl fun a _ => ?_
    have h1 : (V.transpose * gradOuter G w * V).diag a = (fun k => V k a) ⬝ᵥ (gradOuter G w).mulVec (fun k => V k a) := by
      rw [Matrix.diag_apply, Matrix.mul_assoc, Matrix.mul_apply]
      rfl
    rw [h1, gradOuter_form]
    exact Finset.sum_congr rfl fun i _ => by rw [sq]

/-- C35: the order of the samples, and the library, do not matter for the eigenvalues. -/
theorem C35_order (lib lib' : Model.Subspaces.Lib) (hl : SubLibOK lib) (hl' : SubLibOK lib') (hm : 0 < m)
    (G : Matrix (Fin M) (Fin m) ℝ) (w : Fin M → ℝ) (hw : ∀ i, 0 ≤ w i) (σ : Equiv.Perm (Fin M)) :
    ∃ e W W', active_subspace lib (.mat (NpMat.of G)) (wcol w) = .ok ⟨m, e, W⟩ ∧
      active_subspace lib' (.mat (NpMat.of (Matrix.of fun i => G (σ i)))) (wcol fun i => w (σ i)) = .ok ⟨m, e, W'⟩ := by
  have hg : gradOuter (Matrix.of fun i => G (σ i)) (fun i => w (σ i)) = gradOuter G w := by
    ext k l
    exact Equiv.sum_comp σ fun i => w i * (G i k * G i l)
  obtain ⟨e, W, h, hs⟩ := C34_posSemidef lib hl hm _ (gradOuter_posSemidef G w hw)
  obtain ⟨e', W', h', hs'⟩ := C34_posSemidef lib' hl' hm _ (gradOuter_posSemidef G w hw)
  obtain rfl := (C34_unique hs hs').1
  exact ⟨e, W, W', by rw [active_subspace_eq, h], by rw [active_subspace_eq, hg, h']⟩

/-- C35: arrays that are not two-dimensional, and a number of weights that matches neither the samples nor one, raise
`ValueError`. -/
theorem C35_errors (lib : Model.Subspaces.Lib) (weights : NpMat) :
    (∀ df : Arr, df.ndim ≠ 2 → active_subspace lib df weights = .error .valueError) ∧
    (∀ G : Matrix (Fin M) (Fin m) ℝ, weights.rows ≠ M → weights.rows ≠ 1 →
      active_subspace lib (.mat (NpMat.of G)) weights = .error .valueError) := by
  refine ⟨fun df h => ?_, fun G h1 h2 => ?_⟩
  · cases df with
    | mat A => exact absurd rfl h
    | scalar x => rfl
    | vec n x => rfl
    | nd a b c r d => rfl
  · unfold active_subspace
    change (do
      let dfw ← NpMat.zipB (· * ·) (NpMat.of G) weights
      let C ← NpMat.dot (NpMat.of G).transpose dfw
      sorted_eigh lib C) = _
    by_cases hM : M = 1
    · subst hM
      have hb : NpMat.bdim 1 weights.rows = some weights.rows := NpMat.bdim_one_left _
      cases hc : NpMat.bdim m weights.cols with
      | none =>
        have : NpMat.zipB (· * ·) (NpMat.of G) weights = .error .valueError := by
          simp only [NpMat.zipB, NpMat.of_rows, NpMat.of_cols, hb, hc]
        rw [this]
        rfl
      | some c =>
        have : NpMat.zipB (· * ·) (NpMat.of G) weights = .ok ⟨weights.rows, c, Matrix.of fun i j =>
            (NpMat.of G).bget i j * weights.bget i j⟩ := by
          simp only [NpMat.zipB, NpMat.of_rows, NpMat.of_cols, hb, hc]
        rw [this]
        change (do
          let C ← NpMat.dot (NpMat.of G.transpose) ⟨weights.rows, c, _⟩
          sorted_eigh lib C) = _
        have hd : ∀ B : Matrix (Fin weights.rows) (Fin c) ℝ,
            NpMat.dot (NpMat.of G.transpose) ⟨weights.rows, c, B⟩ = .error .valueError := fun B => dif_neg h2
        rw [hd]
        rfl
    · have hb : NpMat.bdim M weights.rows = none := by
        unfold NpMat.bdim
        rw [if_neg (Ne.symm h1), if_neg hM, if_neg h2]
      have : NpMat.zipB (· * ·) (NpMat.of G) weights = .error .valueError := by
        simp only [NpMat.zipB, NpMat.of_rows, NpMat.of_cols, hb]
      rw [this]
      rfl

/-- The hypotheses are met: two gradients in the plane with different weights. -/
example : ∃ lib : Model.Subspaces.Lib, SubLibOK lib ∧ (∀ i, 0 ≤ (![1 / 4, 3 / 4] : Fin 2 → ℝ) i) ∧
    gradOuter !![1, 0; 1, 2] ![1 / 4, 3 / 4] = !![1, 3 / 2; 3 / 2, 3] := by
  obtain ⟨lib, h⟩ := subLibOK_exists
  refine ⟨lib, h, fun i => by fin_cases i <;> norm_num, ?_⟩
  ext k l
  fin_cases k <;> fin_cases l <;> simp [gradOuter, Fin.sum_univ_two] <;> norm_num

end Props
