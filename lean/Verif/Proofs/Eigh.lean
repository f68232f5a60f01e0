import Mathlib.Data.List.Sort
import Mathlib.LinearAlgebra.Matrix.PosDef
import Verif.Model.Subspaces
import Verif.Spec.Eigh
import Verif.Spec.LinAlg
import Verif.Proofs.EigSymm

/-!
# Facts about `sorted_eigh`
-/

open Py Model.Subspaces Spec Matrix

namespace Proofs.Eigh

variable {m n : ℕ}

theorem exists_isEigh {A : Matrix (Fin n) (Fin n) ℝ} (hA : A.transpose = A) : ∃ e V, IsEigh A e V := by
  obtain ⟨e, V, h, hV⟩ := EigSymm.exists_isEig hA
  exact ⟨e, V, h.vecs, hV⟩

theorem flip_cases (x : ℝ) : (signFlip x = 1 ∧ 0 ≤ x) ∨ (signFlip x = -1 ∧ x < 0) := by
  unfold signFlip
  rcases lt_trichotomy x 0 with h | h | h
  · right
    rw [Real.sign_of_neg h]
    norm_num [h]
  · left
    rw [h, Real.sign_zero]
    norm_num
  · left
    rw [Real.sign_of_pos h]
    norm_num [h.le]

theorem flip_mul_self (x : ℝ) : signFlip x * signFlip x = 1 := by
  rcases flip_cases x with h | h <;> rw [h.1] <;> norm_num

theorem mul_flip_nonneg (x : ℝ) : 0 ≤ x * signFlip x := by
  rcases flip_cases x with h | h <;> rw [h.1] <;> linarith [h.2]

theorem orth_entry {V : Matrix (Fin n) (Fin n) ℝ} (h : V.transpose * V = 1) (j k : Fin n) :
    ∑ i, V i j * V i k = if j = k then 1 else 0 := by
  have := congrFun (congrFun h j) k
  rw [Matrix.mul_apply, Matrix.one_apply] at this
  exact this

theorem orth_of_entry {V : Matrix (Fin n) (Fin n) ℝ} (h : ∀ j k, ∑ i, V i j * V i k = if j = k then 1 else 0) :
    V.transpose * V = 1 := by
  ext j k
  rw [Matrix.mul_apply, Matrix.one_apply]
  exact h j k

/-- The columns of the result are permuted, sign-adjusted columns of the library's. -/
theorem sortedEighMat_spec (lib : Lib) (h0 : 0 < m) (C : Matrix (Fin m) (Fin m) ℝ)
    (he : IsEigh C (lib.eigh m C).1 (lib.eigh m C).2)
    (hs : IsArgsort (fun i => |(lib.eigh m C).1 i|) (lib.argsort m fun i => |(lib.eigh m C).1 i|)) :
    ∃ (e : Fin m → ℝ) (W : Matrix (Fin m) (Fin m) ℝ) (σ : Equiv.Perm (Fin m)),
      sortedEighMat lib h0 C = ⟨m, e, W⟩ ∧ (∀ j, e j = |(lib.eigh m C).1 (σ j)|) ∧ Antitone e ∧
      (∀ j k, ∑ i, W i j * W i k = if j = k then 1 else 0) ∧
      (∀ j, C.mulVec (fun i => W i j) = (lib.eigh m C).1 (σ j) • fun i => W i j) ∧
      ∀ i j : Fin m, (i : ℕ) = 0 → 0 ≤ W i j := by
  set lam := (lib.eigh m C).1 with hlam
  set V := (lib.eigh m C).2 with hV
  set ind := lib.argsort m fun i => |lam i| with hind
  let σ : Equiv.Perm (Fin m) := Fin.revPerm.trans (Equiv.ofBijective ind hs.bij)
  have hσ : ∀ j, σ j = ind j.rev := fun j => rfl
  refine ⟨fun j => |lam (σ j)|, Matrix.of fun i j => V i (σ j) * signFlip (V ⟨0, h0⟩ (σ j)), σ, rfl, fun j => rfl, ?_, ?_, ?_, ?_⟩
  · intro i j hij
    exact hs.mono (Fin.rev_le_rev.mpr hij)
  · intro j k
    have h1 : ∀ i, (Matrix.of fun i j => V i (σ j) * signFlip (V ⟨0, h0⟩ (σ j))) i j
        * (Matrix.of fun i j => V i (σ j) * signFlip (V ⟨0, h0⟩ (σ j))) i k
        = V i (σ j) * V i (σ k) * (signFlip (V ⟨0, h0⟩ (σ j)) * signFlip (V ⟨0, h0⟩ (σ k))) := by
      intro i
      simp only [Matrix.of_apply]
      ring
    rw [Finset.sum_congr rfl fun i _ => h1 i, ← Finset.sum_mul, orth_entry he.orth]
    by_cases hjk : j = k
    · subst hjk
      rw [if_pos rfl, if_pos rfl, one_mul, flip_mul_self]
    · rw [if_neg (fun h => hjk (σ.injective h)), if_neg hjk, zero_mul]
  · intro j
    have h1 : (fun i => (Matrix.of fun i j => V i (σ j) * signFlip (V ⟨0, h0⟩ (σ j))) i j)
        = signFlip (V ⟨0, h0⟩ (σ j)) • fun i => V i (σ j) := by
      funext i
      simp only [Matrix.of_apply, Pi.smul_apply, smul_eq_mul]
      ring
    rw [h1, Matrix.mulVec_smul, EigSymm.vec_of he.vecs, smul_comm]
  · intro i j hi
    have : i = ⟨0, h0⟩ := Fin.ext hi
    rw [this]
    exact mul_flip_nonneg _

theorem sorted_eigh_of (lib : Lib) (h0 : 0 < m) (C : Matrix (Fin m) (Fin m) ℝ) :
    sorted_eigh lib (NpMat.of C) = .ok (sortedEighMat lib h0 C) := by
  unfold sorted_eigh
  rw [dif_pos (show (NpMat.of C).cols = (NpMat.of C).rows from rfl), dif_pos (show 0 < (NpMat.of C).rows from h0)]
  rfl

/-- Antitone enumerations of the same multiset coincide. -/
theorem antitone_unique {e e' : Fin n → ℝ} (he : Antitone e) (he' : Antitone e')
    (h : (Finset.univ : Finset (Fin n)).val.map e = (Finset.univ : Finset (Fin n)).val.map e') : e = e' := by
  have hl : ∀ g : Fin n → ℝ, (Finset.univ : Finset (Fin n)).val.map g = (List.ofFn g : Multiset ℝ) := by
    intro g
    rw [Fin.univ_val_map]
  rw [hl, hl, Multiset.coe_eq_coe] at h
  have := h.eq_of_pairwise' (r := (· ≥ ·)) (List.pairwise_ofFn.mpr fun i j hij => he hij.le) (List.pairwise_ofFn.mpr fun i j hij => he' hij.le)
  exact List.ofFn_injective this

/-- An orthogonal eigenbasis lists the roots of the characteristic polynomial. -/
theorem roots_of_eigh {A : Matrix (Fin n) (Fin n) ℝ} {e : Fin n → ℝ} {V : Matrix (Fin n) (Fin n) ℝ} (h : IsEigh A e V) :
    A.charpoly.roots = (Finset.univ : Finset (Fin n)).val.map e := by
  have hV : V * V.transpose = 1 := mul_eq_one_comm.mp h.orth
  have hA : A = V * Matrix.diagonal e * V.transpose := by
    rw [← h.vecs, Matrix.mul_assoc, hV, Matrix.mul_one]
  have h1 : A.charpoly = (Matrix.diagonal e).charpoly := by
    rw [hA, Matrix.mul_assoc, Matrix.charpoly_mul_comm, Matrix.mul_assoc, h.orth, Matrix.mul_one]
  have h2 : (∏ i, (Polynomial.X - Polynomial.C (e i)))
      = (((Finset.univ : Finset (Fin n)).val.map e).map fun a => Polynomial.X - Polynomial.C a).prod := by
    rw [Multiset.map_map]
    rfl
  rw [h1, Matrix.charpoly_diagonal, h2, Polynomial.roots_multiset_prod_X_sub_C]

end Proofs.Eigh
