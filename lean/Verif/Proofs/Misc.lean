import Mathlib.Tactic.FieldSimp
import Mathlib.Tactic.Ring
import Mathlib.Tactic.Linarith
import Verif.Model.Misc

/-! Helper lemmas about the model of `utils/misc.py`. -/

open Py Model.Misc

namespace Proofs.Misc

variable {M m : ℕ}

/-- A 1-by-m array. -/
def rowOf (v : Fin m → ℝ) : NpMat := NpMat.of (Matrix.of fun (_ : Fin 1) j => v j)

/-- The normalizer that `__init__` builds from bounds given as functions. -/
theorem init_ofFn (lb ub : Fin m → ℝ) :
    BoundedNormalizer.init (List.ofFn lb) (List.ofFn ub)
      = .ok ⟨rowOf lb, rowOf ub⟩ := by
  have hl : (List.ofFn ub).length = (List.ofFn lb).length := by simp
  unfold BoundedNormalizer.init
  rw [if_pos hl]
  congr 2
  · apply NpMat.ext_get
    · rfl
    · simp [rowOf]
    · intro i j hi hj
      simp only [List.length_ofFn] at hj
      simp only [NpMat.get, rowOf, List.length_ofFn, NpMat.of_rows, NpMat.of_cols, NpMat.of_val]
      have hi' : i < 1 := hi
      simp [hi', hj]
  · apply NpMat.ext_get
    · rfl
    · simp [rowOf]
    · intro i j hi hj
      simp only [List.length_ofFn] at hj
      simp only [NpMat.get, rowOf, List.length_ofFn, NpMat.of_rows, NpMat.of_cols, NpMat.of_val]
      have hi' : i < 1 := hi
      simp [hi', hj]

theorem normalize_of (lb ub : Fin m → ℝ) (X : Matrix (Fin M) (Fin m) ℝ) :
    BoundedNormalizer.normalize ⟨rowOf lb, rowOf ub⟩
      (.mat (.of X)) = .ok (.of <| Matrix.of fun i j => 2 * (X i j - lb j) / (ub j - lb j) - 1) := by
  simp only [BoundedNormalizer.normalize, rowOf, process_inputs]
  simp only [bind, Except.bind, Matrix.of_apply, NpMat.zipB_row_right, NpMat.map_of, pure, Except.pure]

theorem unnormalize_of (lb ub : Fin m → ℝ) (X : Matrix (Fin M) (Fin m) ℝ) :
    BoundedNormalizer.unnormalize ⟨rowOf lb, rowOf ub⟩
      (.mat (.of X)) = .ok (.of <| Matrix.of fun i j => (ub j - lb j) * (X i j + 1) / 2 + lb j) := by
  simp only [BoundedNormalizer.unnormalize, rowOf, process_inputs]
  simp only [bind, Except.bind, Matrix.of_apply, NpMat.zipB_same, NpMat.zipB_row_left, NpMat.zipB_row_right, NpMat.map_of]

theorem arr_cases_mat (X : Arr) : (∃ A, X = .mat A) ∨ X.ndim ≠ 2 := by
  cases X <;> simp [Arr.ndim, Arr.shape]

theorem process_inputs_error {X : Arr} (h : X.ndim ≠ 2) : process_inputs X = .error .valueError := by
  cases X <;> simp_all [Arr.ndim, Arr.shape, process_inputs]

end Proofs.Misc

namespace Proofs.Misc

variable {M m : ℕ}

theorem ucast_eq (X : Matrix (Fin M) (Fin m) ℝ) (h : (NpMat.of X).cols = m) :
    (Matrix.of fun i j => (NpMat.of X).val i (Fin.cast h.symm j)) = X := rfl

theorem unormalize_of (s : UnboundedNormalizer m) (hu : IsUnit s.L.det) (X : Matrix (Fin M) (Fin m) ℝ) :
    s.normalize (.mat (.of X))
      = .ok (.of (s.L⁻¹ * (Matrix.of fun i j => X i j - s.mu j).transpose).transpose) := by
  simp only [UnboundedNormalizer.normalize, process_inputs, bind, Except.bind]
  rw [NpMat.zipB_row_right]
  dsimp only
  rw [dif_pos (NpMat.of_cols _)]
  simp only [Np.solve, hu, if_true]
  rfl

theorem uunnormalize_of (s : UnboundedNormalizer m) (X : Matrix (Fin M) (Fin m) ℝ) :
    s.unnormalize (.mat (.of X))
      = .ok (.of (Matrix.of fun i j => (X * s.L.transpose) i j + s.mu j)) := by
  have h : (NpMat.of X).cols = m := rfl
  simp only [UnboundedNormalizer.unnormalize, process_inputs, bind, Except.bind]
  rw [dif_pos h, ucast_eq X h]
  rfl

end Proofs.Misc
