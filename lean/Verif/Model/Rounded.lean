import Verif.Model.Misc
import Verif.Model.Gradients
import Verif.Model.Subspaces

/-!
# Functions with rounding after every operation

The same lines as in `Model.Misc`, `Model.Gradients` and `Model.Subspaces`, with `rd` applied to the result of every arithmetic operation.
-/

open Py Model.Misc Model.SimRunners

namespace Model.Rounded

/-- misc.py 98-100: `2.0 * (X - lb) / (ub - lb) - 1.0`. -/
noncomputable def normalize (rd : ℝ → ℝ) (s : BoundedNormalizer) (X : Arr) : Except Err NpMat := do
  let X ← process_inputs X
  let d ← NpMat.zipB (fun a b => rd (a - b)) X s.lb
  let w ← NpMat.zipB (fun a b => rd (a - b)) s.ub s.lb
  let q ← NpMat.zipB (fun a b => rd (a / b)) (NpMat.map (fun a => rd (2 * a)) d) w
  return NpMat.map (fun a => rd (a - 1)) q

/-- misc.py 119-121: `(ub - lb) * (X + 1.0) / 2.0 + lb`. -/
noncomputable def unnormalize (rd : ℝ → ℝ) (s : BoundedNormalizer) (X : Arr) : Except Err NpMat := do
  let X ← process_inputs X
  let w ← NpMat.zipB (fun a b => rd (a - b)) s.ub s.lb
  let q ← NpMat.zipB (fun a b => rd (a * b)) w (NpMat.map (fun a => rd (a + 1)) X)
  NpMat.zipB (fun a b => rd (a + b)) (NpMat.map (fun a => rd (a / 2)) q) s.lb

/-! ## finite_difference_gradients, gradients.py 65-97 -/

variable {W : Type} {M m : ℕ}

/-- gradients.py 87-88; the products inside `kron` are rounded, too. -/
def fdDesign (rd : ℝ → ℝ) (X : Matrix (Fin M) (Fin m) ℝ) (h : ℝ) : Matrix (Fin ((m + 1) * M)) (Fin m) ℝ :=
  let A := ((Np.kron (Np.ones (m + 1) 1) X).map rd).submatrix id (Fin.cast (one_mul m).symm)
  let B := ((Np.kron (Np.vstack (Np.zeros 1 m) (1 : Matrix (Fin m) (Fin m) ℝ)) (Np.ones M 1)).map rd).submatrix
    (Fin.cast (by rw [Nat.add_comm])) (Fin.cast (mul_one m).symm)
  (A + (h • B).map rd).map rd

/-- gradients.py 96-97: `(F[M:].reshape((m, M)).transpose() - F[:M]) / h`. -/
noncomputable def fdQuotient (rd : ℝ → ℝ) (F : Matrix (Fin ((m + 1) * M)) (Fin 1) ℝ) (h : ℝ) : Matrix (Fin M) (Fin m) ℝ :=
  let tail : Fin (m * M) → ℝ := fun k => F (Fin.cast (by ring) (Fin.natAdd M k)) 0
  let head : Matrix (Fin M) (Fin 1) ℝ :=
    Matrix.of fun i _ => F (Fin.cast (by ring) (Fin.castAdd (m * M) i)) 0
  let T : Matrix (Fin M) (Fin m) ℝ := (Np.reshape2 tail).transpose
  Matrix.of fun i j => rd (rd (T i j - head i 0) / h)

/-- gradients.py 65-97 `finite_difference_gradients`. -/
noncomputable def finite_difference_gradients (rd : ℝ → ℝ) (X : Arr) (sim : (m : ℕ) → Sim W m) (h : ℝ) : PyM W NpMat :=
  match process_inputs X with
  | .error e => PyM.raise e
  | .ok X => do
    let F ← runMat (sim X.cols) (fdDesign rd X.val h)
    return NpMat.of (fdQuotient rd F h)

/-! ## active_subspace, subspaces.py 182-205 -/

/-- `np.dot` of two-dimensional arrays in floating point: for every shape a function, as the order of the sums is up to the library. -/
abbrev Dot := (p n q : ℕ) → Matrix (Fin p) (Fin n) ℝ → Matrix (Fin n) (Fin q) ℝ → Matrix (Fin p) (Fin q) ℝ

/-- `np.dot(A, B)`; `ValueError` when the shapes do not match. -/
def dot (d : Dot) (A B : NpMat) : Except Err NpMat :=
  if h : B.rows = A.cols then .ok ⟨A.rows, B.cols, d _ _ _ A.val (B.val.submatrix (Fin.cast h.symm) id)⟩ else .error .valueError

/-- subspaces.py 200-205: `C = np.dot(df.transpose(), df * weights)`, then `sorted_eigh`, which is exact but for `eigh`. -/
noncomputable def active_subspace (rd : ℝ → ℝ) (d : Dot) (lib : Subspaces.Lib) (df : Arr) (weights : NpMat) : Except Err Subspaces.EigPair := do
  let df ← process_inputs df
  let dfw ← NpMat.zipB (fun a b => rd (a * b)) df weights
  let C ← dot d df.transpose dfw
  Subspaces.sorted_eigh lib C

/-- subspaces.py 328-348 `eig_partition`; `fabs` and `argmax` are exact. -/
noncomputable def eig_partition (rd : ℝ → ℝ) {m : ℕ} (e : Fin m → ℝ) : Except Err (ℕ × (Fin (m - 1) → ℝ)) := do
  let ediff : Fin (m - 1) → ℝ := fun i => |rd (e ⟨i + 1, by omega⟩ - e ⟨i, by omega⟩)|
  let n ← Np.argmax ediff
  return (n + 1, ediff)

end Model.Rounded
