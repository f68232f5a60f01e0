import Mathlib.Analysis.SpecialFunctions.Log.Basic
import Mathlib.Analysis.SpecialFunctions.Pow.Real
import Mathlib.Algebra.Order.Floor.Semiring
import Verif.Model.SimRunners

/-!
# Model of `active_subspaces/gradients.py`
-/

open Py Model.SimRunners

namespace Model.Gradients

variable {W : Type} {M m : ℕ}

/-! ## finite_difference_gradients, gradients.py 65-97 -/

/-- gradients.py 87-88: the design
`kron(ones((m+1,1)), X) + h * kron(vstack((zeros((1,m)), eye(m))), ones((M,1)))`. -/
def fdDesign (X : Matrix (Fin M) (Fin m) ℝ) (h : ℝ) : Matrix (Fin ((m + 1) * M)) (Fin m) ℝ :=
  (Np.kron (Np.ones (m + 1) 1) X).submatrix id (Fin.cast (one_mul m).symm)
    + h • (Np.kron (Np.vstack (Np.zeros 1 m) (1 : Matrix (Fin m) (Fin m) ℝ)) (Np.ones M 1)).submatrix
        (Fin.cast (by rw [Nat.add_comm])) (Fin.cast (mul_one m).symm)

/-- gradients.py 96-97: `(F[M:].reshape((m, M)).transpose() - F[:M]) / h`. -/
noncomputable def fdQuotient (F : Matrix (Fin ((m + 1) * M)) (Fin 1) ℝ) (h : ℝ) : Matrix (Fin M) (Fin m) ℝ :=
  let tail : Fin (m * M) → ℝ := fun k => F (Fin.cast (by ring) (Fin.natAdd M k)) 0
  let head : Matrix (Fin M) (Fin 1) ℝ :=
    Matrix.of fun i _ => F (Fin.cast (by ring) (Fin.castAdd (m * M) i)) 0
  let T : Matrix (Fin M) (Fin m) ℝ := (Np.reshape2 tail).transpose
  Matrix.of fun i j => (T i j - head i 0) / h

/-- gradients.py 65-97 `finite_difference_gradients` on an M-by-m array. -/
noncomputable def finite_difference_gradientsMat (X : Matrix (Fin M) (Fin m) ℝ) (sim : Sim W m) (h : ℝ) :
    PyM W (Matrix (Fin M) (Fin m) ℝ) := do
  let F ← runMat sim (fdDesign X h)
  return fdQuotient F h

/-- gradients.py 65-97 on a run-time array. -/
noncomputable def finite_difference_gradients (X : Arr) (sim : (m : ℕ) → Sim W m) (h : ℝ) : PyM W NpMat :=
  match Misc.process_inputs X with
  | .error e => PyM.raise e
  | .ok X => do
    let D ← finite_difference_gradientsMat X.val (sim X.cols) h
    return NpMat.of D

/-! ## local_linear_gradients, gradients.py 6-63 -/

/-- The argument `p`: `None`, an int, or an object of another type. -/
inductive PArg where
  | none
  | int (p : ℤ)
  | other

/-- The library routines used: `np.argsort` and `np.linalg.lstsq(A, b)[0]`. -/
structure Lib where
  argsort : ∀ {n : ℕ}, (Fin n → ℝ) → (Fin n → Fin n)
  lstsq : ∀ {r c : ℕ}, Matrix (Fin r) (Fin c) ℝ → (Fin r → ℝ) → (Fin c → ℝ)

/-- gradients.py 40-46: the value of `p` after the checks. -/
noncomputable def checkP (M m : ℕ) (p : PArg) : Except Err ℕ :=
  if M ≤ m then .error .exception
  else
    let check (p : ℤ) : Except Err ℕ :=
      if p < m + 1 ∨ p > M then .error .exception else .ok p.toNat
    match p with
    | .none => check (min ⌊(1.7 : ℝ) * m⌋₊ M : ℕ)
    | .int p => check p
    | .other => .error .typeError

/-- gradients.py 51: the number of local models.  Simplified: `m ≥ 1` (`log 0` is not modelled). -/
noncomputable def numModels (M m : ℕ) : ℕ := min ⌈10 * (m : ℝ) * Real.log m⌉₊ (M - 1)

/-- gradients.py 56: squared distances from the centre. -/
def sqDist (X : Matrix (Fin M) (Fin m) ℝ) (x : Fin m → ℝ) : Fin M → ℝ :=
  fun k => ∑ j, (X k j - x j) ^ 2

/-- gradients.py 57-58 and `ind[:p]`: `ind = argsort(D2); ind = ind[D2 != 0]; ind[:p]`.  The mask is
indexed by position in `ind`, as in the source. -/
noncomputable def neighbours (lib : Lib) (X : Matrix (Fin M) (Fin m) ℝ) (ii : Fin M) (p : ℕ) : List (Fin M) :=
  let D2 := sqDist X (X ii)
  let ind := lib.argsort D2
  open Classical in
  (((List.finRange M).filter fun k => D2 k ≠ 0).map ind).take p

/-- gradients.py 55-62: one local model.  `hstack` raises `ValueError` when fewer than `p` neighbours are
left. -/
noncomputable def localModel (lib : Lib) (X : Matrix (Fin M) (Fin m) ℝ) (f : Fin M → ℝ) (weights : Fin M → ℝ)
    (p : ℕ) (ii : Fin M) : Except Err (Fin m → ℝ) :=
  let ind := neighbours lib X ii p
  if h : ind.length = p then
    let s : Fin p → Fin M := fun k => ind.get (k.cast h.symm)
    let A : Matrix (Fin p) (Fin (1 + m)) ℝ :=
      Real.sqrt (weights ii) • Np.hstack (Np.ones p 1) (X.submatrix s id)
    let b : Fin p → ℝ := fun k => f (s k) * Real.sqrt (weights ii)
    let u := lib.lstsq A b
    .ok fun j => u (Fin.natAdd 1 j)
  else .error .valueError

/-- gradients.py 52-63: the loop over `MM` random centres; `randint` draws from the global generator. -/
noncomputable def localLoop (lib : Lib) (randint : PyM W (Fin M)) (X : Matrix (Fin M) (Fin m) ℝ)
    (f : Fin M → ℝ) (weights : Fin M → ℝ) (p MM : ℕ) : PyM W (Matrix (Fin MM) (Fin m) ℝ) :=
  (List.finRange MM).foldlM (fun df i => do
    let ii ← randint
    let g ← PyM.lift (localModel lib X f weights p ii)
    return Matrix.updateRow df i g) (Np.zeros MM m)

/-- gradients.py 6-63 `local_linear_gradients`.  Simplified: `f` has one entry per row of `X`
(the source does not check this, see `Model.GradientsArr`). -/
noncomputable def local_linear_gradients (lib : Lib) (randint : PyM W (Fin M)) (X : Matrix (Fin M) (Fin m) ℝ)
    (f : Fin M → ℝ) (p : PArg) (weights : Option (Fin M → ℝ)) : PyM W (Matrix (Fin (numModels M m)) (Fin m) ℝ) :=
  match checkP M m p with
  | .error e => PyM.raise e
  | .ok p =>
    let weights := weights.getD fun _ => 1 / M
    localLoop lib randint X f weights p (numModels M m)

end Model.Gradients
