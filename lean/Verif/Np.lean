import Mathlib.Data.Real.Basic
import Mathlib.Data.Matrix.Mul
import Mathlib.Logic.Equiv.Fin.Basic
import Verif.Py

/-!
# NumPy arrays

`Arr` is an ndarray of floats of any rank (C order).  `NpMat` is a two-dimensional one whose shape is
known only at run time.  Typed matrices `Matrix (Fin M) (Fin m) ℝ` are used where the shape is fixed.
-/

open Py

/-- A two-dimensional ndarray with run-time shape. -/
structure NpMat where
  rows : ℕ
  cols : ℕ
  val : Matrix (Fin rows) (Fin cols) ℝ

/-- An ndarray of any rank.  Rank 3 and higher carries its shape `a :: b :: c :: rest` and the flat data. -/
inductive Arr where
  | scalar (x : ℝ)
  | vec (n : ℕ) (x : Fin n → ℝ)
  | mat (A : NpMat)
  | nd (a b c : ℕ) (rest : List ℕ) (data : List ℝ)

namespace Arr

/-- `A.shape`. -/
def shape : Arr → List ℕ
  | scalar _ => []
  | vec n _ => [n]
  | mat A => [A.rows, A.cols]
  | nd a b c rest _ => a :: b :: c :: rest

/-- `np.ndim(A)`. -/
def ndim (A : Arr) : ℕ := A.shape.length

end Arr

namespace NpMat

/-- The array of a typed matrix. -/
def of {M m : ℕ} (A : Matrix (Fin M) (Fin m) ℝ) : NpMat := ⟨M, m, A⟩

@[simp] theorem of_rows {M m : ℕ} (A : Matrix (Fin M) (Fin m) ℝ) : (of A).rows = M := rfl
@[simp] theorem of_cols {M m : ℕ} (A : Matrix (Fin M) (Fin m) ℝ) : (of A).cols = m := rfl
@[simp] theorem of_val {M m : ℕ} (A : Matrix (Fin M) (Fin m) ℝ) : (of A).val = A := rfl

/-- Element access by natural number indices (0 outside the shape; never used there). -/
def get (A : NpMat) (i j : ℕ) : ℝ :=
  if h : i < A.rows ∧ j < A.cols then A.val ⟨i, h.1⟩ ⟨j, h.2⟩ else 0

/-- Element access under broadcasting: a dimension of length one is repeated. -/
def bget (A : NpMat) (i j : ℕ) : ℝ :=
  A.get (if A.rows = 1 then 0 else i) (if A.cols = 1 then 0 else j)

/-- The broadcast length of two dimensions, or `none` when they do not match. -/
def bdim (a b : ℕ) : Option ℕ :=
  if a = b then some a else if a = 1 then some b else if b = 1 then some a else none

/-- An elementwise binary operation with NumPy broadcasting on 2-d arrays;
`ValueError: operands could not be broadcast together` otherwise. -/
def zipB (op : ℝ → ℝ → ℝ) (A B : NpMat) : Except Err NpMat :=
  match bdim A.rows B.rows, bdim A.cols B.cols with
  | some r, some c => .ok ⟨r, c, Matrix.of fun i j => op (A.bget i j) (B.bget i j)⟩
  | _, _ => .error .valueError

/-- An elementwise unary operation. -/
def map (f : ℝ → ℝ) (A : NpMat) : NpMat := ⟨A.rows, A.cols, Matrix.of fun i j => f (A.val i j)⟩

/-- `A.T` -/
def transpose (A : NpMat) : NpMat := ⟨A.cols, A.rows, A.val.transpose⟩

theorem of_val_eq (A : NpMat) : of A.val = A := rfl

@[simp] theorem map_of {M m : ℕ} (f : ℝ → ℝ) (A : Matrix (Fin M) (Fin m) ℝ) :
    map f (of A) = of (Matrix.of fun i j => f (A i j)) := rfl

@[simp] theorem transpose_of {M m : ℕ} (A : Matrix (Fin M) (Fin m) ℝ) :
    transpose (of A) = of A.transpose := rfl

theorem of_injective {M m : ℕ} : Function.Injective (of : Matrix (Fin M) (Fin m) ℝ → NpMat) := by
  intro A B h
  simpa [of] using h

@[simp] theorem of_inj {M m : ℕ} {A B : Matrix (Fin M) (Fin m) ℝ} : of A = of B ↔ A = B :=
  of_injective.eq_iff

theorem get_of {M m : ℕ} (A : Matrix (Fin M) (Fin m) ℝ) (i : Fin M) (j : Fin m) :
    (of A).get i j = A i j := by
  simp [get]

@[simp] theorem bdim_self (a : ℕ) : bdim a a = some a := by simp [bdim]

@[simp] theorem bdim_one_right (a : ℕ) : bdim a 1 = some a := by
  unfold bdim; split_ifs <;> simp_all

@[simp] theorem bdim_one_left (a : ℕ) : bdim 1 a = some a := by
  unfold bdim; split_ifs <;> simp_all

theorem bget_of {M m : ℕ} (A : Matrix (Fin M) (Fin m) ℝ) (i : Fin M) (j : Fin m) :
    (of A).bget i j = A i j := by
  have hi : (if M = 1 then 0 else (i : ℕ)) = i := by
    split_ifs with h
    · subst h; omega
    · rfl
  have hj : (if m = 1 then 0 else (j : ℕ)) = j := by
    split_ifs with h
    · subst h; omega
    · rfl
  change (of A).get (if M = 1 then 0 else (i : ℕ)) (if m = 1 then 0 else (j : ℕ)) = A i j
  rw [hi, hj, get_of]

theorem bget_of_row {m : ℕ} (A : Matrix (Fin 1) (Fin m) ℝ) (i : ℕ) (j : Fin m) :
    (of A).bget i j = A 0 j := by
  have hj : (if m = 1 then 0 else (j : ℕ)) = j := by
    split_ifs with h
    · subst h; omega
    · rfl
  change (of A).get 0 (if m = 1 then 0 else (j : ℕ)) = A 0 j
  rw [hj]
  exact get_of A 0 j

/-- Elementwise operation on equal shapes. -/
theorem zipB_same {M m : ℕ} (op : ℝ → ℝ → ℝ) (A B : Matrix (Fin M) (Fin m) ℝ) :
    zipB op (of A) (of B) = .ok (of <| Matrix.of fun i j => op (A i j) (B i j)) := by
  simp only [zipB, of_rows, of_cols, bdim_self, bget_of]
  rfl

/-- Elementwise operation of an M-by-m array with a 1-by-m row. -/
theorem zipB_row_right {M m : ℕ} (op : ℝ → ℝ → ℝ) (A : Matrix (Fin M) (Fin m) ℝ)
    (B : Matrix (Fin 1) (Fin m) ℝ) :
    zipB op (of A) (of B) = .ok (of <| Matrix.of fun i j => op (A i j) (B 0 j)) := by
  simp only [zipB, of_rows, of_cols, bdim_self, bdim_one_right]
  simp only [bget_of, bget_of_row]
  rfl

theorem zipB_row_left {M m : ℕ} (op : ℝ → ℝ → ℝ) (A : Matrix (Fin 1) (Fin m) ℝ)
    (B : Matrix (Fin M) (Fin m) ℝ) :
    zipB op (of A) (of B) = .ok (of <| Matrix.of fun i j => op (A 0 j) (B i j)) := by
  simp only [zipB, of_rows, of_cols, bdim_self, bdim_one_left]
  simp only [bget_of, bget_of_row]
  rfl

end NpMat

/-! ## Typed array primitives (C order) -/

namespace Np

variable {α : Type*}

/-- `np.kron(A, B)`: entry `(i, j)` is `A[i / rB, j / cB] * B[i % rB, j % cB]`. -/
def kron {a b r c : ℕ} (A : Matrix (Fin a) (Fin b) ℝ) (B : Matrix (Fin r) (Fin c) ℝ) :
    Matrix (Fin (a * r)) (Fin (b * c)) ℝ :=
  Matrix.of fun i j => A i.divNat j.divNat * B i.modNat j.modNat

/-- `v.reshape((a, b))` of a flat vector, C order: entry `(i, j)` is `v[i * b + j]`. -/
def reshape2 {a b : ℕ} (v : Fin (a * b) → α) : Matrix (Fin a) (Fin b) α :=
  Matrix.of fun i j => v (finProdFinEquiv (i, j))

/-- `A.reshape(-1)` / `A.ravel()`, C order. -/
def ravel {a b : ℕ} (A : Matrix (Fin a) (Fin b) α) : Fin (a * b) → α :=
  fun k => A k.divNat k.modNat

/-- `np.vstack((A, B))`. -/
def vstack {a b c : ℕ} (A : Matrix (Fin a) (Fin c) α) (B : Matrix (Fin b) (Fin c) α) :
    Matrix (Fin (a + b)) (Fin c) α :=
  Matrix.of (Fin.append A B)

/-- `np.hstack((A, B))`. -/
def hstack {a b r : ℕ} (A : Matrix (Fin r) (Fin a) α) (B : Matrix (Fin r) (Fin b) α) :
    Matrix (Fin r) (Fin (a + b)) α :=
  Matrix.of fun i => Fin.append (A i) (B i)

@[simp] theorem vstack_castAdd {a b c : ℕ} (A : Matrix (Fin a) (Fin c) α) (B : Matrix (Fin b) (Fin c) α)
    (i : Fin a) : vstack A B (Fin.castAdd b i) = A i := Fin.append_left (fun i => A i) (fun i => B i) i

@[simp] theorem vstack_natAdd {a b c : ℕ} (A : Matrix (Fin a) (Fin c) α) (B : Matrix (Fin b) (Fin c) α)
    (i : Fin b) : vstack A B (Fin.natAdd a i) = B i := Fin.append_right (fun i => A i) (fun i => B i) i

@[simp] theorem hstack_castAdd {a b r : ℕ} (A : Matrix (Fin r) (Fin a) α) (B : Matrix (Fin r) (Fin b) α)
    (i : Fin r) (j : Fin a) : hstack A B i (Fin.castAdd b j) = A i j := Fin.append_left _ _ j

@[simp] theorem hstack_natAdd {a b r : ℕ} (A : Matrix (Fin r) (Fin a) α) (B : Matrix (Fin r) (Fin b) α)
    (i : Fin r) (j : Fin b) : hstack A B i (Fin.natAdd a j) = B i j := Fin.append_right _ _ j

/-- The rows of an array in the order of `for x in X`. -/
def rows {a b : ℕ} (X : Matrix (Fin a) (Fin b) α) : List (Fin b → α) :=
  (List.finRange a).map fun i => X i

@[simp] theorem length_rows {a b : ℕ} (X : Matrix (Fin a) (Fin b) α) : (rows X).length = a := by
  simp [rows]

theorem getElem_rows {a b : ℕ} (X : Matrix (Fin a) (Fin b) α) (i : ℕ) (h : i < (rows X).length) :
    (rows X)[i] = X ⟨i, by simpa using h⟩ := by
  simp [rows]

/-- `np.ones((a, b))` -/
def ones (a b : ℕ) : Matrix (Fin a) (Fin b) ℝ := Matrix.of fun _ _ => 1

/-- `np.zeros((a, b))` -/
def zeros (a b : ℕ) : Matrix (Fin a) (Fin b) ℝ := Matrix.of fun _ _ => 0

end Np

namespace NpMat

/-- Two run-time arrays are equal when shapes and entries agree. -/
theorem ext_get {A B : NpMat} (hr : A.rows = B.rows) (hc : A.cols = B.cols)
    (h : ∀ i j, i < A.rows → j < A.cols → A.get i j = B.get i j) : A = B := by
  obtain ⟨r, c, A⟩ := A
  obtain ⟨r', c', B⟩ := B
  dsimp at hr hc
  subst hr hc
  congr 1
  ext i j
  have := h i j i.2 j.2
  simpa [get] using this

end NpMat
