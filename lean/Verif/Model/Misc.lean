import Mathlib.LinearAlgebra.Matrix.NonsingularInverse
import Mathlib.Data.Fintype.EquivFin
import Mathlib.Data.Finset.Max
import Verif.Np

/-!
# Model of `active_subspaces/utils/misc.py`
-/

open Py

namespace Np

/-- `np.linalg.solve(A, B)` in exact arithmetic: the unique solution, or `LinAlgError` when `A` is singular. -/
noncomputable def solve {m k : ℕ} (A : Matrix (Fin m) (Fin m) ℝ) (B : Matrix (Fin m) (Fin k) ℝ) :
    Except Err (Matrix (Fin m) (Fin k) ℝ) :=
  open Classical in
  if IsUnit A.det then .ok (A⁻¹ * B) else .error .linAlgError

end Np

namespace Model.Misc

/-! ## Input checks -/

/-- misc.py 209-232 `process_inputs`.  The returned `M, m` are the shape stored in the result. -/
def process_inputs : Arr → Except Err NpMat
  | .mat X => .ok X
  | _ => .error .valueError

/-- A pair of inputs and outputs as returned by `process_inputs_outputs`. -/
structure InOut where
  X : NpMat
  f : NpMat

/-- misc.py 234-270 `process_inputs_outputs`, checks in source order. -/
def process_inputs_outputs (X f : Arr) : Except Err InOut :=
  match process_inputs X with
  | .error e => .error e
  | .ok X =>
    match f with
    | .mat f =>
      if f.rows ≠ X.rows then .error .exception
      else if f.cols ≠ 1 then .error .exception
      else .ok ⟨X, f⟩
    | _ => .error .valueError

/-! ## Normalizer, misc.py 4-46 -/

/-- misc.py 8-26 `Normalizer.normalize`, a class without a `normalize` of its own. -/
def baseNormalize (_X : Arr) : Except Err NpMat := .error .notImplementedError

/-- misc.py 28-46 `Normalizer.unnormalize` -/
def baseUnnormalize (_X : Arr) : Except Err NpMat := .error .notImplementedError

/-! ## BoundedNormalizer, misc.py 48-121 -/

/-- misc.py 64, 79-80: the two stored rows. -/
structure BoundedNormalizer where
  lb : NpMat
  ub : NpMat

/-- misc.py 78-80: `__init__`.  The bounds are given by their flattened entries; `ub.reshape((1, m))`
raises `ValueError` when the sizes differ. -/
def BoundedNormalizer.init (lb ub : List ℝ) : Except Err BoundedNormalizer :=
  if ub.length = lb.length then
    .ok ⟨⟨1, lb.length, Matrix.of fun _ j => lb.get j⟩, ⟨1, lb.length, Matrix.of fun _ j => ub.getD j 0⟩⟩
  else .error .valueError

/-- misc.py 98-100: `2.0 * (X - lb) / (ub - lb) - 1.0`. -/
noncomputable def BoundedNormalizer.normalize (s : BoundedNormalizer) (X : Arr) : Except Err NpMat := do
  let X ← process_inputs X
  let d ← NpMat.zipB (· - ·) X s.lb
  let w ← NpMat.zipB (· - ·) s.ub s.lb
  let q ← NpMat.zipB (· / ·) (NpMat.map (2 * ·) d) w
  return NpMat.map (· - 1) q

/-- misc.py 119-121: `(ub - lb) * (X + 1.0) / 2.0 + lb`. -/
noncomputable def BoundedNormalizer.unnormalize (s : BoundedNormalizer) (X : Arr) : Except Err NpMat := do
  let X ← process_inputs X
  let w ← NpMat.zipB (· - ·) s.ub s.lb
  let q ← NpMat.zipB (· * ·) w (NpMat.map (· + 1) X)
  NpMat.zipB (· + ·) (NpMat.map (· / 2) q) s.lb

/-! ## UnboundedNormalizer, misc.py 123-207 -/

/-- misc.py 145, 159-160: mean row and Cholesky factor.  Simplified: `mu.size` and the order of `C` are
the same `m` by typing (`Model.MiscArr` has the class without this). -/
structure UnboundedNormalizer (m : ℕ) where
  mu : Fin m → ℝ
  L : Matrix (Fin m) (Fin m) ℝ

/-- misc.py 159-160 `__init__`; `chol` is `np.linalg.cholesky`. -/
def UnboundedNormalizer.init {m : ℕ}
    (chol : Matrix (Fin m) (Fin m) ℝ → Except Err (Matrix (Fin m) (Fin m) ℝ))
    (mu : Fin m → ℝ) (C : Matrix (Fin m) (Fin m) ℝ) : Except Err (UnboundedNormalizer m) :=
  match chol C with
  | .ok L => .ok ⟨mu, L⟩
  | .error e => .error e

/-- misc.py 204-207: `dot(X, L.T) + mu` (inputs already of shape M-by-m). -/
def UnboundedNormalizer.unnormalizeMat {m M : ℕ} (s : UnboundedNormalizer m)
    (X : Matrix (Fin M) (Fin m) ℝ) : Matrix (Fin M) (Fin m) ℝ :=
  let X0 := X * s.L.transpose
  Matrix.of fun i j => X0 i j + s.mu j

/-- misc.py 162-182 `normalize` on a run-time array.  `X - mu` repeats a single column; `solve` raises `ValueError` when the
number of columns is not the order of `L`. -/
noncomputable def UnboundedNormalizer.normalize {m : ℕ} (s : UnboundedNormalizer m) (X : Arr) :
    Except Err NpMat := do
  let X ← process_inputs X
  let X0 ← NpMat.zipB (· - ·) X (NpMat.of (Matrix.of fun (_ : Fin 1) j => s.mu j))
  if h : X0.cols = m then
    let Z ← Np.solve s.L (Matrix.of fun j i => X0.val i (Fin.cast h.symm j))
    return NpMat.of Z.transpose
  else .error .valueError

/-- misc.py 184-207 `unnormalize` on a run-time array. -/
def UnboundedNormalizer.unnormalize {m : ℕ} (s : UnboundedNormalizer m) (X : Arr) :
    Except Err NpMat := do
  let X ← process_inputs X
  if h : X.cols = m then
    return NpMat.of (s.unnormalizeMat (M := X.rows) (Matrix.of fun i j => X.val i (Fin.cast h.symm j)))
  else .error .valueError

/-! ## Conditional expectations, misc.py 272-304 -/

/-- `np.mean` of a flat array: `none` is nan (empty array). -/
noncomputable def mean (l : List ℝ) : Option ℝ :=
  if l.length = 0 then none else some (l.sum / l.length)

/-- `np.var` of a flat array: mean squared deviation from the mean; `none` is nan (empty array). -/
noncomputable def var (l : List ℝ) : Option ℝ :=
  match mean l with
  | none => none
  | some mu => mean (l.map fun x => (x - mu) ^ 2)

/-- `f[ind == i]` -/
def select {M : ℕ} (f : Fin M → ℝ) (ind : Fin M → ℤ) (i : ℤ) : List ℝ :=
  ((List.finRange M).filter (fun j => ind j = i)).map f

/-- The result of `conditional_expectations`: n-by-1 arrays of (possibly nan) means and variances. -/
structure CondExp where
  n : ℕ
  Ef : Fin n → Option ℝ
  Vf : Fin n → Option ℝ

/-- misc.py 272-304.  `f`, `ind` are M-by-1.  `np.amax` of an empty array and `np.zeros` of a negative
size raise `ValueError`. -/
noncomputable def conditional_expectations {M : ℕ} (f : Fin M → ℝ) (ind : Fin M → ℤ) :
    Except Err CondExp :=
  if h : 0 < M then
    let n := Finset.univ.sup' (f := ind) ⟨⟨0, h⟩, Finset.mem_univ _⟩ + 1
    if n < 0 then .error .valueError
    else .ok { n := n.toNat
               Ef := fun i => mean (select f ind (i : ℕ))
               Vf := fun i => var (select f ind (i : ℕ)) }
  else .error .valueError

/-! ## atleast_2d, misc.py 306-353 -/

/-- A Python argument: an ndarray, a list or tuple (given by the array `np.array` makes of it), or any
other object (a number). -/
inductive Obj where
  | arr (A : Arr)
  | seq (A : Arr)
  | other (x : ℝ)

/-- misc.py 338-341: conversion to an array. -/
def Obj.toArr : Obj → Arr
  | .arr A => A
  | .seq A => A
  | .other x => .vec 1 (fun _ => x)

/-- misc.py 325-353 `atleast_2d`.  `A[None,:]` on a 0-d array is an `IndexError`. -/
def atleast_2d (A : Obj) (oned_as : String) : Except Err Arr :=
  match A.toArr with
  | .scalar _ =>
    if oned_as = "row" then .error .indexError
    else if oned_as = "col" then .error .indexError
    else .error .exception
  | .vec n x =>
    if oned_as = "row" then .ok (.mat ⟨1, n, Matrix.of fun _ j => x j⟩)
    else if oned_as = "col" then .ok (.mat ⟨n, 1, Matrix.of fun i _ => x i⟩)
    else .error .exception
  | A => .ok A

/-- misc.py 307-314 -/
def atleast_2d_col (A : Obj) : Except Err Arr := atleast_2d A "col"

/-- misc.py 316-323 -/
def atleast_2d_row (A : Obj) : Except Err Arr := atleast_2d A "row"

end Model.Misc
