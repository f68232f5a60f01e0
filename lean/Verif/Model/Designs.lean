import Mathlib.Analysis.SpecialFunctions.Pow.Real
import Verif.Model.Misc
import Verif.Model.Multistart

/-!
# Model of `active_subspaces/utils/designs.py`
-/

open Py Model.Multistart

namespace Np

/-- `np.linspace(a, b, num)` -/
noncomputable def linspace (a b : ℝ) (num : ℕ) : Fin num → ℝ := fun i => a + (i : ℕ) * ((b - a) / ((num : ℝ) - 1))

end Np

namespace Model.Designs

variable {S E : Type} {N n V F : ℕ}

/-- designs.py 8-28 `interval_design`: `linspace(a, b, N+2)[1:-1]` as a column.  `linspace` raises
`ValueError` for a negative number of points. -/
noncomputable def interval_design (a b : ℝ) (N : ℤ) : Except Err Arr :=
  if N + 2 < 0 then .error .valueError
  else
    let num := (N + 2).toNat
    let y := Np.linspace a b num
    let inner : Fin (num - 2) → ℝ := fun i => y ⟨i + 1, by omega⟩
    Misc.atleast_2d_col (.arr (.vec (num - 2) inner))

/-! ## The objective of the maximin design -/

/-- `scipy.spatial.distance_matrix` -/
noncomputable def distance_matrix {a b : ℕ} (X : Matrix (Fin a) (Fin n) ℝ) (Y : Matrix (Fin b) (Fin n) ℝ) :
    Matrix (Fin a) (Fin b) ℝ :=
  Matrix.of fun i j => Real.sqrt (∑ k, (X i k - Y j k) ^ 2)

/-- designs.py 127-128, 161-162: squared distances among the points, 1e10 on the diagonal, flattened. -/
noncomputable def d0 (Y : Matrix (Fin N) (Fin n) ℝ) : Fin (N * N) → ℝ :=
  fun k => Np.ravel (distance_matrix Y Y + (1e5 : ℝ) • (1 : Matrix (Fin N) (Fin N) ℝ)) k ^ 2

/-- designs.py 132-133, 166-167: squared distances between points and vertices, flattened. -/
noncomputable def d1 (Y : Matrix (Fin N) (Fin n) ℝ) (vert : Matrix (Fin V) (Fin n) ℝ) : Fin (N * V) → ℝ :=
  fun k => Np.ravel (distance_matrix Y vert) k ^ 2

/-- designs.py 105-136 `_maximin_design_obj`.  `np.amin` of an empty array raises `ValueError`. -/
noncomputable def maximin_design_obj (y : Fin (N * n) → ℝ) (vert : Matrix (Fin V) (Fin n) ℝ) : Except Err ℝ := do
  let Y : Matrix (Fin N) (Fin n) ℝ := Np.reshape2 y
  let d0star ← Np.amin (d0 Y)
  let d1star ← Np.amin (d1 Y vert)
  let dstar := min d0star d1star
  return -dstar

open Classical in
/-- designs.py 138-187 `_maximin_design_grad`.  Simplified: the assignments `g[i*n + k] = ...` are written as a
case distinction on the row of the entry (the second assignment of the loop wins). -/
noncomputable def maximin_design_grad (y : Fin (N * n) → ℝ) (vert : Matrix (Fin V) (Fin n) ℝ) :
    Except Err (Fin (N * n) → ℝ) := do
  let v := Np.ravel vert
  let Y : Matrix (Fin N) (Fin n) ℝ := Np.reshape2 y
  let d0star ← Np.amin (d0 Y)
  let k0star ← Np.argmin (d0 Y)
  let d1star ← Np.amin (d1 Y vert)
  let k1star ← Np.argmin (d1 Y vert)
  let g : Fin (N * n) → ℝ :=
    if d0star < d1star then
      let istar := k0star.divNat
      let jstar := k0star.modNat
      fun p =>
        if p.divNat = jstar then 2 * (y (finProdFinEquiv (jstar, p.modNat)) - y (finProdFinEquiv (istar, p.modNat)))
        else if p.divNat = istar then 2 * (y (finProdFinEquiv (istar, p.modNat)) - y (finProdFinEquiv (jstar, p.modNat)))
        else 0
    else
      let istar := k1star.divNat
      let jstar := k1star.modNat
      fun p =>
        if p.divNat = istar then 2 * (y (finProdFinEquiv (istar, p.modNat)) - v (finProdFinEquiv (jstar, p.modNat)))
        else 0
  return fun p => -g p

/-! ## maximin_design -/

/-- designs.py 61-65: the constraint function `A x - b` with `A = kron(eye(N), equations[:,:n])` and
`b = kron(ones(N), equations[:,n])`. -/
def maximinCons (equations : Matrix (Fin F) (Fin (n + 1)) ℝ) (x : Fin (N * n) → ℝ) : Fin (N * F) → ℝ :=
  let A : Matrix (Fin (N * F)) (Fin (N * n)) ℝ :=
    Np.kron (1 : Matrix (Fin N) (Fin N) ℝ) (equations.submatrix id Fin.castSucc)
  let b : Fin (N * F) → ℝ := fun k => 1 * equations k.modNat (Fin.last n)
  fun k => A.mulVec x k - b k

/-- The SciPy routines used: the facet equations of `ConvexHull(vert)` and `minimize(..., method='SLSQP')`,
given the objective, its gradient, the `ineq` constraint function and the starting point. -/
structure Lib where
  hullFacets : {V n : ℕ} → Matrix (Fin V) (Fin n) ℝ → ℕ
  hull : {V n : ℕ} → (vert : Matrix (Fin V) (Fin n) ℝ) → Matrix (Fin (hullFacets vert)) (Fin (n + 1)) ℝ
  slsqp : {d c : ℕ} → ((Fin d → ℝ) → Except Err ℝ) → ((Fin d → ℝ) → Except Err (Fin d → ℝ)) →
    ((Fin d → ℝ) → Fin c → ℝ) → (Fin d → ℝ) → Except Err (OptRes (Fin d → ℝ))

/-- designs.py 30-87 `maximin_design`.  Simplified: `N` is a natural number. -/
noncomputable def maximin_design (lib : Lib) (rng : Rng S) (vert : Matrix (Fin V) (Fin n) ℝ) (N : ℕ) :
    PyM (S × E) (Matrix (Fin N) (Fin n) ℝ) := do
  let cons : (Fin (N * n) → ℝ) → Fin (N * lib.hullFacets vert) → ℝ := maximinCons (lib.hull vert)
  let minres ← multistart rng (rng.normal N n)
    (fun y0 => PyM.lift (lib.slsqp (fun y => maximin_design_obj (N := N) y vert)
      (fun y => maximin_design_grad (N := N) y vert) cons (Np.ravel y0))) 1e10 3
  return Np.reshape2 minres.x

end Model.Designs
