import Verif.Model.Integrals
import Verif.Model.Rounded

/-!
# Means over groups and the estimate of `integrate` in floating point

The same lines as in `Model.Misc` and `Model.Integrals`, with `rd` applied to the result of every arithmetic operation.
-/

open Py Model.Misc Model.ResponseSurfaces Model.ActiveSurfaces

namespace Model.Rounded

/-- `np.sum` of a flat array in floating point; the order of the additions is up to the library. -/
abbrev Summation := List ℝ → ℝ

/-- `np.mean`: the sum is divided by the number of entries; `none` is nan. -/
noncomputable def mean (rd : ℝ → ℝ) (sm : Summation) (l : List ℝ) : Option ℝ :=
  if l.length = 0 then none else some (rd (sm l / l.length))

/-- `np.var`: the mean is subtracted, the differences are multiplied by themselves, and the mean of the products is taken. -/
noncomputable def var (rd : ℝ → ℝ) (sm : Summation) (l : List ℝ) : Option ℝ :=
  match mean rd sm l with
  | none => none
  | some mu => mean rd sm (l.map fun x => rd (rd (x - mu) * rd (x - mu)))

/-- misc.py 272-304 `conditional_expectations` -/
noncomputable def conditional_expectations (rd : ℝ → ℝ) (sm : Summation) {M : ℕ} (f : Fin M → ℝ) (ind : Fin M → ℤ) : Except Err CondExp :=
  if h : 0 < M then
    let n := Finset.univ.sup' (f := ind) ⟨⟨0, h⟩, Finset.mem_univ _⟩ + 1
    if n < 0 then .error .valueError
    else .ok { n := n.toNat
               Ef := fun i => mean rd sm (select f ind (i : ℕ))
               Vf := fun i => var rd sm (select f ind (i : ℕ)) }
  else .error .valueError

/-- misc.py 272-304, called with columns -/
noncomputable def condExp (rd : ℝ → ℝ) (sm : Summation) (f ind : NpMat) : Except Err CondExp :=
  if ind.rows = f.rows then conditional_expectations rd sm (fun i : Fin f.rows => f.get i 0) fun i => ⌊ind.get i 0⌋
  else .error .indexError

/-- integrals.py 66-80: the estimate and the bounds.  The literal `1.96` is the double nearest to it, and `np.sqrt` rounds the root. -/
noncomputable def estimate (rd : ℝ → ℝ) (d : Dot) (sm : Summation) (f Xw ind : NpMat) (NMC : ℤ) : Except Err (ℝ × ℝ × ℝ) := do
  let c ← condExp rd sm f ind
  let cw ← condExp rd sm (Xw.map fun t => rd (t * (NMC : ℝ))) ind
  let Ef := NpMat.of (colMat (column c.Ef))
  let Vf := NpMat.of (colMat (column c.Vf))
  let w := NpMat.of (colMat (column cw.Ef))
  let mu ← dot d Ef.transpose w
  let s ← dot d Vf.transpose (w.map fun t => rd (t * t))
  let sig2 := s.map fun t => rd (t / (NMC : ℝ))
  let lb ← NpMat.zipB (fun x y => rd (x - rd (rd 1.96 * rd (Real.sqrt y)))) mu sig2
  let ub ← NpMat.zipB (fun x y => rd (x + rd (rd 1.96 * rd (Real.sqrt y)))) mu sig2
  return (mu.get 0 0, lb.get 0 0, ub.get 0 0)

end Model.Rounded
