import Verif.Model.RoundedMeans
import Verif.Model.Subspaces

/-!
# `errbnd_partition` and `ladle_partition` in floating point
-/

open Py Model.ResponseSurfaces

namespace Model.Rounded

/-- subspaces.py 350-384 `errbnd_partition`.  The sums are over the slices `e[:i+1]` and `e[i+1:]`, and `np.sqrt` is correctly rounded. -/
noncomputable def errbnd_partition (rd : ℝ → ℝ) (sm : Summation) {m : ℕ} (e : Fin m → ℝ) (sub_err : NpVec) : Except Err (ℕ × (Fin (m - 1) → ℝ)) :=
  if m = 0 then .error .valueError
  else if h : m - 1 ≤ sub_err.n then do
    let errbnd : Fin (m - 1) → ℝ := fun i =>
      rd (rd (rd (Real.sqrt (sm ((List.ofFn e).take (i + 1)))) * sub_err.val (Fin.castLE h i))
        + rd (Real.sqrt (sm ((List.ofFn e).drop (i + 1)))))
    let n ← Np.argmin errbnd
    return (n + 1, errbnd)
  else .error .indexError

/-- subspaces.py 386-409 `ladle_partition`, for an `li_F` without nan; `none` is nan. -/
noncomputable def ladle_partition (rd : ℝ → ℝ) (sm : Summation) {m : ℕ} (e : Fin m → ℝ) (li_F : Fin m → ℝ) : Except Err (ℕ × (Fin m → Option ℝ)) := do
  let G : Fin m → Option ℝ := fun i => (Np.divNan (e i) (sm (List.ofFn e))).map fun b => rd (li_F i + rd b)
  let n ← Np.argminNan G
  return (n + 1, G)

end Model.Rounded
