import Verif.NpReduce

/-!
# The multistart pattern

The same loop appears three times: designs.py 68-84, optimizers.py 329-345 and optimizers.py 385-398.
-/

open Py

namespace Model.Multistart

variable {S E α β : Type}

/-- The part of SciPy's `OptimizeResult` that is read: `success`, `x`, `fun`. -/
structure OptRes (β : Type) where
  success : Bool
  x : β
  f : ℝ

/-- The variables `minf`, `minres`; `none` is the initial `[]`. -/
structure Best (β : Type) where
  minf : ℝ
  minres : Option (OptRes β)

/-- designs.py 81-83, optimizers.py 340-342, 394-396 -/
noncomputable def Best.upd (b : Best β) (res : OptRes β) : Best β :=
  open Classical in
  if res.f < b.minf then ⟨res.f, some res⟩ else b

/-- designs.py 75-83, optimizers.py 333-342, 389-396: `k` starts; a failed run raises `Exception`. -/
noncomputable def loop (draw : S → α × S) (opt : α → PyM (S × E) (OptRes β)) :
    ℕ → Best β → PyM (S × E) (Best β)
  | 0, b => pure b
  | k + 1, b => do
    let y0 ← Rng.draw draw
    let res ← opt y0
    if res.success then loop draw opt k (b.upd res) else PyM.raise .exception

/-- designs.py 68-85, optimizers.py 329-346, 385-399: save the state, seed 42, loop, restore the state, take
the attributes of `minres` (`AttributeError` when it is still `[]`). -/
noncomputable def multistart (rng : Rng S) (draw : S → α × S) (opt : α → PyM (S × E) (OptRes β))
    (init : ℝ) (starts : ℕ) : PyM (S × E) (OptRes β) := do
  let curr_state ← Rng.get_state
  rng.seed 42
  let b ← loop draw opt starts ⟨init, none⟩
  Rng.set_state curr_state
  match b.minres with
  | some r => return r
  | none => PyM.raise .attributeError

end Model.Multistart
