import Verif.Model.ResponseSurfaces
import Verif.Model.Domains

/-!
# Property C123: the methods left to subclasses
-/

open Py Model.Subspaces Model.Domains Model.Misc Model.ResponseSurfaces

namespace Props

/-- C123: `train` and `predict` of the base class of surfaces and both methods of the base class of normalizers raise `NotImplementedError` for every argument. -/
theorem C123_not_implemented {W : Type} (X f : Arr) (b : Bool) (w : W) : (baseTrain X f).run w = (.error .notImplementedError, w) ∧
    basePredict X b = .error .notImplementedError ∧ baseNormalize X = .error .notImplementedError ∧ baseUnnormalize X = .error .notImplementedError :=
  ⟨rfl, rfl, rfl, rfl⟩

/-- C123: `inverse` of the base class of maps checks its arguments and then raises `NotImplementedError`, also for objects that were never computed; it never
returns points and draws no random numbers. -/
theorem C123_inverse {W : Type} (s : Subspaces) (Y : Arr) (N : IntArg) (w : W) :
    (baseInverse s Y N).run w = (.error (if Y.ndim ≠ 2 then .valueError else match N with | .other => .typeError | .int _ => .notImplementedError), w) := by
  cases Y <;> cases N <;> rfl

/-- A two-dimensional array and an integer. -/
example (s : Subspaces) (Y : Matrix (Fin 3) (Fin 2) ℝ) (w : ℕ) : (baseInverse s (.mat (NpMat.of Y)) (.int (-1))).run w = (.error .notImplementedError, w) := by
  rw [C123_inverse]
  rfl

end Props
