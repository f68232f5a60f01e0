import Verif.Py
import Verif.Model.Subspaces

/-!
# Calls that are refused
-/

open Py

namespace Spec

/-- The call raises `e`, whatever the state of the world (random numbers, files, objects), and leaves it as it was. -/
def Refused {W α : Type} (x : PyM W α) (e : Err) : Prop := ∀ w, x.run w = (.error e, w)

/-- A `Subspaces` on which `compute` was not called. -/
structure Fresh (s : Model.Subspaces.Subspaces) : Prop where
  eigenvecs : s.eigenvecs = none
  W1 : s.W1 = none
  W2 : s.W2 = none

end Spec
