import Verif.Model.Plotters

/-!
# What can be seen in a figure

Independent of how a figure is made: the curves, bands and markers in it, and whether the axis limits leave any of it out.
-/

namespace Spec

open Model.Plotters

/-- The curves of a figure, with whether the vertical axis is logarithmic. -/
def curvesOf (fig : List Draw) : List (Bool × List (ℝ × ℝ)) :=
  fig.filterMap fun | .line log p => some (log, p) | _ => none

/-- The shaded bands of a figure. -/
def bandsOf (fig : List Draw) : List (List (ℝ × ℝ × ℝ)) :=
  fig.filterMap fun | .band p => some p | _ => none

/-- The coloured markers of a figure: positions, colour values. -/
def markersOf (fig : List Draw) : List (List (ℝ × ℝ) × List ℝ) :=
  fig.filterMap fun | .points p c _ _ => some (p, c) | _ => none

/-- The titles of the panels of a figure. -/
def titlesOf (fig : List Draw) : List String := fig.filterMap fun | .title s => some s | _ => none

/-- The axis labels of a figure, horizontal before vertical. -/
def labelsOf (fig : List Draw) : List String :=
  (fig.filterMap fun | .xlabel s => some s | _ => none) ++ fig.filterMap fun | .ylabel s => some s | _ => none

/-- The panels whose ticks carry names. -/
def ticksOf (fig : List Draw) : List (List String) := fig.filterMap fun | .ticks l => some l | _ => none

/-- The points that a drawing command should make visible. -/
def dataOf : Draw → List (ℝ × ℝ)
  | .line _ p => p
  | .band p => (p.map fun q => (q.1, q.2.1)) ++ p.map fun q => (q.1, q.2.2)
  | .points p _ _ _ => p
  | .hull p => p
  | .mesh p => p
  | _ => []

/-- Every figure has axis limits, and no data lies outside them. -/
def Visible (fig : List Draw) : Prop :=
  (∃ a b c d, Draw.window a b c d ∈ fig) ∧
  ∀ a b c d, Draw.window a b c d ∈ fig → ∀ D ∈ fig, ∀ p ∈ dataOf D, a ≤ p.1 ∧ p.1 ≤ b ∧ c ≤ p.2 ∧ p.2 ≤ d

/-- `x`, run from `w`, succeeds, shows one new figure `fig`, and writes it, complete, to the file `name` if `save`, and nothing else. -/
def Reports (x : Py.PyM Plt Unit) (w : Plt) (save : Bool) (name : String) (fig : List Draw) : Prop :=
  (x.run w).1 = .ok () ∧ (x.run w).2.shown = fig :: (w.figures ++ w.shown) ∧
  (x.run w).2.files = (if save then [(name, fig)] else []) ++ w.files

end Spec
