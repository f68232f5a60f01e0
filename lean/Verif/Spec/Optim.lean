import Verif.Model.QPSolver

/-!
# Optimisation problems

What it means to solve a problem, and what the data given to SciPy and Gurobi mean.
-/

open Model.QPSolver

namespace Spec

/-- `x` minimises `f` over `F`. -/
def IsMinimiser {α : Type} (F : Set α) (f : α → ℝ) (x : α) : Prop := x ∈ F ∧ ∀ y ∈ F, f x ≤ f y

/-- A bound; `none` is infinite. -/
def InBounds (p : Option ℝ × Option ℝ) (x : ℝ) : Prop := (∀ l, p.1 = some l → l ≤ x) ∧ ∀ u, p.2 = some u → x ≤ u

/-- The feasible set of `linprog`; variables without a bound are non-negative. -/
def linprogSet {n : ℕ} (p : LinProg n) : Set (Fin n → ℝ) :=
  {x | (∀ i, ∑ j, p.A_ub i j * x j ≤ p.b_ub i) ∧ (∀ i, ∑ j, p.A_eq i j * x j = p.b_eq i) ∧
    ∀ j : Fin n, InBounds (p.bounds.getD j (some 0, none)) (x j)}

/-- The objective of `linprog`. -/
def linprogObj {n : ℕ} (p : LinProg n) (x : Fin n → ℝ) : ℝ := ∑ j, p.c j * x j

/-- The feasible set of `minimize`; variables without a bound are free. -/
def minimizeSet {n : ℕ} (p : MinProg n) : Set (Fin n → ℝ) :=
  {x | (∀ i, 0 ≤ p.con x i) ∧ ∀ j : Fin n, InBounds (p.bounds.getD j (none, none)) (x j)}

/-- The value of a linear expression. -/
def linValue (e : LinExpr) (x : ℕ → ℝ) : ℝ := (e.map fun t => t.1 * x t.2).sum

/-- The value of a quadratic expression. -/
def quadValue (e : QuadExpr) (x : ℕ → ℝ) : ℝ := (e.quad.map fun t => t.1 * x t.2.1 * x t.2.2).sum + linValue e.lin x

/-- The feasible set of a Gurobi model. -/
def gurobiSet (g : GModel) : Set (ℕ → ℝ) :=
  {x | (∀ t ∈ g.constrs, match t.2.1 with
      | .eq => linValue t.1 x = t.2.2
      | .ge => t.2.2 ≤ linValue t.1 x) ∧
    ∀ (j : ℕ) (h : j < g.vars.length), InBounds g.vars[j] (x j)}

end Spec
