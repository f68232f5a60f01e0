import Verif.NpReduce

/-!
# Model of `active_subspaces/utils/qp_solver.py`

The back ends (`scipy.optimize.linprog`, `scipy.optimize.minimize`, Gurobi) are parameters; what is modelled is the problem
each of them is given, and what is done with the answer.  Simplified: the arrays have the documented shapes.
-/

open Py

set_option linter.dupNamespace false

namespace Model.QPSolver

variable {S E : Type} {m n : ℕ}

/-- The arguments of `linprog(c, A_ub=, b_ub=, A_eq=, b_eq=, bounds=)`; `none` in a bound is `None`. -/
structure LinProg (n : ℕ) where
  c : Fin n → ℝ
  k_ub : ℕ := 0
  A_ub : Matrix (Fin k_ub) (Fin n) ℝ
  b_ub : Fin k_ub → ℝ
  k_eq : ℕ := 0
  A_eq : Matrix (Fin k_eq) (Fin n) ℝ
  b_eq : Fin k_eq → ℝ
  bounds : List (Option ℝ × Option ℝ)

/-- The arguments of `minimize(fun, x0, method=, jac=, bounds=, constraints=)`; an inequality constraint is a function that must
be non-negative, with its Jacobian. -/
structure MinProg (n : ℕ) where
  method : String
  func : (Fin n → ℝ) → ℝ
  jac : (Fin n → ℝ) → Fin n → ℝ
  x0 : Fin n → ℝ
  bounds : List (Option ℝ × Option ℝ) := []
  k : ℕ := 0
  con : (Fin n → ℝ) → Fin k → ℝ
  conjac : (Fin n → ℝ) → Matrix (Fin k) (Fin n) ℝ

/-- The fields `success` and `x` of a SciPy result. -/
structure OptResult (n : ℕ) where
  success : Bool
  x : Fin n → ℝ

/-! ## Gurobi models -/

/-- `gpy.LinExpr`: coefficients and indices of variables. -/
abbrev LinExpr := List (ℝ × ℕ)

/-- `gpy.QuadExpr` -/
structure QuadExpr where
  quad : List (ℝ × ℕ × ℕ)
  lin : LinExpr

/-- `expr += a*vars[j]` -/
def LinExpr.add (e : LinExpr) (a : ℝ) (j : ℕ) : LinExpr := e ++ [(a, j)]

/-- `obj += a*vars[i]*vars[j]` -/
def QuadExpr.addQuad (e : QuadExpr) (a : ℝ) (i j : ℕ) : QuadExpr := ⟨e.quad ++ [(a, i, j)], e.lin⟩

/-- `obj += a*vars[j]` -/
def QuadExpr.addLin (e : QuadExpr) (a : ℝ) (j : ℕ) : QuadExpr := ⟨e.quad, e.lin.add a j⟩

/-- `gpy.GRB.EQUAL`, `gpy.GRB.GREATER_EQUAL` -/
inductive Sense where
  | eq | ge

/-- A Gurobi model: bounds of the variables (`none` is infinite), constraints, objective to be minimised. -/
structure GModel where
  vars : List (Option ℝ × Option ℝ) := []
  constrs : List (LinExpr × Sense × ℝ) := []
  obj : QuadExpr := ⟨[], []⟩

/-- Status (is it `OPTIMAL`?) and values of the variables after `optimize`. -/
structure GResult where
  optimal : Bool
  x : ℕ → ℝ

/-- The back ends; `hasGurobi` is `HAS_GUROBI`. -/
structure Lib where
  hasGurobi : Bool
  linprog : {n : ℕ} → LinProg n → OptResult n
  minimize : {n : ℕ} → MinProg n → OptResult n
  optimize : GModel → GResult

/-! ## Failures -/

/-- The files written by `np.savez`: name without number, number. -/
abbrev Files := List (String × ℕ)

/-- `np.savez(kind.format(np.random.randint(int(1e9))), ...)` and `raise Exception` -/
def giveUp {α : Type} (rng : Rng S) (kind : String) : PyM (S × Files × E) α := do
  let r ← Rng.draw (rng.randint 999999999)
  PyM.modify fun w => (w.1, w.2.1 ++ [(kind, (r : ℕ))], w.2.2)
  PyM.raise .exception

/-- The end of every SciPy function. -/
def finishScipy (rng : Rng S) (kind : String) (res : OptResult n) : PyM (S × Files × E) (Fin n → ℝ) :=
  if res.success then pure res.x else giveUp rng kind

/-- The end of every Gurobi function. -/
def finishGurobi (rng : Rng S) (kind : String) (n : ℕ) (res : GResult) : PyM (S × Files × E) (Fin n → ℝ) :=
  if res.optimal then pure (fun j => res.x j) else giveUp rng kind

/-! ## SciPy -/

/-- qp_solver.py 190-207 `_scipy_linear_program_eq` -/
def scipy_linear_program_eq (lib : Lib) (rng : Rng S) (c : Fin n → ℝ) (A : Matrix (Fin m) (Fin n) ℝ) (b : Fin m → ℝ)
    (lb ub : Fin n → ℝ) : PyM (S × Files × E) (Fin n → ℝ) :=
  let bounds := (List.finRange n).foldl (fun l i => l ++ [(some (lb i), some (ub i))]) []
  finishScipy rng "bad_scipy_lp_eq"
    (lib.linprog { c := c, A_ub := 0, b_ub := 0, A_eq := A, b_eq := b, bounds := bounds })

/-- qp_solver.py 209-227 `_scipy_linear_program_ineq` -/
def scipy_linear_program_ineq (lib : Lib) (rng : Rng S) (c : Fin n → ℝ) (A : Matrix (Fin m) (Fin n) ℝ) (b : Fin m → ℝ) :
    PyM (S × Files × E) (Fin n → ℝ) :=
  let bounds := (List.finRange n).foldl (fun l _ => l ++ [(none, none)]) []
  finishScipy rng "bad_scipy_lp_ineq"
    (lib.linprog { c := c, A_ub := -A, b_ub := -b, A_eq := 0, b_eq := 0, bounds := bounds })

/-- qp_solver.py 232-234, 265-267: `fun` -/
def quadFun (c : Fin n → ℝ) (Q : Matrix (Fin n) (Fin n) ℝ) (x : Fin n → ℝ) : ℝ := x ⬝ᵥ c + x ⬝ᵥ Q.mulVec x

/-- qp_solver.py 236-238, 269-271: `jac` -/
def quadJac (c : Fin n → ℝ) (Q : Matrix (Fin n) (Fin n) ℝ) (x : Fin n → ℝ) : Fin n → ℝ := fun j => c j + 2 * Matrix.vecMul x Q j

/-- qp_solver.py 229-258 `_scipy_quadratic_program_bnd` -/
def scipy_quadratic_program_bnd (lib : Lib) (rng : Rng S) (c : Fin n → ℝ) (Q : Matrix (Fin n) (Fin n) ℝ)
    (lb ub : Fin n → ℝ) : PyM (S × Files × E) (Fin n → ℝ) :=
  let bounds := (List.finRange n).foldl (fun l i => l ++ [(some (lb i), some (ub i))]) []
  finishScipy rng "bad_scipy_qp_bnd"
    (lib.minimize { method := "L-BFGS-B", func := quadFun c Q, jac := quadJac c Q, x0 := fun _ => 0, bounds := bounds
                    con := fun _ => Fin.elim0, conjac := fun _ => 0 })

/-- qp_solver.py 260-291 `_scipy_quadratic_program_ineq` -/
def scipy_quadratic_program_ineq (lib : Lib) (rng : Rng S) (c : Fin n → ℝ) (Q : Matrix (Fin n) (Fin n) ℝ)
    (A : Matrix (Fin m) (Fin n) ℝ) (b : Fin m → ℝ) : PyM (S × Files × E) (Fin n → ℝ) :=
  finishScipy rng "bad_scipy_qp_ineq"
    (lib.minimize { method := "SLSQP", func := quadFun c Q, jac := quadJac c Q, x0 := fun _ => 0, k := m
                    con := fun x i => A.mulVec x i - b i, conjac := fun _ => A })

/-! ## Gurobi -/

/-- `for j in range(n): vars.append(model.addVar(lb=, ub=))` -/
def addVars (n : ℕ) (lb ub : Fin n → Option ℝ) (g : GModel) : GModel :=
  (List.finRange n).foldl (fun g j => { g with vars := g.vars ++ [(lb j, ub j)] }) g

/-- The loop that builds one row of linear constraints, or the linear objective. -/
def linExpr (a : Fin n → ℝ) : LinExpr := (List.finRange n).foldl (fun e j => e.add (a j) j) []

/-- The loop over the rows of `A`. -/
def addConstrs (A : Matrix (Fin m) (Fin n) ℝ) (s : Sense) (b : Fin m → ℝ) (g : GModel) : GModel :=
  (List.finRange m).foldl (fun g i => { g with constrs := g.constrs ++ [(linExpr (A i), s, b i)] }) g

/-- The loops that build the quadratic objective. -/
def quadExpr (c : Fin n → ℝ) (Q : Matrix (Fin n) (Fin n) ℝ) : QuadExpr :=
  let q := (List.finRange n).foldl (fun e i => (List.finRange n).foldl (fun e j => e.addQuad (Q i j) i j) e) ⟨[], []⟩
  (List.finRange n).foldl (fun e j => e.addLin (c j) j) q

/-- qp_solver.py 293-328 `_gurobi_linear_program_eq` -/
def gurobi_linear_program_eq (lib : Lib) (rng : Rng S) (c : Fin n → ℝ) (A : Matrix (Fin m) (Fin n) ℝ) (b : Fin m → ℝ)
    (lb ub : Fin n → ℝ) : PyM (S × Files × E) (Fin n → ℝ) :=
  let g := addVars n (fun j => some (lb j)) (fun j => some (ub j)) {}
  let g := addConstrs A .eq b g
  finishGurobi rng "bad_gurobi_lp_eq" n (lib.optimize { g with obj := ⟨[], linExpr c⟩ })

/-- qp_solver.py 331-367 `_gurobi_linear_program_ineq` -/
def gurobi_linear_program_ineq (lib : Lib) (rng : Rng S) (c : Fin n → ℝ) (A : Matrix (Fin m) (Fin n) ℝ) (b : Fin m → ℝ) :
    PyM (S × Files × E) (Fin n → ℝ) :=
  let g := addVars n (fun _ => none) (fun _ => none) {}
  let g := addConstrs A .ge b g
  finishGurobi rng "bad_gurobi_lp_ineq" n (lib.optimize { g with obj := ⟨[], linExpr c⟩ })

/-- qp_solver.py 369-401 `_gurobi_quadratic_program_bnd` -/
def gurobi_quadratic_program_bnd (lib : Lib) (rng : Rng S) (c : Fin n → ℝ) (Q : Matrix (Fin n) (Fin n) ℝ)
    (lb ub : Fin n → ℝ) : PyM (S × Files × E) (Fin n → ℝ) :=
  let g := addVars n (fun j => some (lb j)) (fun j => some (ub j)) {}
  finishGurobi rng "bad_gurobi_qp_bnd" n (lib.optimize { g with obj := quadExpr c Q })

/-- qp_solver.py 403-443 `_gurobi_quadratic_program_ineq` -/
def gurobi_quadratic_program_ineq (lib : Lib) (rng : Rng S) (c : Fin n → ℝ) (Q : Matrix (Fin n) (Fin n) ℝ)
    (A : Matrix (Fin m) (Fin n) ℝ) (b : Fin m → ℝ) : PyM (S × Files × E) (Fin n → ℝ) :=
  let g := addVars n (fun _ => none) (fun _ => none) {}
  let g := addConstrs A .ge b g
  finishGurobi rng "bad_gurobi_qp_ineq" n (lib.optimize { g with obj := quadExpr c Q })

/-! ## The class -/

/-- The attribute `solver`. -/
structure QPSolver where
  solver : String

/-- qp_solver.py 33-48 `__init__` -/
def QPSolver.init (lib : Lib) (solver : String := "GUROBI") : QPSolver :=
  if solver = "GUROBI" ∧ lib.hasGurobi then ⟨"GUROBI"⟩
  else if solver = "SCIPY" then ⟨"SCIPY"⟩
  else ⟨"SCIPY"⟩

/-- qp_solver.py 80-85, 112-117, 146-151, 183-188: dispatch on the attribute. -/
def QPSolver.dispatch {α : Type} (q : QPSolver) (scipy gurobi : PyM (S × Files × E) α) : PyM (S × Files × E) α :=
  if q.solver = "SCIPY" then scipy
  else if q.solver = "GUROBI" then gurobi
  else PyM.raise .valueError

/-- qp_solver.py 51-85 -/
def QPSolver.linear_program_eq (lib : Lib) (rng : Rng S) (q : QPSolver) (c : Fin n → ℝ) (A : Matrix (Fin m) (Fin n) ℝ)
    (b : Fin m → ℝ) (lb ub : Fin n → ℝ) : PyM (S × Files × E) (Fin n → ℝ) :=
  q.dispatch (scipy_linear_program_eq lib rng c A b lb ub) (gurobi_linear_program_eq lib rng c A b lb ub)

/-- qp_solver.py 87-117 -/
def QPSolver.linear_program_ineq (lib : Lib) (rng : Rng S) (q : QPSolver) (c : Fin n → ℝ) (A : Matrix (Fin m) (Fin n) ℝ)
    (b : Fin m → ℝ) : PyM (S × Files × E) (Fin n → ℝ) :=
  q.dispatch (scipy_linear_program_ineq lib rng c A b) (gurobi_linear_program_ineq lib rng c A b)

/-- qp_solver.py 119-151 -/
def QPSolver.quadratic_program_bnd (lib : Lib) (rng : Rng S) (q : QPSolver) (c : Fin n → ℝ) (Q : Matrix (Fin n) (Fin n) ℝ)
    (lb ub : Fin n → ℝ) : PyM (S × Files × E) (Fin n → ℝ) :=
  q.dispatch (scipy_quadratic_program_bnd lib rng c Q lb ub) (gurobi_quadratic_program_bnd lib rng c Q lb ub)

/-- qp_solver.py 153-188 -/
def QPSolver.quadratic_program_ineq (lib : Lib) (rng : Rng S) (q : QPSolver) (c : Fin n → ℝ) (Q : Matrix (Fin n) (Fin n) ℝ)
    (A : Matrix (Fin m) (Fin n) ℝ) (b : Fin m → ℝ) : PyM (S × Files × E) (Fin n → ℝ) :=
  q.dispatch (scipy_quadratic_program_ineq lib rng c Q A b) (gurobi_quadratic_program_ineq lib rng c Q A b)

end Model.QPSolver
