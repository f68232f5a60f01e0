import Mathlib.Analysis.Calculus.Deriv.Add
import Mathlib.Analysis.Calculus.Deriv.Mul
import Mathlib.Analysis.Calculus.Deriv.Pow
import Mathlib.LinearAlgebra.Matrix.PosDef
import Verif.Spec.Optim

/-!
# Properties C65, C66 and C67: `QPSolver`
-/

open Py Model.QPSolver Spec Matrix

namespace Props

variable {S E : Type} {m n : ℕ}

/-! ## The documented problems -/

/-- qp_solver.py 56-58 -/
def lpEqSet (A : Matrix (Fin m) (Fin n) ℝ) (b : Fin m → ℝ) (lb ub : Fin n → ℝ) : Set (Fin n → ℝ) :=
  {x | (∀ i, ∑ j, A i j * x j = b i) ∧ ∀ j, lb j ≤ x j ∧ x j ≤ ub j}

/-- qp_solver.py 93, 160: `A x >= b` -/
def ineqSet (A : Matrix (Fin m) (Fin n) ℝ) (b : Fin m → ℝ) : Set (Fin n → ℝ) := {x | ∀ i, b i ≤ ∑ j, A i j * x j}

/-- `lb <= x <= ub` -/
def boxSet (lb ub : Fin n → ℝ) : Set (Fin n → ℝ) := {x | ∀ j, lb j ≤ x j ∧ x j ≤ ub j}

/-- `c^T x` -/
def linObj (c x : Fin n → ℝ) : ℝ := ∑ j, c j * x j

/-- `c^T x + x^T Q x` -/
def quadObj (c : Fin n → ℝ) (Q : Matrix (Fin n) (Fin n) ℝ) (x : Fin n → ℝ) : ℝ := ∑ j, c j * x j + ∑ i, ∑ j, x i * Q i j * x j

/-! ## The problems handed to the back ends -/

theorem foldl_append {α β : Type} (g : α → β) (l : List α) (a : List β) :
    l.foldl (fun l i => l ++ [g i]) a = a ++ l.map g := by
  induction l generalizing a with
  | nil => simp
  | cons x l ih => rw [List.foldl_cons, ih]; simp

theorem bounds_getD (g : Fin n → Option ℝ × Option ℝ) (d : Option ℝ × Option ℝ) (j : Fin n) :
    ((List.finRange n).foldl (fun l i => l ++ [g i]) []).getD j d = g j := by
  rw [foldl_append, List.nil_append, List.getD_eq_getElem?_getD]
  simp

theorem inBounds_some (l u x : ℝ) : InBounds (some l, some u) x ↔ l ≤ x ∧ x ≤ u := by simp [InBounds]

theorem inBounds_none (x : ℝ) : InBounds (none, none) x := by simp [InBounds]

theorem linValue_linExpr (a : Fin n → ℝ) (x : ℕ → ℝ) : linValue (linExpr a) x = ∑ j, a j * x j := by
  unfold linExpr LinExpr.add
  rw [foldl_append (fun j : Fin n => (a j, (j : ℕ))), List.nil_append, linValue, List.map_map, ← List.ofFn_eq_map, List.sum_ofFn]
  rfl

theorem addLin_foldl (c : Fin n → ℝ) (l : List (Fin n)) (q : QuadExpr) :
    l.foldl (fun e j => e.addLin (c j) j) q = ⟨q.quad, q.lin ++ l.map fun j => (c j, (j : ℕ))⟩ := by
  induction l generalizing q with
  | nil => simp
  | cons x l ih => rw [List.foldl_cons, ih]; simp [QuadExpr.addLin, LinExpr.add]

theorem addQuad_foldl (a : Fin n → ℝ) (i : ℕ) (l : List (Fin n)) (q : QuadExpr) :
    l.foldl (fun e j => e.addQuad (a j) i j) q = ⟨q.quad ++ l.map fun j => (a j, i, (j : ℕ)), q.lin⟩ := by
  induction l generalizing q with
  | nil => simp
  | cons x l ih => rw [List.foldl_cons, ih]; simp [QuadExpr.addQuad]

theorem addQuad_foldl2 (Q : Matrix (Fin n) (Fin n) ℝ) (l : List (Fin n)) (q : QuadExpr) :
    l.foldl (fun e i => (List.finRange n).foldl (fun e j => e.addQuad (Q i j) i j) e) q
      = ⟨q.quad ++ l.flatMap fun i => (List.finRange n).map fun j => (Q i j, (i : ℕ), (j : ℕ)), q.lin⟩ := by
  induction l generalizing q with
  | nil => simp
  | cons x l ih => rw [List.foldl_cons, ih, addQuad_foldl]; simp

theorem quadValue_quadExpr (c : Fin n → ℝ) (Q : Matrix (Fin n) (Fin n) ℝ) (x : ℕ → ℝ) :
    quadValue (quadExpr c Q) x = quadObj c Q fun j => x j := by
  unfold quadExpr
  simp only
  rw [addQuad_foldl2, addLin_foldl, quadValue, quadObj]
  simp only [List.nil_append]
  rw [add_comm]
  congr 1
  · rw [linValue, List.map_map, ← List.ofFn_eq_map, List.sum_ofFn]
    rfl
  · rw [List.map_flatMap, List.flatMap_def, List.sum_flatten, List.map_map, ← List.ofFn_eq_map, List.sum_ofFn]
    refine Finset.sum_congr rfl fun i _ => ?_
    simp only [Function.comp, List.map_map]
    rw [← List.ofFn_eq_map, List.sum_ofFn]
    refine Finset.sum_congr rfl fun j _ => ?_
    simp only [Function.comp]
    ring

theorem addVars_eq (lb ub : Fin n → Option ℝ) (g : GModel) :
    addVars n lb ub g = { g with vars := g.vars ++ (List.finRange n).map fun j => (lb j, ub j) } := by
  unfold addVars
  generalize List.finRange n = l
  induction l generalizing g with
  | nil => simp
  | cons x l ih => rw [List.foldl_cons, ih]; simp

theorem addConstrs_eq (A : Matrix (Fin m) (Fin n) ℝ) (s : Sense) (b : Fin m → ℝ) (g : GModel) :
    addConstrs A s b g = { g with constrs := g.constrs ++ (List.finRange m).map fun i => (linExpr (A i), s, b i) } := by
  unfold addConstrs
  generalize List.finRange m = l
  induction l generalizing g with
  | nil => simp
  | cons x l ih => rw [List.foldl_cons, ih]; simp

/-- Extend a point by zeros. -/
noncomputable def extend (x : Fin n → ℝ) : ℕ → ℝ := fun j => if h : j < n then x ⟨j, h⟩ else 0

theorem extend_fin (x : Fin n → ℝ) (j : Fin n) : extend x j = x j := by simp [extend]

/-- A minimiser of a Gurobi problem that stands for `F`, `f` gives a minimiser of `f` over `F`. -/
theorem minimiser_of_gurobi {F : Set (Fin n → ℝ)} {f : (Fin n → ℝ) → ℝ} {G : Set (ℕ → ℝ)} {g : (ℕ → ℝ) → ℝ}
    (hF : ∀ x, x ∈ G ↔ (fun j : Fin n => x j) ∈ F) (hf : ∀ x, g x = f fun j : Fin n => x j) {x : ℕ → ℝ} (h : IsMinimiser G g x) :
    IsMinimiser F f fun j : Fin n => x j := by
  refine ⟨(hF x).mp h.1, fun y hy => ?_⟩
  have he : (fun j : Fin n => extend y j) = y := funext fun j => extend_fin y j
  have := h.2 (extend y) ((hF _).mpr (by rw [he]; exact hy))
  rwa [hf, hf, he] at this

theorem mem_boxes (lb ub : Fin n → Option ℝ) (x : ℕ → ℝ) :
    (∀ (j : ℕ) (h : j < ((List.finRange n).map fun j => (lb j, ub j)).length),
      InBounds ((List.finRange n).map fun j => (lb j, ub j))[j] (x j)) ↔ ∀ j : Fin n, InBounds (lb j, ub j) (x j) := by
  constructor
  · intro h j
    have := h j (by simp)
    simpa using this
  · intro h j hj
    have hj' : j < n := by simpa using hj
    have := h ⟨j, hj'⟩
    simpa using this

/-! ## C65 -/

/-- C65 for `linear_program_eq`: both back ends are given the documented problem. -/
theorem C65_linear_eq (c : Fin n → ℝ) (A : Matrix (Fin m) (Fin n) ℝ) (b : Fin m → ℝ) (lb ub : Fin n → ℝ) (lib : Lib)
    (rng : Rng S) :
    (∃ p : LinProg n, (scipy_linear_program_eq lib rng c A b lb ub : PyM (S × Files × E) _)
        = finishScipy rng "bad_scipy_lp_eq" (lib.linprog p) ∧ linprogSet p = lpEqSet A b lb ub ∧ linprogObj p = linObj c) ∧
    ∃ g : GModel, (gurobi_linear_program_eq lib rng c A b lb ub : PyM (S × Files × E) _)
        = finishGurobi rng "bad_gurobi_lp_eq" n (lib.optimize g) ∧
      (∀ x, x ∈ gurobiSet g ↔ (fun j : Fin n => x j) ∈ lpEqSet A b lb ub) ∧
      ∀ x, quadValue g.obj x = linObj c fun j : Fin n => x j := by
  refine ⟨⟨_, rfl, ?_, rfl⟩, ⟨_, rfl, fun x => ?_, fun x => ?_⟩⟩
  · ext x
    simp only [linprogSet, lpEqSet, Set.mem_setOf_eq, bounds_getD (fun i : Fin n => (some (lb i), some (ub i))), inBounds_some]
    constructor
    · exact fun h => ⟨h.2.1, h.2.2⟩
    · exact fun h => ⟨fun i => i.elim0, h.1, h.2⟩
  · rw [addConstrs_eq, addVars_eq]
    simp only [gurobiSet, lpEqSet, Set.mem_setOf_eq, List.nil_append]
    rw [mem_boxes]
    simp only [inBounds_some, List.mem_map, List.mem_finRange, true_and]
    refine and_congr ⟨fun h i => ?_, ?_⟩ Iff.rfl
    · have := h _ ⟨i, rfl⟩
      rwa [linValue_linExpr] at this
    · rintro h _ ⟨i, rfl⟩
      simp only [linValue_linExpr]
      exact h i
  · simp only [quadValue, List.map_nil, List.sum_nil, zero_add, linValue_linExpr]
    rfl

/-- C65 for `linear_program_ineq`. -/
theorem C65_linear_ineq (c : Fin n → ℝ) (A : Matrix (Fin m) (Fin n) ℝ) (b : Fin m → ℝ) (lib : Lib) (rng : Rng S) :
    (∃ p : LinProg n, (scipy_linear_program_ineq lib rng c A b : PyM (S × Files × E) _)
        = finishScipy rng "bad_scipy_lp_ineq" (lib.linprog p) ∧ linprogSet p = ineqSet A b ∧ linprogObj p = linObj c) ∧
    ∃ g : GModel, (gurobi_linear_program_ineq lib rng c A b : PyM (S × Files × E) _)
        = finishGurobi rng "bad_gurobi_lp_ineq" n (lib.optimize g) ∧
      (∀ x, x ∈ gurobiSet g ↔ (fun j : Fin n => x j) ∈ ineqSet A b) ∧
      ∀ x, quadValue g.obj x = linObj c fun j : Fin n => x j := by
  refine ⟨⟨_, rfl, ?_, rfl⟩, ⟨_, rfl, fun x => ?_, fun x => ?_⟩⟩
  · ext x
    simp only [linprogSet, ineqSet, Set.mem_setOf_eq, bounds_getD (fun _ : Fin n => ((none : Option ℝ), (none : Option ℝ))),
      inBounds_none, Matrix.neg_apply, Pi.neg_apply, neg_mul, Finset.sum_neg_distrib, neg_le_neg_iff]
    constructor
    · exact fun h => h.1
    · exact fun h => ⟨h, fun i => i.elim0, fun _ => trivial⟩
  · rw [addConstrs_eq, addVars_eq]
    simp only [gurobiSet, ineqSet, Set.mem_setOf_eq, List.nil_append]
    rw [mem_boxes]
    simp only [inBounds_none, List.mem_map, List.mem_finRange, true_and]
    refine ⟨fun h i => ?_, fun h => ⟨?_, fun _ => trivial⟩⟩
    · have := h.1 _ ⟨i, rfl⟩
      rwa [linValue_linExpr] at this
    · rintro _ ⟨i, rfl⟩
      simp only [linValue_linExpr]
      exact h i
  · simp only [quadValue, List.map_nil, List.sum_nil, zero_add, linValue_linExpr]
    rfl

theorem quadFun_eq (c : Fin n → ℝ) (Q : Matrix (Fin n) (Fin n) ℝ) : quadFun c Q = quadObj c Q := by
  funext x
  simp only [quadFun, quadObj, dotProduct, Matrix.mulVec, Finset.mul_sum]
  congr 1
  · exact Finset.sum_congr rfl fun j _ => mul_comm _ _
  · exact Finset.sum_congr rfl fun i _ => Finset.sum_congr rfl fun j _ => by ring

/-- C65 for `quadratic_program_bnd`. -/
theorem C65_quadratic_bnd (c : Fin n → ℝ) (Q : Matrix (Fin n) (Fin n) ℝ) (lb ub : Fin n → ℝ) (lib : Lib) (rng : Rng S) :
    (∃ p : MinProg n, (scipy_quadratic_program_bnd lib rng c Q lb ub : PyM (S × Files × E) _)
        = finishScipy rng "bad_scipy_qp_bnd" (lib.minimize p) ∧ minimizeSet p = boxSet lb ub ∧ p.func = quadObj c Q ∧
        p.jac = quadJac c Q ∧ p.x0 = 0 ∧ p.method = "L-BFGS-B") ∧
    ∃ g : GModel, (gurobi_quadratic_program_bnd lib rng c Q lb ub : PyM (S × Files × E) _)
        = finishGurobi rng "bad_gurobi_qp_bnd" n (lib.optimize g) ∧
      (∀ x, x ∈ gurobiSet g ↔ (fun j : Fin n => x j) ∈ boxSet lb ub) ∧
      ∀ x, quadValue g.obj x = quadObj c Q fun j : Fin n => x j := by
  refine ⟨⟨_, rfl, ?_, quadFun_eq c Q, rfl, rfl, rfl⟩, ⟨_, rfl, fun x => ?_, fun x => quadValue_quadExpr c Q x⟩⟩
  · ext x
    simp only [minimizeSet, boxSet, Set.mem_setOf_eq, bounds_getD (fun i : Fin n => (some (lb i), some (ub i))), inBounds_some]
    exact ⟨fun h => h.2, fun h => ⟨fun i => i.elim0, h⟩⟩
  · rw [addVars_eq]
    simp only [gurobiSet, boxSet, Set.mem_setOf_eq, List.nil_append]
    rw [mem_boxes]
    simp only [inBounds_some, List.not_mem_nil, false_imp_iff, implies_true, true_and]

/-- C65 for `quadratic_program_ineq`. -/
theorem C65_quadratic_ineq (c : Fin n → ℝ) (Q : Matrix (Fin n) (Fin n) ℝ) (A : Matrix (Fin m) (Fin n) ℝ) (b : Fin m → ℝ)
    (lib : Lib) (rng : Rng S) :
    (∃ p : MinProg n, (scipy_quadratic_program_ineq lib rng c Q A b : PyM (S × Files × E) _)
        = finishScipy rng "bad_scipy_qp_ineq" (lib.minimize p) ∧ minimizeSet p = ineqSet A b ∧ p.func = quadObj c Q ∧
        p.jac = quadJac c Q ∧ p.x0 = 0 ∧ p.method = "SLSQP") ∧
    ∃ g : GModel, (gurobi_quadratic_program_ineq lib rng c Q A b : PyM (S × Files × E) _)
        = finishGurobi rng "bad_gurobi_qp_ineq" n (lib.optimize g) ∧
      (∀ x, x ∈ gurobiSet g ↔ (fun j : Fin n => x j) ∈ ineqSet A b) ∧
      ∀ x, quadValue g.obj x = quadObj c Q fun j : Fin n => x j := by
  refine ⟨⟨_, rfl, ?_, quadFun_eq c Q, rfl, rfl, rfl⟩, ⟨_, rfl, fun x => ?_, fun x => quadValue_quadExpr c Q x⟩⟩
  · ext x
    simp only [minimizeSet, ineqSet, Set.mem_setOf_eq, List.getD_nil, inBounds_none, implies_true, and_true, sub_nonneg]
    rfl
  · rw [addConstrs_eq, addVars_eq]
    simp only [gurobiSet, ineqSet, Set.mem_setOf_eq, List.nil_append]
    rw [mem_boxes]
    simp only [inBounds_none, List.mem_map, List.mem_finRange, true_and]
    refine ⟨fun h i => ?_, fun h => ⟨?_, fun _ => trivial⟩⟩
    · have := h.1 _ ⟨i, rfl⟩
      rwa [linValue_linExpr] at this
    · rintro _ ⟨i, rfl⟩
      simp only [linValue_linExpr]
      exact h i

/-! ## Contracts of the back ends -/

/-- `linprog` and Gurobi report success only with a minimiser of the problem they were given.  `minimize` (SLSQP, L-BFGS-B)
reports success only with a feasible point at which the gradient it was given admits no first-order descent inside the
feasible set. -/
structure QPLibOK (lib : Lib) : Prop where
  linprog : ∀ {n : ℕ} (p : LinProg n), (lib.linprog p).success = true →
    IsMinimiser (linprogSet p) (linprogObj p) (lib.linprog p).x
  optimize : ∀ g, (lib.optimize g).optimal = true → IsMinimiser (gurobiSet g) (quadValue g.obj) (lib.optimize g).x
  minimize : ∀ {n : ℕ} (p : MinProg n), (lib.minimize p).success = true → (lib.minimize p).x ∈ minimizeSet p ∧
    ∀ y ∈ minimizeSet p, 0 ≤ ∑ j, p.jac (lib.minimize p).x j * (y j - (lib.minimize p).x j)

/-- Contracts can be met: solvers that find a solution when there is one. -/
theorem qpLibOK_exists (b : Bool) : ∃ lib : Lib, QPLibOK lib ∧ lib.hasGurobi = b ∧
    (∀ (n : ℕ) (p : LinProg n) x, IsMinimiser (linprogSet p) (linprogObj p) x → (lib.linprog p).success = true) ∧
    (∀ g x, IsMinimiser (gurobiSet g) (quadValue g.obj) x → (lib.optimize g).optimal = true) ∧
    ∀ (n : ℕ) (p : MinProg n) x, (x ∈ minimizeSet p ∧ ∀ y ∈ minimizeSet p, 0 ≤ ∑ j, p.jac x j * (y j - x j)) →
      (lib.minimize p).success = true := by
  classical
  refine ⟨{ hasGurobi := b
            linprog := fun p => if h : ∃ x, IsMinimiser (linprogSet p) (linprogObj p) x then ⟨true, h.choose⟩ else ⟨false, 0⟩
            minimize := fun p => if h : ∃ x, x ∈ minimizeSet p ∧ ∀ y ∈ minimizeSet p, 0 ≤ ∑ j, p.jac x j * (y j - x j)
              then ⟨true, h.choose⟩ else ⟨false, 0⟩
            optimize := fun g => if h : ∃ x, IsMinimiser (gurobiSet g) (quadValue g.obj) x then ⟨true, h.choose⟩
              else ⟨false, 0⟩ }, ⟨?_, ?_, ?_⟩, rfl, ?_, ?_, ?_⟩
  · intro n p h
    dsimp only at h ⊢
    split_ifs at h ⊢ with h1
    exact h1.choose_spec
  · intro g h
    simp only at h ⊢
    split_ifs at h ⊢ with h1
    exact h1.choose_spec
  · intro n p h
    dsimp only at h ⊢
    split_ifs at h ⊢ with h1
    exact h1.choose_spec
  · intro n p x hx
    dsimp only
    rw [dif_pos ⟨x, hx⟩]
  · intro g x hx
    simp only
    rw [dif_pos ⟨x, hx⟩]
  · intro n p x hx
    dsimp only
    rw [dif_pos ⟨x, hx⟩]

/-- First-order optimality is enough when `Q` is symmetric and positive semidefinite. -/
theorem minimiser_of_stationary {F : Set (Fin n → ℝ)} {c : Fin n → ℝ} {Q : Matrix (Fin n) (Fin n) ℝ} (hQ : Q.PosSemidef)
    {x : Fin n → ℝ} (hx : x ∈ F) (h : ∀ y ∈ F, 0 ≤ ∑ j, quadJac c Q x j * (y j - x j)) : IsMinimiser F (quadObj c Q) x := by
  refine ⟨hx, fun y hy => ?_⟩
  have hsym : ∀ i j, Q i j = Q j i := fun i j => by
    have := congrFun (congrFun hQ.1 j) i
    simpa [Matrix.conjTranspose] using this
  have hpsd := hQ.dotProduct_mulVec_nonneg (y - x)
  have hs := h y hy
  have e1 : quadObj c Q y - quadObj c Q x - ∑ j, quadJac c Q x j * (y j - x j) = star (y - x) ⬝ᵥ Q.mulVec (y - x) := by
    have hsw : ∑ i, ∑ j, y i * Q i j * x j = ∑ i, ∑ j, x i * Q i j * y j := by
      rw [Finset.sum_comm]
      exact Finset.sum_congr rfl fun i _ => Finset.sum_congr rfl fun j _ => by rw [hsym j i]; ring
    have e2 : star (y - x) ⬝ᵥ Q.mulVec (y - x)
        = ∑ i, ∑ j, y i * Q i j * y j - ∑ i, ∑ j, y i * Q i j * x j - ∑ i, ∑ j, x i * Q i j * y j
          + ∑ i, ∑ j, x i * Q i j * x j := by
      simp only [dotProduct, Matrix.mulVec, star_trivial, Pi.sub_apply, Finset.mul_sum, ← Finset.sum_sub_distrib,
        ← Finset.sum_add_distrib]
      exact Finset.sum_congr rfl fun i _ => Finset.sum_congr rfl fun j _ => by ring
    have e3 : ∑ j, quadJac c Q x j * (y j - x j) = ∑ j, c j * y j - ∑ j, c j * x j
        + (2 * ∑ i, ∑ j, x i * Q i j * y j - 2 * ∑ i, ∑ j, x i * Q i j * x j) := by
      have e4 : ∀ z : Fin n → ℝ, ∑ i, ∑ j, x i * Q i j * z j = ∑ j, (Matrix.vecMul x Q j) * z j := by
        intro z
        rw [Finset.sum_comm]
        refine Finset.sum_congr rfl fun j _ => ?_
        rw [Matrix.vecMul, dotProduct, Finset.sum_mul]
      rw [e4, e4, Finset.mul_sum, Finset.mul_sum, ← Finset.sum_sub_distrib, ← Finset.sum_sub_distrib, ← Finset.sum_add_distrib]
      refine Finset.sum_congr rfl fun j _ => ?_
      unfold quadJac
      ring
    rw [e2, e3, hsw]
    unfold quadObj
    ring
  rw [← e1] at hpsd
  linarith

theorem finishScipy_ok {rng : Rng S} {kind : String} {r : OptResult n} {w w' : S × Files × E} {x : Fin n → ℝ}
    (h : (finishScipy rng kind r).run w = (.ok x, w')) : r.success = true ∧ x = r.x ∧ w' = w := by
  unfold finishScipy at h
  split_ifs at h with h1
  · exact ⟨h1, (Except.ok.inj (Prod.mk.inj h).1).symm, (Prod.mk.inj h).2.symm⟩
  · exact absurd (congrArg Prod.fst h) (by simp [giveUp, PyM.run, bind, PyM.bind, Rng.draw, PyM.modify, PyM.raise])

theorem finishGurobi_ok {rng : Rng S} {kind : String} {r : GResult} {w w' : S × Files × E} {x : Fin n → ℝ}
    (h : (finishGurobi rng kind n r).run w = (.ok x, w')) : r.optimal = true ∧ (x = fun j : Fin n => r.x j) ∧ w' = w := by
  unfold finishGurobi at h
  split_ifs at h with h1
  · exact ⟨h1, (Except.ok.inj (Prod.mk.inj h).1).symm, (Prod.mk.inj h).2.symm⟩
  · exact absurd (congrArg Prod.fst h) (by simp [giveUp, PyM.run, bind, PyM.bind, Rng.draw, PyM.modify, PyM.raise])

theorem dispatch_cases {α : Type} {q : QPSolver} {a b : PyM (S × Files × E) α} {w w' : S × Files × E} {x : α}
    (h : (q.dispatch a b).run w = (.ok x, w')) : a.run w = (.ok x, w') ∨ b.run w = (.ok x, w') := by
  unfold QPSolver.dispatch at h
  split_ifs at h
  · exact .inl h
  · exact .inr h
  · exact absurd (congrArg Prod.fst h) (by simp)

/-- C65: what `linear_program_eq` returns solves the documented problem. -/
theorem C65_solves_linear_eq {lib : Lib} (hl : QPLibOK lib) (rng : Rng S) (q : QPSolver) (c : Fin n → ℝ)
    (A : Matrix (Fin m) (Fin n) ℝ) (b : Fin m → ℝ) (lb ub : Fin n → ℝ) (w w' : S × Files × E) (x : Fin n → ℝ)
    (h : (q.linear_program_eq lib rng c A b lb ub).run w = (.ok x, w')) :
    IsMinimiser (lpEqSet A b lb ub) (linObj c) x ∧ w' = w := by
  obtain ⟨⟨p, h1, h2, h3⟩, g, h4, h5, h6⟩ := C65_linear_eq (E := E) c A b lb ub lib rng
  rcases dispatch_cases h with h | h
  · rw [h1] at h
    obtain ⟨hs, rfl, hw⟩ := finishScipy_ok h
    exact ⟨h2 ▸ h3 ▸ hl.linprog p hs, hw⟩
  · rw [h4] at h
    obtain ⟨hs, rfl, hw⟩ := finishGurobi_ok h
    exact ⟨minimiser_of_gurobi h5 h6 (hl.optimize g hs), hw⟩

/-- C65: what `linear_program_ineq` returns solves the documented problem. -/
theorem C65_solves_linear_ineq {lib : Lib} (hl : QPLibOK lib) (rng : Rng S) (q : QPSolver) (c : Fin n → ℝ)
    (A : Matrix (Fin m) (Fin n) ℝ) (b : Fin m → ℝ) (w w' : S × Files × E) (x : Fin n → ℝ)
    (h : (q.linear_program_ineq lib rng c A b).run w = (.ok x, w')) : IsMinimiser (ineqSet A b) (linObj c) x ∧ w' = w := by
  obtain ⟨⟨p, h1, h2, h3⟩, g, h4, h5, h6⟩ := C65_linear_ineq (E := E) c A b lib rng
  rcases dispatch_cases h with h | h
  · rw [h1] at h
    obtain ⟨hs, rfl, hw⟩ := finishScipy_ok h
    exact ⟨h2 ▸ h3 ▸ hl.linprog p hs, hw⟩
  · rw [h4] at h
    obtain ⟨hs, rfl, hw⟩ := finishGurobi_ok h
    exact ⟨minimiser_of_gurobi h5 h6 (hl.optimize g hs), hw⟩

/-- C65: what `quadratic_program_bnd` returns solves the documented problem (`Q` positive semidefinite, because SciPy's
methods are local). -/
theorem C65_solves_quadratic_bnd {lib : Lib} (hl : QPLibOK lib) (rng : Rng S) (q : QPSolver) (c : Fin n → ℝ)
    (Q : Matrix (Fin n) (Fin n) ℝ) (hQ : Q.PosSemidef) (lb ub : Fin n → ℝ) (w w' : S × Files × E) (x : Fin n → ℝ)
    (h : (q.quadratic_program_bnd lib rng c Q lb ub).run w = (.ok x, w')) :
    IsMinimiser (boxSet lb ub) (quadObj c Q) x ∧ w' = w := by
  obtain ⟨⟨p, h1, h2, h3, h3', -⟩, g, h4, h5, h6⟩ := C65_quadratic_bnd (E := E) c Q lb ub lib rng
  rcases dispatch_cases h with h | h
  · rw [h1] at h
    obtain ⟨hs, rfl, hw⟩ := finishScipy_ok h
    obtain ⟨h7, h8⟩ := hl.minimize p hs
    rw [h2, h3'] at h8
    exact ⟨minimiser_of_stationary hQ (h2 ▸ h7) h8, hw⟩
  · rw [h4] at h
    obtain ⟨hs, rfl, hw⟩ := finishGurobi_ok h
    exact ⟨minimiser_of_gurobi h5 h6 (hl.optimize g hs), hw⟩

/-- C65: what `quadratic_program_ineq` returns solves the documented problem (`Q` positive semidefinite). -/
theorem C65_solves_quadratic_ineq {lib : Lib} (hl : QPLibOK lib) (rng : Rng S) (q : QPSolver) (c : Fin n → ℝ)
    (Q : Matrix (Fin n) (Fin n) ℝ) (hQ : Q.PosSemidef) (A : Matrix (Fin m) (Fin n) ℝ) (b : Fin m → ℝ) (w w' : S × Files × E)
    (x : Fin n → ℝ) (h : (q.quadratic_program_ineq lib rng c Q A b).run w = (.ok x, w')) :
    IsMinimiser (ineqSet A b) (quadObj c Q) x ∧ w' = w := by
  obtain ⟨⟨p, h1, h2, h3, h3', -⟩, g, h4, h5, h6⟩ := C65_quadratic_ineq (E := E) c Q A b lib rng
  rcases dispatch_cases h with h | h
  · rw [h1] at h
    obtain ⟨hs, rfl, hw⟩ := finishScipy_ok h
    obtain ⟨h7, h8⟩ := hl.minimize p hs
    rw [h2, h3'] at h8
    exact ⟨minimiser_of_stationary hQ (h2 ▸ h7) h8, hw⟩
  · rw [h4] at h
    obtain ⟨hs, rfl, hw⟩ := finishGurobi_ok h
    exact ⟨minimiser_of_gurobi h5 h6 (hl.optimize g hs), hw⟩

/-! ## C66 -/

/-- What every function does with the answer of a back end: return it unchanged, or draw a number, write one file and raise. -/
def Honest (rng : Rng S) (kind : String) (success : Bool) (x : Fin n → ℝ) (act : PyM (S × Files × E) (Fin n → ℝ)) : Prop :=
  ∀ w, (success = true → act.run w = (.ok x, w)) ∧
    (success = false → act.run w = (.error .exception, ((rng.randint 999999999 w.1).2,
      w.2.1 ++ [(kind, ((rng.randint 999999999 w.1).1 : ℕ))], w.2.2)))

theorem honest_scipy (rng : Rng S) (kind : String) (r : OptResult n) :
    Honest (E := E) rng kind r.success r.x (finishScipy rng kind r) := by
  intro w
  refine ⟨fun h => ?_, fun h => ?_⟩
  · rw [finishScipy, if_pos h]
    rfl
  · rw [finishScipy, if_neg (by rw [h]; decide)]
    rfl

theorem honest_gurobi (rng : Rng S) (kind : String) (r : GResult) :
    Honest (E := E) rng kind r.optimal (fun j : Fin n => r.x j) (finishGurobi rng kind n r) := by
  intro w
  refine ⟨fun h => ?_, fun h => ?_⟩
  · rw [finishGurobi, if_pos h]
    rfl
  · rw [finishGurobi, if_neg (by rw [h]; decide)]
    rfl

/-- C66: no function returns a value when its back end failed; a failure leaves exactly one file, named after the function. -/
theorem C66_failure (lib : Lib) (rng : Rng S) (c : Fin n → ℝ) (Q : Matrix (Fin n) (Fin n) ℝ) (A : Matrix (Fin m) (Fin n) ℝ)
    (b : Fin m → ℝ) (lb ub : Fin n → ℝ) :
    (∃ p, Honest (E := E) rng "bad_scipy_lp_eq" (lib.linprog p).success (lib.linprog p).x (scipy_linear_program_eq lib rng c A b lb ub)) ∧
    (∃ p, Honest (E := E) rng "bad_scipy_lp_ineq" (lib.linprog p).success (lib.linprog p).x (scipy_linear_program_ineq lib rng c A b)) ∧
    (∃ p, Honest (E := E) rng "bad_scipy_qp_bnd" (lib.minimize p).success (lib.minimize p).x (scipy_quadratic_program_bnd lib rng c Q lb ub)) ∧
    (∃ p, Honest (E := E) rng "bad_scipy_qp_ineq" (lib.minimize p).success (lib.minimize p).x (scipy_quadratic_program_ineq lib rng c Q A b)) ∧
    (∃ g, Honest (E := E) rng "bad_gurobi_lp_eq" (lib.optimize g).optimal (fun j => (lib.optimize g).x j)
      (gurobi_linear_program_eq lib rng c A b lb ub)) ∧
    (∃ g, Honest (E := E) rng "bad_gurobi_lp_ineq" (lib.optimize g).optimal (fun j => (lib.optimize g).x j)
      (gurobi_linear_program_ineq lib rng c A b)) ∧
    (∃ g, Honest (E := E) rng "bad_gurobi_qp_bnd" (lib.optimize g).optimal (fun j => (lib.optimize g).x j)
      (gurobi_quadratic_program_bnd lib rng c Q lb ub)) ∧
    ∃ g, Honest (E := E) rng "bad_gurobi_qp_ineq" (lib.optimize g).optimal (fun j => (lib.optimize g).x j)
      (gurobi_quadratic_program_ineq lib rng c Q A b) :=
  ⟨⟨_, honest_scipy _ _ _⟩, ⟨_, honest_scipy _ _ _⟩, ⟨_, honest_scipy _ _ _⟩, ⟨_, honest_scipy _ _ _⟩,
    ⟨_, honest_gurobi _ _ _⟩, ⟨_, honest_gurobi _ _ _⟩, ⟨_, honest_gurobi _ _ _⟩, ⟨_, honest_gurobi _ _ _⟩⟩

/-- C66: the constructor selects Gurobi exactly when it is asked for and present, SciPy otherwise. -/
theorem C66_constructor (lib : Lib) (s : String) :
    ((QPSolver.init lib s).solver = "GUROBI" ↔ s = "GUROBI" ∧ lib.hasGurobi = true) ∧
    ((QPSolver.init lib s).solver = "SCIPY" ↔ ¬ (s = "GUROBI" ∧ lib.hasGurobi = true)) := by
  unfold QPSolver.init
  split_ifs with h1 h2
  · simp [h1]
  · simp [h1]
  · simp [h1]

/-- C66: a constructed solver never reaches a missing back end, and the method is the one of the selected back end. -/
theorem C66_dispatch {α : Type} (lib : Lib) (s : String) (a b : PyM (S × Files × E) α) :
    ((QPSolver.init lib s).dispatch a b = if s = "GUROBI" ∧ lib.hasGurobi = true then b else a) ∧
    ∀ q : QPSolver, q.solver ≠ "SCIPY" → q.solver ≠ "GUROBI" → ∀ w, (q.dispatch a b).run w = (.error .valueError, w) := by
  refine ⟨?_, fun q h1 h2 w => ?_⟩
  · unfold QPSolver.init QPSolver.dispatch
    split_ifs <;> first | rfl | simp_all
  · unfold QPSolver.dispatch
    rw [if_neg h1, if_neg h2]
    rfl

/-- The hypothesis of the C65 theorems is met: `minimize x` subject to `x ≥ 2`, with either back end. -/
example (gur : Bool) (rng : Rng S) (w : S × Files × E) : ∃ lib, QPLibOK lib ∧ lib.hasGurobi = gur ∧ ∃ x w',
    ((QPSolver.init lib).linear_program_ineq lib rng (n := 1) (m := 1) 1 1 2).run w = (.ok x, w') := by
  obtain ⟨lib, h1, h2, h3, h4, -⟩ := qpLibOK_exists gur
  refine ⟨lib, h1, h2, ?_⟩
  obtain ⟨⟨p, p1, p2, p3⟩, g, g1, g2, g3⟩ := C65_linear_ineq (E := E) (n := 1) (m := 1) 1 1 2 lib rng
  have hmin : IsMinimiser (ineqSet (1 : Matrix (Fin 1) (Fin 1) ℝ) 2) (linObj 1) 2 := by
    refine ⟨fun i => by rw [Subsingleton.elim i 0]; simp, fun y hy => ?_⟩
    have := hy 0
    simp only [linObj, Fin.sum_univ_one, Matrix.one_apply_eq, one_mul, Pi.one_apply] at this ⊢
    exact this
  unfold QPSolver.linear_program_ineq
  rw [(C66_dispatch lib "GUROBI" _ _).1]
  split_ifs with hg
  · have hx := h4 g (extend 2) ⟨(g2 _).mpr (by
      rw [show (fun j : Fin 1 => extend 2 j) = 2 from funext fun j => extend_fin 2 j]; exact hmin.1), fun y hy => by
        rw [g3, g3, show (fun j : Fin 1 => extend 2 j) = 2 from funext fun j => extend_fin 2 j]
        exact hmin.2 _ ((g2 y).mp hy)⟩
    rw [g1]
    exact ⟨_, _, (honest_gurobi rng _ _ w).1 hx⟩
  · have hx := h3 1 p 2 (by rw [p2, p3]; exact hmin)
    rw [p1]
    exact ⟨_, _, (honest_scipy rng _ _ w).1 hx⟩

/-! ## C67 -/

/-- The derivative of the objective in direction `v`. -/
theorem quadFun_deriv (c : Fin n → ℝ) (Q : Matrix (Fin n) (Fin n) ℝ) (x v : Fin n → ℝ) :
    HasDerivAt (fun t : ℝ => quadFun c Q (x + t • v)) (∑ j, (c j + ∑ i, x i * (Q i j + Q j i)) * v j) 0 := by
  have e : (fun t : ℝ => quadFun c Q (x + t • v)) = fun t => quadFun c Q x
      + t * (∑ j, (c j + ∑ i, x i * (Q i j + Q j i)) * v j) + t ^ 2 * ∑ i, ∑ j, v i * Q i j * v j := by
    funext t
    have hsw : ∑ j, (∑ i, x i * (Q i j + Q j i)) * v j = ∑ i, ∑ j, x i * Q i j * v j + ∑ i, ∑ j, v i * Q i j * x j := by
      rw [Finset.sum_comm (f := fun i j => x i * Q i j * v j), ← Finset.sum_add_distrib]
      refine Finset.sum_congr rfl fun j _ => ?_
      rw [Finset.sum_mul, ← Finset.sum_add_distrib]
      exact Finset.sum_congr rfl fun i _ => by ring
    have hl : ∑ j, (c j + ∑ i, x i * (Q i j + Q j i)) * v j
        = ∑ j, c j * v j + (∑ i, ∑ j, x i * Q i j * v j + ∑ i, ∑ j, v i * Q i j * x j) := by
      rw [← hsw, ← Finset.sum_add_distrib]
      exact Finset.sum_congr rfl fun j _ => add_mul _ _ _
    have hq : ∑ i, ∑ j, (x + t • v) i * Q i j * (x + t • v) j = ∑ i, ∑ j, x i * Q i j * x j
        + t * (∑ i, ∑ j, x i * Q i j * v j + ∑ i, ∑ j, v i * Q i j * x j) + t ^ 2 * ∑ i, ∑ j, v i * Q i j * v j := by
      simp only [Finset.mul_sum, ← Finset.sum_add_distrib, Pi.add_apply, Pi.smul_apply, smul_eq_mul]
      exact Finset.sum_congr rfl fun i _ => Finset.sum_congr rfl fun j _ => by ring
    have hc : ∑ j, c j * (x + t • v) j = ∑ j, c j * x j + t * ∑ j, c j * v j := by
      simp only [Finset.mul_sum, ← Finset.sum_add_distrib, Pi.add_apply, Pi.smul_apply, smul_eq_mul]
      exact Finset.sum_congr rfl fun j _ => by ring
    rw [quadFun_eq, hl]
    unfold quadObj
    rw [hq, hc]
    ring
  rw [e]
  have h1 := ((hasDerivAt_id (0 : ℝ)).mul_const (∑ j, (c j + ∑ i, x i * (Q i j + Q j i)) * v j)).const_add (quadFun c Q x)
  have h2 := (((hasDerivAt_id (0 : ℝ)).fun_pow 2).mul_const (∑ i, ∑ j, v i * Q i j * v j))
  have h3 := h1.fun_add h2
  simpa using h3

/-- C67: the gradient given to the optimizer is that of the objective at every point exactly when `Q` is symmetric. -/
theorem C67_gradient (c : Fin n → ℝ) (Q : Matrix (Fin n) (Fin n) ℝ) :
    (∀ x v : Fin n → ℝ, HasDerivAt (fun t : ℝ => quadFun c Q (x + t • v)) (∑ j, quadJac c Q x j * v j) 0) ↔ ∀ i j, Q i j = Q j i := by
  constructor
  · intro h i j
    have h1 := (h (Pi.single i 1) (Pi.single j 1)).unique (quadFun_deriv c Q (Pi.single i 1) (Pi.single j 1))
    simp only [quadJac, Pi.single_apply, mul_ite, mul_one, mul_zero, Finset.sum_ite_eq', Finset.mem_univ, if_true,
      ite_mul, one_mul, zero_mul] at h1
    rw [show Matrix.vecMul (Pi.single i (1 : ℝ)) Q j = Q i j by simp] at h1
    linarith
  · intro hs x v
    have h1 := quadFun_deriv c Q x v
    convert h1 using 1
    refine Finset.sum_congr rfl fun j _ => ?_
    congr 1
    unfold quadJac
    rw [Matrix.vecMul, dotProduct, Finset.mul_sum]
    congr 1
    exact Finset.sum_congr rfl fun i _ => by rw [hs j i]; ring

/-- Both sides of C67 occur: a matrix that is not symmetric. -/
example : ∃ x v : Fin 2 → ℝ, ¬ HasDerivAt (fun t : ℝ => quadFun 0 !![0, 1; 0, 0] (x + t • v))
    (∑ j, quadJac 0 !![0, 1; 0, 0] x j * v j) 0 := by
  by_contra h
  push Not at h
  have := (C67_gradient _ _).mp h 0 1
  simp at this

end Props
