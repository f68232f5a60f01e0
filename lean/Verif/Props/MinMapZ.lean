import Mathlib.Topology.Algebra.Module.FiniteDimension
import Verif.Props.ActiveTraining
import Verif.Props.MinMap

/-!
# Properties C62 and C63: inactive variables chosen by a `MinVariableMap`
-/

open Py Model.Optimizers Model.ResponseSurfaces Model.Subspaces Model.QPSolver MvPolynomial Spec Proofs.Run
open Model.Domains (Arr3 polyA polyB)
open scoped Matrix Topology

namespace Props

variable {S E : Type} {n k M q NY : ℕ} {s : Subspaces} {V1 : Matrix (Fin (n + k)) (Fin n) ℝ} {V2 : Matrix (Fin (n + k)) (Fin k) ℝ}

/-- The trained quadratic with the ridge `0.01/2 |z|^2`, for fixed active variables. -/
noncomputable def ridged (V1 : Matrix (Fin (n + k)) (Fin n) ℝ) (V2 : Matrix (Fin (n + k)) (Fin k) ℝ) (h : q ≤ n + k)
    (P : MvPolynomial (Fin q) ℝ) (y : Fin n → ℝ) (z : Fin k → ℝ) : ℝ :=
  surrogate V1 V2 h P y z + 0.01 / 2 * ∑ j, z j ^ 2

/-- What `train` stores, as matrices, together with the quadratic that was fitted. -/
structure Trained (lib : Model.ResponseSurfaces.Lib) (s : Subspaces) (V1 : Matrix (Fin (n + k)) (Fin n) ℝ)
    (V2 : Matrix (Fin (n + k)) (Fin k) ℝ) (h : q ≤ n + k) (X : Matrix (Fin M) (Fin (n + k)) ℝ) (f : Fin M → ℝ)
    (P : MvPolynomial (Fin q) ℝ) (bz : Fin k → ℝ) (zAy : Matrix (Fin k) (Fin n) ℝ) (zAz : Matrix (Fin k) (Fin k) ℝ) : Prop where
  run : Model.Optimizers.train lib s (.mat (NpMat.of X)) (.mat (NpMat.of (colMat f))) = .ok ⟨NpMat.of (colMat bz), NpMat.of zAy, NpMat.of zAz⟩
  best : BestQuadratic V1 V2 h X f P
  symm : zAzᵀ = zAz
  taylor : ∀ y z, ridged V1 V2 h P y z = ridged V1 V2 h P y 0 + (bz + zAy *ᵥ y) ⬝ᵥ z + 1 / 2 * (z ⬝ᵥ zAz *ᵥ z)

/-- The stored arrays. -/
def dataOf (bz : Fin k → ℝ) (zAy : Matrix (Fin k) (Fin n) ℝ) (zAz : Matrix (Fin k) (Fin k) ℝ) : MinData :=
  ⟨NpMat.of (colMat bz), NpMat.of zAy, NpMat.of zAz⟩

theorem exists_trained (hs : Split s V1 V2) (lib : Model.ResponseSurfaces.Lib) (hl : LstsqOK lib) (hn : 1 ≤ n)
    (X : Matrix (Fin M) (Fin (n + k)) ℝ) (f : Fin M → ℝ) (hq : q = min (if 2 < k then n + 2 else n + 1) (n + k)) (h : q ≤ n + k)
    (hM : (2 + q).choose q ≤ M) : ∃ P bz zAy zAz, Trained lib s V1 V2 h X f P bz zAy zAz := by
  obtain ⟨P, bz, zAy, zAz, h1, h2, h3, h4, -⟩ := C64_blocks hs lib hl hn X f hq h hM
  refine ⟨P, bz, zAy, zAz, h1, h2, h3, fun y z => ?_⟩
  unfold ridged
  rw [h4 y z, Matrix.sub_mulVec, dotProduct_sub, Matrix.smul_mulVec, Matrix.one_mulVec, dotProduct_smul]
  have : z ⬝ᵥ z = ∑ j, z j ^ 2 := Finset.sum_congr rfl fun j _ => (sq _).symm
  rw [this]
  simp only [Pi.zero_apply, smul_eq_mul]
  norm_num
  ring

theorem toMat_of {a b : ℕ} (A : Matrix (Fin a) (Fin b) ℝ) : (NpMat.of A).toMat a b = A := by
  ext i j
  exact NpMat.get_of A i j

theorem linTerm_dataOf (bz : Fin k → ℝ) (zAy : Matrix (Fin k) (Fin n) ℝ) (zAz : Matrix (Fin k) (Fin k) ℝ) (y : Fin n → ℝ) :
    linTerm (dataOf bz zAy zAz) k y = bz + zAy *ᵥ y := by
  funext i
  change (NpMat.of (colMat bz)).get i 0 + ((NpMat.of zAy).toMat k n *ᵥ y) i = _
  rw [toMat_of]
  have : (NpMat.of (colMat bz)).get i ((0 : Fin 1) : ℕ) = colMat bz i 0 := NpMat.get_of _ i 0
  exact congrArg (· + _) this

theorem fits_dataOf (bz : Fin k → ℝ) (zAy : Matrix (Fin k) (Fin n) ℝ) (zAz : Matrix (Fin k) (Fin k) ℝ) :
    (dataOf bz zAy zAz).Fits n k := ⟨⟨rfl, rfl⟩, ⟨rfl, rfl⟩, rfl, rfl⟩

/-- The gradient of a quadratic vanishes at a minimiser from which one can move a little in all directions. -/
theorem stationary_of_min {F : Set (Fin k → ℝ)} {K : ℝ} {c : Fin k → ℝ} {B : Matrix (Fin k) (Fin k) ℝ} (hB : Bᵀ = B) {z : Fin k → ℝ}
    (hF : ∀ v : Fin k → ℝ, ∀ᶠ t in 𝓝 (0 : ℝ), z + t • v ∈ F)
    (hz : IsMinimiser F (fun z => K + c ⬝ᵥ z + 1 / 2 * (z ⬝ᵥ B *ᵥ z)) z) : c + B *ᵥ z = 0 := by
  have key : ∀ v, (c + B *ᵥ z) ⬝ᵥ v = 0 := fun v => by
    refine IsLocalMin.hasDerivAt_eq_zero ?_ (hasDerivAt_line K c B hB z v)
    filter_upwards [hF v] with t ht
    rw [zero_smul, add_zero]
    exact hz.2 _ ht
  have := key (c + B *ᵥ z)
  rwa [dotProduct_self_eq_zero] at this

/-! ## C62 -/

open Classical in
theorem unboundedMinZ_eq (hs : Split s V1 V2) (bz : Fin k → ℝ) (zAy : Matrix (Fin k) (Fin n) ℝ) (zAz : Matrix (Fin k) (Fin k) ℝ)
    (Y : Matrix (Fin NY) (Fin n) ℝ) : (unboundedMinZ s (some (dataOf bz zAy zAz)) (NpMat.of Y) 1 : PyM (S × Files × E) _)
      = ((PyM.mapFin NY fun i => PyM.lift (Np.solve zAz (colMat (bz + zAy *ᵥ Y i)))) >>= fun Zl =>
        pure (some ⟨NY, k, 1, fun i j _ => Zl i j 0⟩)) := by
  unfold unboundedMinZ
  rw [if_neg (by simp), hs.w1]
  change unboundedMinRows (some (dataOf bz zAy zAz)) (NpMat.of Y) (n + k - n) = _
  rw [Nat.add_sub_cancel_left]
  unfold unboundedMinRows
  simp only
  congr 1
  congr 1
  funext i
  refine (if_pos (fits_dataOf bz zAy zAz)).trans ?_
  change PyM.lift (Np.solve ((NpMat.of zAz).toMat k k) (colMat (linTerm (dataOf bz zAy zAz) k (Y i)))) = _
  rw [toMat_of, linTerm_dataOf]

theorem solve_inv {A : Matrix (Fin k) (Fin k) ℝ} {c : Fin k → ℝ} {Z : Matrix (Fin k) (Fin 1) ℝ} (h : Np.solve A (colMat c) = .ok Z) :
    A *ᵥ (fun j => Z j 0) = c := by
  classical
  unfold Np.solve at h
  split_ifs at h with hd
  have h1 := Except.ok.inj h
  have h2 : A * Z = colMat c := by rw [← h1, ← Matrix.mul_assoc, Matrix.mul_nonsing_inv _ hd, Matrix.one_mul]
  funext i
  exact congrFun (congrFun h2 i) 0

/-- What `UnboundedMinVariableMap.regularize_z` returns: a solution of `_zAz z = _bz + _zAy y` for every row. -/
theorem C62_solves (hs : Split s V1 V2) {bz : Fin k → ℝ} {zAy : Matrix (Fin k) (Fin n) ℝ} {zAz : Matrix (Fin k) (Fin k) ℝ}
    {Y : Matrix (Fin NY) (Fin n) ℝ} {w w' : S × Files × E} {o : Option Arr3}
    (hr : (unboundedMinZ s (some (dataOf bz zAy zAz)) (NpMat.of Y) 1).run w = (.ok o, w')) :
    ∃ z : Fin NY → Fin k → ℝ, o = some ⟨NY, k, 1, fun i j _ => z i j⟩ ∧ w' = w ∧ ∀ i, zAz *ᵥ z i = bz + zAy *ᵥ Y i := by
  rw [unboundedMinZ_eq hs] at hr
  obtain ⟨Zl, w1, h1, h2⟩ := bind_inv hr
  obtain ⟨rfl, rfl⟩ := pure_inv h2
  obtain ⟨rfl, h3⟩ := mapFin_keep h1 fun i a w1 w2 h => (lift_inv h).2
  exact ⟨fun i j => Zl i j 0, rfl, rfl, fun i => solve_inv (lift_inv (h3 i)).1⟩

/-- C62, what remains: the negative of the point returned minimises the model over the inactive variables, when `_zAz` is
positive semidefinite.  The point itself is returned with the wrong sign. -/
theorem C62_reflected_partial (hs : Split s V1 V2) {lib : Model.ResponseSurfaces.Lib} {h : q ≤ n + k} {X : Matrix (Fin M) (Fin (n + k)) ℝ}
    {f : Fin M → ℝ} {P : MvPolynomial (Fin q) ℝ} {bz : Fin k → ℝ} {zAy : Matrix (Fin k) (Fin n) ℝ} {zAz : Matrix (Fin k) (Fin k) ℝ}
    (ht : Trained lib s V1 V2 h X f P bz zAy zAz) (hpsd : zAz.PosSemidef) {Y : Matrix (Fin NY) (Fin n) ℝ} {w w' : S × Files × E}
    {o : Option Arr3} (hr : (unboundedMinZ s (some (dataOf bz zAy zAz)) (NpMat.of Y) 1).run w = (.ok o, w')) :
    ∃ z : Fin NY → Fin k → ℝ, o = some ⟨NY, k, 1, fun i j _ => z i j⟩ ∧ w' = w ∧
      ∀ i, IsMinimiser Set.univ (ridged V1 V2 h P (Y i)) (-z i) := by
  obtain ⟨z, h1, h2, h3⟩ := C62_solves hs hr
  refine ⟨z, h1, h2, fun i => ⟨Set.mem_univ _, fun z' _ => ?_⟩⟩
  have e : z' = -z i + (z' + z i) := by abel
  rw [ht.taylor, ht.taylor (Y i) z', ← h3 i]
  have hp := hpsd.dotProduct_mulVec_nonneg (z' + z i)
  rw [star_trivial] at hp
  have e1 := quad_shift zAz ht.symm (-z i) (z' + z i)
  rw [← e] at e1
  rw [e1]
  have e2 : (zAz *ᵥ z i) ⬝ᵥ z' = (zAz *ᵥ z i) ⬝ᵥ (-z i) + (zAz *ᵥ z i) ⬝ᵥ (z' + z i) := by rw [← dotProduct_add, ← e]
  rw [e2, Matrix.mulVec_neg, neg_dotProduct, neg_dotProduct, dotProduct_neg]
  simp only [dotProduct_neg, Matrix.mulVec_neg, neg_dotProduct]
  linarith

/-- C62 fails: a point returned is never a minimiser of the model, unless it is 0. -/
theorem C62_not_minimiser (hs : Split s V1 V2) {lib : Model.ResponseSurfaces.Lib} {h : q ≤ n + k} {X : Matrix (Fin M) (Fin (n + k)) ℝ}
    {f : Fin M → ℝ} {P : MvPolynomial (Fin q) ℝ} {bz : Fin k → ℝ} {zAy : Matrix (Fin k) (Fin n) ℝ} {zAz : Matrix (Fin k) (Fin k) ℝ}
    (ht : Trained lib s V1 V2 h X f P bz zAy zAz) (hdet : IsUnit zAz.det) {Y : Matrix (Fin NY) (Fin n) ℝ} {w w' : S × Files × E}
    {o : Option Arr3} (hr : (unboundedMinZ s (some (dataOf bz zAy zAz)) (NpMat.of Y) 1).run w = (.ok o, w')) :
    ∃ z : Fin NY → Fin k → ℝ, o = some ⟨NY, k, 1, fun i j _ => z i j⟩ ∧
      ∀ i, z i ≠ 0 → ¬ IsMinimiser Set.univ (ridged V1 V2 h P (Y i)) (z i) := by
  obtain ⟨z, h1, -, h3⟩ := C62_solves hs hr
  refine ⟨z, h1, fun i hz hmin => hz ?_⟩
  have hmin' : IsMinimiser Set.univ (fun z => ridged V1 V2 h P (Y i) 0 + (bz + zAy *ᵥ Y i) ⬝ᵥ z + 1 / 2 * (z ⬝ᵥ zAz *ᵥ z)) (z i) := by
    simp only [← ht.taylor]
    exact hmin
  have h4 := stationary_of_min ht.symm (fun v => Filter.Eventually.of_forall fun t => Set.mem_univ _) hmin'
  rw [← h3 i] at h4
  have h5 : zAz *ᵥ z i = 0 := by
    funext j
    have := congrFun h4 j
    simp only [Pi.add_apply, Pi.zero_apply] at this ⊢
    linarith
  calc z i = (zAz⁻¹ * zAz) *ᵥ z i := by rw [Matrix.nonsing_inv_mul _ hdet, Matrix.one_mulVec]
    _ = 0 := by rw [← Matrix.mulVec_mulVec, h5, Matrix.mulVec_zero]

/-- `UnboundedMinVariableMap.regularize_z` returns when `_zAz` is not singular. -/
theorem C62_returns (hs : Split s V1 V2) (bz : Fin k → ℝ) (zAy : Matrix (Fin k) (Fin n) ℝ) {zAz : Matrix (Fin k) (Fin k) ℝ}
    (hdet : IsUnit zAz.det) (Y : Matrix (Fin NY) (Fin n) ℝ) (w : S × Files × E) :
    ∃ o, (unboundedMinZ s (some (dataOf bz zAy zAz)) (NpMat.of Y) 1).run w = (.ok o, w) := by
  classical
  have h : (PyM.mapFin NY fun i => PyM.lift (Np.solve zAz (colMat (bz + zAy *ᵥ Y i))) : PyM (S × Files × E) _).run w
      = (.ok fun i => zAz⁻¹ * colMat (bz + zAy *ᵥ Y i), w) := mapFin_run fun i => by
    unfold Np.solve
    rw [if_pos hdet]
    rfl
  refine ⟨some ⟨NY, k, 1, fun i j _ => (zAz⁻¹ * colMat (bz + zAy *ᵥ Y i)) j 0⟩, ?_⟩
  rw [unboundedMinZ_eq hs, PyM.run_bind_ok h]
  rfl

/-! ## C63 -/

/-- What `quadratic_program_ineq` returns is feasible, whatever the matrix. -/
theorem quadratic_ineq_feasible {m : ℕ} {lib : Model.QPSolver.Lib} (hl : QPLibOK lib) (rng : Rng S) (q : QPSolver) (c : Fin n → ℝ)
    (Q : Matrix (Fin n) (Fin n) ℝ) (A : Matrix (Fin m) (Fin n) ℝ) (b : Fin m → ℝ) (w w' : S × Files × E)
    (x : Fin n → ℝ) (h : (q.quadratic_program_ineq lib rng c Q A b).run w = (.ok x, w')) : x ∈ ineqSet A b ∧ w' = w := by
  obtain ⟨⟨p, h1, h2, -⟩, g, h4, h5, h6⟩ := C65_quadratic_ineq (E := E) c Q A b lib rng
  rcases dispatch_cases h with h | h
  · rw [h1] at h
    obtain ⟨hs, rfl, hw⟩ := finishScipy_ok h
    exact ⟨h2 ▸ (hl.minimize p hs).1, hw⟩
  · rw [h4] at h
    obtain ⟨hs, rfl, hw⟩ := finishGurobi_ok h
    exact ⟨(h5 _).mp (hl.optimize g hs).1, hw⟩

theorem quadObj_eq (c : Fin k → ℝ) (Q : Matrix (Fin k) (Fin k) ℝ) (z : Fin k → ℝ) : quadObj c Q z = c ⬝ᵥ z + z ⬝ᵥ Q *ᵥ z := by
  unfold quadObj
  congr 1
  refine Finset.sum_congr rfl fun i _ => ?_
  rw [Matrix.mulVec, dotProduct, Finset.mul_sum]
  exact Finset.sum_congr rfl fun j _ => mul_assoc _ _ _

open Classical in
theorem boundedMinZ_eq (hs : Split s V1 V2) (lib : Model.Domains.Lib) (rng : Rng S) (bz : Fin k → ℝ) (zAy : Matrix (Fin k) (Fin n) ℝ)
    (zAz : Matrix (Fin k) (Fin k) ℝ) (Y : Matrix (Fin NY) (Fin n) ℝ) :
    (boundedMinZ lib rng s (some (dataOf bz zAy zAz)) (NpMat.of Y) 1 : PyM (S × Files × E) _)
      = ((PyM.mapFin NY fun i => (QPSolver.init lib.qp).quadratic_program_ineq lib.qp rng (bz + zAy *ᵥ Y i) zAz (polyA V2)
          (polyB (V1.mulVec (Y i)))) >>= fun Zl => pure (some ⟨NY, k, 1, fun i j _ => Zl i j⟩)) := by
  unfold boundedMinZ
  rw [if_neg (by simp), hs.w1, hs.w2]
  change boundedMinRows lib rng (NpMat.of V1) (NpMat.of V2) (some (dataOf bz zAy zAz)) (NpMat.of Y) (n + k - n) = _
  rw [Nat.add_sub_cancel_left]
  unfold boundedMinRows
  simp only
  congr 1
  congr 1
  funext i
  refine (if_pos ⟨fits_dataOf bz zAy zAz, rfl, rfl, rfl⟩).trans ?_
  change (QPSolver.init lib.qp).quadratic_program_ineq lib.qp rng (linTerm (dataOf bz zAy zAz) k (Y i)) ((NpMat.of zAz).toMat k k)
    (polyA ((NpMat.of V2).toMat (n + k) k)) (polyB (((NpMat.of V1).toMat (n + k) n).mulVec (Y i))) = _
  rw [toMat_of, toMat_of, toMat_of, linTerm_dataOf]

/-- A library that solves the problems that have a solution. -/
structure QPComplete (lib : Model.QPSolver.Lib) : Prop where
  optimize : ∀ g x, IsMinimiser (gurobiSet g) (quadValue g.obj) x → (lib.optimize g).optimal = true
  minimize : ∀ (n : ℕ) (p : MinProg n) x, (x ∈ minimizeSet p ∧ ∀ y ∈ minimizeSet p, 0 ≤ ∑ j, p.jac x j * (y j - x j)) →
    (lib.minimize p).success = true

theorem qpComplete_exists : ∃ lib : Model.QPSolver.Lib, QPLibOK lib ∧ QPComplete lib := by
  obtain ⟨lib, h1, -, -, h2, h3⟩ := qpLibOK_exists true
  exact ⟨lib, h1, h2, h3⟩

theorem quadratic_ineq_returns {m : ℕ} {lib : Model.QPSolver.Lib} (hc : QPComplete lib) (rng : Rng S) (c : Fin n → ℝ)
    {Q : Matrix (Fin n) (Fin n) ℝ} (hQ : Q.PosSemidef) (A : Matrix (Fin m) (Fin n) ℝ) (b : Fin m → ℝ) (w : S × Files × E)
    (x : Fin n → ℝ) (hx : x ∈ ineqSet A b) (h0 : quadJac c Q x = 0) :
    ∃ x', ((QPSolver.init lib).quadratic_program_ineq lib rng c Q A b).run w = (.ok x', w) := by
  obtain ⟨⟨p, p1, p2, -, p3, -⟩, g, g1, g2, g3⟩ := C65_quadratic_ineq (E := E) c Q A b lib rng
  have hmin : IsMinimiser (ineqSet A b) (quadObj c Q) x := minimiser_of_stationary hQ hx fun y _ => by
    rw [h0]
    simp
  unfold QPSolver.quadratic_program_ineq
  rw [(C66_dispatch lib "GUROBI" _ _).1]
  split_ifs with hg
  · have e : (fun j : Fin n => extend x j) = x := funext fun j => extend_fin x j
    have hx := hc.optimize g (extend x) ⟨(g2 _).mpr (by rw [e]; exact hmin.1), fun y hy => by
      rw [g3, g3, e]
      exact hmin.2 _ ((g2 y).mp hy)⟩
    rw [g1]
    exact ⟨_, (honest_gurobi rng _ _ w).1 hx⟩
  · have hx := hc.minimize n p x ⟨p2 ▸ hx, fun y _ => by
      rw [p3, h0]
      simp⟩
    rw [p1]
    exact ⟨_, (honest_scipy rng _ _ w).1 hx⟩

/-- C63, what remains: the points returned are feasible, and when `_zAz` is positive semidefinite they minimise the model with
its quadratic term `z^T _zAz z / 2` counted twice. -/
theorem C63_doubled_partial (hs : Split s V1 V2) {lib : Model.ResponseSurfaces.Lib} {h : q ≤ n + k} {X : Matrix (Fin M) (Fin (n + k)) ℝ}
    {f : Fin M → ℝ} {P : MvPolynomial (Fin q) ℝ} {bz : Fin k → ℝ} {zAy : Matrix (Fin k) (Fin n) ℝ} {zAz : Matrix (Fin k) (Fin k) ℝ}
    (ht : Trained lib s V1 V2 h X f P bz zAy zAz) {dlib : Model.Domains.Lib} (hq : QPLibOK dlib.qp) {rng : Rng S}
    {Y : Matrix (Fin NY) (Fin n) ℝ} {w w' : S × Files × E} {o : Option Arr3}
    (hr : (boundedMinZ dlib rng s (some (dataOf bz zAy zAz)) (NpMat.of Y) 1).run w = (.ok o, w')) :
    ∃ z : Fin NY → Fin k → ℝ, o = some ⟨NY, k, 1, fun i j _ => z i j⟩ ∧ w' = w ∧ (∀ i, z i ∈ inactive V1 V2 (Y i)) ∧
      (zAz.PosSemidef → ∀ i,
        IsMinimiser (inactive V1 V2 (Y i)) (fun z => ridged V1 V2 h P (Y i) z + 1 / 2 * (z ⬝ᵥ zAz *ᵥ z)) (z i) ∧
        (0 ∈ inactive V1 V2 (Y i) → ridged V1 V2 h P (Y i) (z i) ≤ ridged V1 V2 h P (Y i) 0)) := by
  rw [boundedMinZ_eq hs] at hr
  obtain ⟨z, w1, h1, h2⟩ := bind_inv hr
  obtain ⟨rfl, rfl⟩ := pure_inv h2
  obtain ⟨rfl, h3⟩ := mapFin_keep h1 fun i a w1 w2 h => (quadratic_ineq_feasible hq rng _ _ _ _ _ _ _ _ h).2
  refine ⟨z, rfl, rfl, fun i => ?_, fun hpsd i => ?_⟩
  · rw [← ineqSet_poly]
    exact (quadratic_ineq_feasible hq rng _ _ _ _ _ _ _ _ (h3 i)).1
  · have h4 := (C65_solves_quadratic_ineq hq rng _ _ _ hpsd _ _ _ _ _ (h3 i)).1
    rw [ineqSet_poly] at h4
    have h5 : IsMinimiser (inactive V1 V2 (Y i)) (fun z => ridged V1 V2 h P (Y i) z + 1 / 2 * (z ⬝ᵥ zAz *ᵥ z)) (z i) := by
      refine ⟨h4.1, fun z' hz' => ?_⟩
      have h5 := h4.2 z' hz'
      rw [quadObj_eq, quadObj_eq] at h5
      simp only [ht.taylor (Y i) (z i), ht.taylor (Y i) z']
      linarith
    refine ⟨h5, fun h0 => ?_⟩
    have h6 := h5.2 0 h0
    have h7 := hpsd.dotProduct_mulVec_nonneg (z i)
    rw [star_trivial] at h7
    simp only [Matrix.mulVec_zero, dotProduct_zero, mul_zero, add_zero] at h6
    linarith

/-- From a point with no bound active one can move a little in every direction. -/
theorem inactive_interior {y : Fin n → ℝ} {z : Fin k → ℝ} (hz : ∀ i, |(V1 *ᵥ y + V2 *ᵥ z) i| < 1) (v : Fin k → ℝ) :
    ∀ᶠ t in 𝓝 (0 : ℝ), z + t • v ∈ inactive V1 V2 y := by
  have : ∀ i, ∀ᶠ t in 𝓝 (0 : ℝ), |(V1 *ᵥ y + V2 *ᵥ (z + t • v)) i| < 1 := fun i => by
    have hc : Continuous fun t : ℝ => |(V1 *ᵥ y + V2 *ᵥ (z + t • v)) i| := by
      simp only [Matrix.mulVec_add, Matrix.mulVec_smul, Pi.add_apply, Pi.smul_apply, smul_eq_mul]
      fun_prop
    have h0 : |(V1 *ᵥ y + V2 *ᵥ (z + (0 : ℝ) • v)) i| < 1 := by
      rw [zero_smul, add_zero]
      exact hz i
    exact hc.continuousAt.eventually_lt continuousAt_const h0
  filter_upwards [Filter.eventually_all.mpr this] with t ht i
  exact ⟨(abs_lt.mp (ht i)).1.le, (abs_lt.mp (ht i)).2.le⟩

/-- C63 fails: a point returned at which no bound is active is not a minimiser of the model, unless it is 0. -/
theorem C63_not_minimiser (hs : Split s V1 V2) {lib : Model.ResponseSurfaces.Lib} {h : q ≤ n + k} {X : Matrix (Fin M) (Fin (n + k)) ℝ}
    {f : Fin M → ℝ} {P : MvPolynomial (Fin q) ℝ} {bz : Fin k → ℝ} {zAy : Matrix (Fin k) (Fin n) ℝ} {zAz : Matrix (Fin k) (Fin k) ℝ}
    (ht : Trained lib s V1 V2 h X f P bz zAy zAz) (hpos : zAz.PosDef) {dlib : Model.Domains.Lib} (hq : QPLibOK dlib.qp) {rng : Rng S}
    {Y : Matrix (Fin NY) (Fin n) ℝ} {w w' : S × Files × E} {o : Option Arr3}
    (hr : (boundedMinZ dlib rng s (some (dataOf bz zAy zAz)) (NpMat.of Y) 1).run w = (.ok o, w')) :
    ∃ z : Fin NY → Fin k → ℝ, o = some ⟨NY, k, 1, fun i j _ => z i j⟩ ∧
      ∀ i, (∀ l, |(V1 *ᵥ Y i + V2 *ᵥ z i) l| < 1) → z i ≠ 0 →
        ¬ IsMinimiser (inactive V1 V2 (Y i)) (ridged V1 V2 h P (Y i)) (z i) := by
  obtain ⟨z, h1, -, -, h3⟩ := C63_doubled_partial hs ht hq hr
  refine ⟨z, h1, fun i hi hz hmin => hz ?_⟩
  have hF := inactive_interior hi
  have e1 : IsMinimiser (inactive V1 V2 (Y i)) (fun z => ridged V1 V2 h P (Y i) 0 + (bz + zAy *ᵥ Y i) ⬝ᵥ z + 1 / 2 * (z ⬝ᵥ zAz *ᵥ z)) (z i) := by
    simp only [← ht.taylor]
    exact hmin
  have e2 : IsMinimiser (inactive V1 V2 (Y i)) (fun z => ridged V1 V2 h P (Y i) 0 + (bz + zAy *ᵥ Y i) ⬝ᵥ z
      + 1 / 2 * (z ⬝ᵥ ((2 : ℝ) • zAz) *ᵥ z)) (z i) := by
    have e := (h3 hpos.posSemidef i).1
    refine ⟨e.1, fun z' hz' => ?_⟩
    have e' := e.2 z' hz'
    simp only [ht.taylor (Y i) (z i), ht.taylor (Y i) z'] at e'
    simp only [Matrix.smul_mulVec, dotProduct_smul, smul_eq_mul]
    linarith
  have s1 := stationary_of_min ht.symm hF e1
  have s2 := stationary_of_min (by rw [Matrix.transpose_smul, ht.symm]) hF e2
  by_contra hne
  have hp := hpos.dotProduct_mulVec_pos hne
  have h5 : zAz *ᵥ z i = 0 := by
    funext j
    have a1 := congrFun s1 j
    have a2 := congrFun s2 j
    rw [Matrix.smul_mulVec] at a2
    simp only [Pi.add_apply, Pi.zero_apply, Pi.smul_apply, smul_eq_mul] at a1 a2 ⊢
    linarith
  rw [h5, dotProduct_zero] at hp
  exact lt_irrefl _ hp

/-- `regularize_z` insists on one value per row, in both classes. -/
theorem C63_one_value (lib : Model.Domains.Lib) (rng : Rng S) (s : Subspaces) (d : Option MinData) (Y : NpMat) (N : ℕ) (hN : N ≠ 1)
    (w : S × Files × E) : (boundedMinZ lib rng s d Y N).run w = (.error .exception, w) ∧
      (unboundedMinZ s d Y N).run w = (.error .exception, w) := by
  unfold boundedMinZ unboundedMinZ
  rw [if_pos hN, if_pos hN]
  exact ⟨rfl, rfl⟩

/-! ## Witnesses

Two variables, the first active; data at six points. -/

/-- A quadratic that fits the data exactly is the one found, when the points determine quadratics. -/
theorem best_unique {h : q ≤ n + k} {X : Matrix (Fin M) (Fin (n + k)) ℝ} {f : Fin M → ℝ} {P p : MvPolynomial (Fin q) ℝ}
    (hb : BestQuadratic V1 V2 h X f P) (hp : p.totalDegree ≤ 2) (hf : ∀ i, f i = eval ((leading V1 V2 h)ᵀ *ᵥ X i) p)
    (hu : Unisolvent 2 (Matrix.of fun i => (leading V1 V2 h)ᵀ *ᵥ X i)) : P = p := by
  have h1 := hb.2 p hp
  simp only [← hf, sub_self, ne_eq, OfNat.ofNat_ne_zero, not_false_eq_true, zero_pow, Finset.sum_const_zero] at h1
  have h2 : ∑ i, (eval ((leading V1 V2 h)ᵀ *ᵥ X i) P - f i) ^ 2 = 0 := le_antisymm h1 (Finset.sum_nonneg fun i _ => sq_nonneg _)
  rw [← sub_eq_zero]
  refine hu _ ((totalDegree_sub _ _).trans (max_le hb.1 hp)) fun i => ?_
  have h3 := (Finset.sum_eq_zero_iff_of_nonneg fun i _ => sq_nonneg _).mp h2 i (Finset.mem_univ i)
  have h4 := pow_eq_zero_iff (two_ne_zero) |>.mp h3
  rw [hf] at h4
  rw [map_sub]
  exact h4

/-- The first and the second coordinate vector. -/
abbrev toyV1 : Matrix (Fin (1 + 1)) (Fin 1) ℝ := Matrix.of fun i _ => if i = 0 then 1 else 0
abbrev toyV2 : Matrix (Fin (1 + 1)) (Fin 1) ℝ := Matrix.of fun i _ => if i = 1 then 1 else 0

theorem toy_leading (h : 2 ≤ 1 + 1) : leading toyV1 toyV2 h = (1 : Matrix (Fin 2) (Fin 2) ℝ) := by
  refine Matrix.ext (Fin.forall_fin_two.mpr ⟨Fin.forall_fin_two.mpr ⟨?_, ?_⟩, Fin.forall_fin_two.mpr ⟨?_, ?_⟩⟩) <;>
    simp [leading, Np.hstack, Matrix.one_apply, Fin.append, Fin.addCases]

theorem toy_ridged (h : 2 ≤ 1 + 1) (p : MvPolynomial (Fin 2) ℝ) (a b : ℝ) :
    ridged toyV1 toyV2 h p (fun _ => a) (fun _ => b) = eval ![a, b] p + 0.01 / 2 * b ^ 2 := by
  unfold ridged surrogate
  have e : (leading toyV1 toyV2 h)ᵀ *ᵥ (toyV1 *ᵥ (fun _ => a) + toyV2 *ᵥ fun _ => b) = ![a, b] := by
    have : toyV1 *ᵥ (fun _ => a) + toyV2 *ᵥ (fun _ => b) = (![a, b] : Fin 2 → ℝ) := by
      refine funext (Fin.forall_fin_two.mpr ⟨?_, ?_⟩) <;> simp [Matrix.mulVec, dotProduct]
    rw [this, toy_leading]
    erw [Matrix.transpose_one, Matrix.one_mulVec]
  rw [e, Fin.sum_univ_one]

/-- What `train` stores for exact data from a quadratic. -/
theorem toy_trained {lib : Model.ResponseSurfaces.Lib} (hl : LstsqOK lib) (p : MvPolynomial (Fin 2) ℝ) (hp : p.totalDegree ≤ 2) :
    ∃ bz zAy zAz, Trained lib toySubspaces toyV1 toyV2 (le_refl 2) (sixPoints : Matrix (Fin 6) (Fin (1 + 1)) ℝ)
      (fun i => eval (sixPoints i) p) p bz zAy zAz := by
  obtain ⟨P, bz, zAy, zAz, h⟩ := exists_trained (q := 2) toySplit lib hl (le_refl 1) (sixPoints : Matrix (Fin 6) (Fin (1 + 1)) ℝ)
    (fun i => eval (sixPoints i) p) (by norm_num) (le_refl 2) (by norm_num [Nat.choose])
  have e : ∀ i, (leading toyV1 toyV2 (le_refl 2))ᵀ *ᵥ (sixPoints i : Fin (1 + 1) → ℝ) = sixPoints i := fun i => by
    rw [toy_leading]
    erw [Matrix.transpose_one, Matrix.one_mulVec]
  have : P = p := by
    refine best_unique h.best hp (fun i => by rw [e]) ?_
    simp only [e]
    exact sixPoints_unisolvent
  exact ⟨bz, zAy, zAz, this ▸ h⟩

/-- C62 fails: trained on the function `x2`, the map sends `y = 0` to `z = 100`, where the model has the value 150; its minimum
over `z` is -50, at `z = -100`. -/
theorem C62_fails {lib : Model.ResponseSurfaces.Lib} (hl : LstsqOK lib) (w : S × Files × E) :
    ∃ bz zAy zAz, Trained lib toySubspaces toyV1 toyV2 (le_refl 2) (sixPoints : Matrix (Fin 6) (Fin (1 + 1)) ℝ)
      (fun i => sixPoints i 1) (X 1) bz zAy zAz ∧
      (unboundedMinZ toySubspaces (some (dataOf bz zAy zAz)) (NpMat.of (0 : Matrix (Fin 1) (Fin 1) ℝ)) 1).run w
        = (.ok (some ⟨1, 1, 1, fun _ _ _ => 100⟩), w) ∧
      ridged toyV1 toyV2 (le_refl 2) (X 1) 0 (fun _ => 100) = 150 ∧
      IsMinimiser Set.univ (ridged toyV1 toyV2 (le_refl 2) (X 1) 0) (fun _ => -100) ∧
      ridged toyV1 toyV2 (le_refl 2) (X 1) 0 (fun _ => -100) = -50 := by
  obtain ⟨bz, zAy, zAz, h⟩ := toy_trained hl (X 1) (by rw [totalDegree_X]; norm_num)
  have hv : ∀ b : ℝ, ridged toyV1 toyV2 (le_refl 2) (X 1) 0 (fun _ => b) = b + 0.01 / 2 * b ^ 2 := fun b => by
    have := toy_ridged (le_refl 2) (X 1) 0 b
    rw [eval_X] at this
    exact this
  have hq : ∀ b : ℝ, b + 0.01 / 2 * b ^ 2 = bz 0 * b + 1 / 2 * (b * (zAz 0 0 * b)) := fun b => by
    have := h.taylor 0 (fun _ => b)
    have e0 := hv 0
    rw [hv b, show (0 : Fin 1 → ℝ) = fun _ => 0 from rfl, show ridged toyV1 toyV2 (le_refl 2) (X 1) (fun _ => 0) (fun _ => 0) = 0 + 0.01 / 2 * 0 ^ 2 from hv 0] at this
    simp only [dotProduct, Matrix.mulVec, Fin.sum_univ_one, Pi.add_apply, mul_zero] at this
    linarith
  have hb : bz 0 = 1 := by linarith [hq 1, hq (-1)]
  have hz : zAz 0 0 = 0.01 := by linarith [hq 1, hq (-1)]
  refine ⟨bz, zAy, zAz, ?_, ?_, ?_, ?_, ?_⟩
  · simpa only [eval_X] using h
  · have hdet : IsUnit zAz.det := by
      rw [Matrix.det_fin_one, hz]
      norm_num
    obtain ⟨o, ho⟩ := C62_returns toySplit bz zAy hdet (0 : Matrix (Fin 1) (Fin 1) ℝ) w
    obtain ⟨z, h1, -, h3⟩ := C62_solves toySplit ho
    have h4 := congrFun (h3 0) 0
    simp only [Matrix.mulVec, dotProduct, Fin.sum_univ_one, Pi.add_apply, Matrix.zero_apply, mul_zero, add_zero, hb, hz] at h4
    have h5 : z 0 0 = 100 := by linarith
    rw [ho, h1]
    congr 4
    funext i j _
    rw [Subsingleton.elim i 0, Subsingleton.elim j 0, h5]
  · rw [hv]
    norm_num
  · refine ⟨Set.mem_univ _, fun z _ => ?_⟩
    rw [show z = fun _ => z 0 from funext fun i => by rw [Subsingleton.elim i 0], hv, hv]
    nlinarith [sq_nonneg (z 0 + 100)]
  · rw [hv]
    norm_num

/-- C63 fails: trained on `x2 + x2^2`, the map sends `y = 0` to `z = -1/4.02`; the minimum of the model is at `z = -1/2.01`. -/
theorem C63_fails {lib : Model.ResponseSurfaces.Lib} (hl : LstsqOK lib) {dlib : Model.Domains.Lib} (hq : QPLibOK dlib.qp)
    (hc : QPComplete dlib.qp) (rng : Rng S) (w : S × Files × E) :
    ∃ bz zAy zAz, Trained lib toySubspaces toyV1 toyV2 (le_refl 2) (sixPoints : Matrix (Fin 6) (Fin (1 + 1)) ℝ)
      (fun i => sixPoints i 1 + sixPoints i 1 ^ 2) (X 1 + X 1 ^ 2) bz zAy zAz ∧
      (boundedMinZ dlib rng toySubspaces (some (dataOf bz zAy zAz)) (NpMat.of (0 : Matrix (Fin 1) (Fin 1) ℝ)) 1).run w
        = (.ok (some ⟨1, 1, 1, fun _ _ _ => -1 / 4.02⟩), w) ∧
      IsMinimiser (inactive toyV1 toyV2 0) (ridged toyV1 toyV2 (le_refl 2) (X 1 + X 1 ^ 2) 0) (fun _ => -1 / 2.01) ∧
      ridged toyV1 toyV2 (le_refl 2) (X 1 + X 1 ^ 2) 0 (fun _ => -1 / 2.01)
        < ridged toyV1 toyV2 (le_refl 2) (X 1 + X 1 ^ 2) 0 (fun _ => -1 / 4.02) := by
  obtain ⟨bz, zAy, zAz, h⟩ := toy_trained hl (X 1 + X 1 ^ 2) ((totalDegree_add _ _).trans (max_le (by rw [totalDegree_X]; norm_num)
    ((totalDegree_pow _ _).trans (by rw [totalDegree_X]))))
  have hv : ∀ b : ℝ, ridged toyV1 toyV2 (le_refl 2) (X 1 + X 1 ^ 2) 0 (fun _ => b) = b + b ^ 2 + 0.01 / 2 * b ^ 2 := fun b => by
    have := toy_ridged (le_refl 2) (X 1 + X 1 ^ 2) 0 b
    rw [map_add, map_pow, eval_X] at this
    exact this
  have hq' : ∀ b : ℝ, b + b ^ 2 + 0.01 / 2 * b ^ 2 = bz 0 * b + 1 / 2 * (b * (zAz 0 0 * b)) := fun b => by
    have := h.taylor 0 (fun _ => b)
    rw [hv b, show (0 : Fin 1 → ℝ) = fun _ => 0 from rfl,
      show ridged toyV1 toyV2 (le_refl 2) (X 1 + X 1 ^ 2) (fun _ => 0) (fun _ => 0) = 0 + 0 ^ 2 + 0.01 / 2 * 0 ^ 2 from hv 0] at this
    simp only [dotProduct, Matrix.mulVec, Fin.sum_univ_one, Pi.add_apply, mul_zero] at this
    linarith
  have hb : bz 0 = 1 := by linarith [hq' 1, hq' (-1)]
  have hz : zAz 0 0 = 2.01 := by linarith [hq' 1, hq' (-1)]
  have hin : ∀ z : Fin 1 → ℝ, z ∈ inactive toyV1 toyV2 0 ↔ -1 ≤ z 0 ∧ z 0 ≤ 1 := fun z => by
    constructor
    · intro hz
      have := hz 1
      simpa using this
    · intro hz i
      revert i
      refine Fin.forall_fin_two.mpr ⟨by simp, ?_⟩
      simpa using hz
  have hpsd : zAz.PosSemidef := by
    refine Matrix.PosSemidef.of_dotProduct_mulVec_nonneg h.symm fun x => ?_
    rw [star_trivial]
    simp only [dotProduct, Matrix.mulVec, Fin.sum_univ_one, hz]
    nlinarith [sq_nonneg (x 0)]
  refine ⟨bz, zAy, zAz, ?_, ?_, ?_, ?_⟩
  · simpa only [map_add, map_pow, eval_X] using h
  · have h1 : ∀ i : Fin 1, ∃ x', ((QPSolver.init dlib.qp).quadratic_program_ineq dlib.qp rng (bz + zAy *ᵥ (0 : Matrix (Fin 1) (Fin 1) ℝ) i) zAz
        (polyA toyV2) (polyB (toyV1.mulVec ((0 : Matrix (Fin 1) (Fin 1) ℝ) i)))).run w = (.ok x', w) := fun i => by
      refine quadratic_ineq_returns hc rng _ hpsd _ _ w (fun _ => -1 / 4.02) ?_ ?_
      · rw [ineqSet_poly]
        refine (hin _).mpr ?_
        norm_num
      · funext j
        rw [Subsingleton.elim j 0]
        simp only [quadJac, Matrix.vecMul, Matrix.mulVec, dotProduct, Fin.sum_univ_one, Pi.add_apply, Matrix.zero_apply, mul_zero, add_zero, hb, hz]
        norm_num
    choose x' hx' using h1
    have hrun : (boundedMinZ dlib rng toySubspaces (some (dataOf bz zAy zAz)) (NpMat.of (0 : Matrix (Fin 1) (Fin 1) ℝ)) 1).run w
        = (.ok (some ⟨1, 1, 1, fun i j _ => x' i j⟩), w) := by
      rw [boundedMinZ_eq toySplit, PyM.run_bind_ok (mapFin_run hx')]
      rfl
    rw [hrun]
    have h2 := (C65_solves_quadratic_ineq hq rng _ _ _ hpsd _ _ _ _ _ (hx' 0)).1
    rw [ineqSet_poly] at h2
    have h3 := h2.2 (fun _ => -1 / 4.02) ((hin _).mpr (by norm_num))
    simp only [quadObj, Matrix.mulVec, dotProduct, Fin.sum_univ_one, Pi.add_apply, Matrix.zero_apply, mul_zero, add_zero, hb, hz] at h3
    have h4 : x' 0 0 = -1 / 4.02 := by
      have : (x' 0 0 + 1 / 4.02) ^ 2 ≤ 0 := by nlinarith
      have := pow_eq_zero_iff (two_ne_zero) |>.mp (le_antisymm this (sq_nonneg _))
      linarith
    congr 4
    funext i j _
    rw [Subsingleton.elim i 0, Subsingleton.elim j 0, h4]
  · refine ⟨(hin _).mpr (by norm_num), fun z _ => ?_⟩
    rw [show z = fun _ => z 0 from funext fun i => by rw [Subsingleton.elim i 0], hv, hv]
    nlinarith [sq_nonneg (z 0 + 1 / 2.01)]
  · rw [hv, hv]
    norm_num

/-- C62, C63, C64: data and libraries that meet the hypotheses. -/
example : ∃ (lib : Model.ResponseSurfaces.Lib) (dlib : Model.Domains.Lib), LstsqOK lib ∧ QPLibOK dlib.qp ∧ QPComplete dlib.qp ∧
    ∃ bz zAy zAz, Trained lib toySubspaces toyV1 toyV2 (le_refl 2) (sixPoints : Matrix (Fin 6) (Fin (1 + 1)) ℝ)
      (fun i => sixPoints i 1) (X 1) bz zAy zAz := by
  obtain ⟨lib, hl⟩ := lstsqOK_exists
  obtain ⟨qp, h1, h2⟩ := qpComplete_exists
  obtain ⟨bz, zAy, zAz, h⟩ := toy_trained hl (X 1) (by rw [totalDegree_X]; norm_num)
  exact ⟨lib, ⟨qp, id, fun _ => .error .valueError⟩, hl, h1, h2, bz, zAy, zAz, by simpa only [eval_X] using h⟩

end Props
