import Mathlib.Algebra.Order.Chebyshev
import Verif.Proofs.Misc
import Verif.Proofs.Run
import Verif.Props.QPSolver
import Verif.Spec.Zonotope

/-!
# Properties C45, C46 and C47: sampling the inactive variables
-/

open Py Model.Domains Model.QPSolver Model.Misc Spec Proofs.Run

namespace Props

variable {S E : Type} {m n k N : ℕ}

theorem polyA_left (W2 : Matrix (Fin m) (Fin k) ℝ) (z : Fin k → ℝ) (i : Fin m) :
    (polyA W2).mulVec z (Fin.castAdd m i) = ∑ j, W2 i j * z j :=
  Finset.sum_congr (s₁ := Finset.univ) rfl fun j _ => congrArg (· * z j) (congrFun (Fin.append_left (α := Fin k → ℝ) W2 (-W2) i) j)

theorem polyA_right (W2 : Matrix (Fin m) (Fin k) ℝ) (z : Fin k → ℝ) (i : Fin m) :
    (polyA W2).mulVec z (Fin.natAdd m i) = -∑ j, W2 i j * z j := by
  rw [← Finset.sum_neg_distrib]
  exact Finset.sum_congr (s₁ := Finset.univ) rfl fun j _ =>
    (congrArg (· * z j) (congrFun (Fin.append_right (α := Fin k → ℝ) W2 (-W2) i) j)).trans (neg_mul _ _)

theorem polyB_left (W1 : Matrix (Fin m) (Fin n) ℝ) (y : Fin n → ℝ) (i : Fin m) :
    polyB (W1.mulVec y) (Fin.castAdd m i) = -1 - ∑ j, W1 i j * y j := Fin.append_left _ _ i

theorem polyB_right (W1 : Matrix (Fin m) (Fin n) ℝ) (y : Fin n → ℝ) (i : Fin m) :
    polyB (W1.mulVec y) (Fin.natAdd m i) = -1 + ∑ j, W1 i j * y j := Fin.append_right _ _ i

/-- The two descriptions of the polytope. -/
theorem mem_inactive (W1 : Matrix (Fin m) (Fin n) ℝ) (W2 : Matrix (Fin m) (Fin k) ℝ) (y : Fin n → ℝ) (z : Fin k → ℝ) :
    z ∈ inactive W1 W2 y ↔ ∀ i, polyB (W1.mulVec y) i ≤ (polyA W2).mulVec z i := by
  constructor
  · intro h i
    refine Fin.addCases (fun i => ?_) (fun i => ?_) i
    · rw [polyA_left, polyB_left]; linarith [(h i).1]
    · rw [polyA_right, polyB_right]; linarith [(h i).2]
  · intro h i
    have h1 := h (Fin.castAdd m i)
    have h2 := h (Fin.natAdd m i)
    rw [polyA_left, polyB_left] at h1
    rw [polyA_right, polyB_right] at h2
    constructor <;> linarith

theorem ineqSet_poly (W1 : Matrix (Fin m) (Fin n) ℝ) (W2 : Matrix (Fin m) (Fin k) ℝ) (y : Fin n → ℝ) :
    ineqSet (polyA W2) (polyB (W1.mulVec y)) = inactive W1 W2 y := by
  ext z
  rw [mem_inactive]
  rfl

/-! ## C45 -/

/-- The first elements of a filtered list. -/
theorem filter_map_first {R : ℕ} (c : Fin R → Fin k → ℝ) (p : (Fin k → ℝ) → Bool) :
    (((List.finRange R).map c).filter p).length = Set.ncard {i : Fin R | p (c i) = true} ∧
    ∀ N ≤ (((List.finRange R).map c).filter p).length, ∃ f : Fin N → Fin R, StrictMono f ∧
      (∀ i : Fin N, (((List.finRange R).map c).filter p).getD i 0 = c (f i)) ∧
      ∀ r, p (c r) = true → (∃ i, f i = r) ∨ ∀ i, f i < r := by
  rw [List.filter_map, List.length_map]
  set L := (List.finRange R).filter (p ∘ c) with hL
  have hnd : L.Nodup := (List.nodup_finRange R).filter _
  have hsort : L.Pairwise (· < ·) := (List.pairwise_lt_finRange R).filter _
  have hmem : ∀ r, r ∈ L ↔ p (c r) = true := fun r => by simp [hL]
  refine ⟨?_, fun N hN => ⟨fun i => L[(i : ℕ)]'(lt_of_lt_of_le i.2 hN), fun i j hij => ?_, fun i => ?_, fun r hr => ?_⟩⟩
  · have : {i : Fin R | p (c i) = true} = ↑L.toFinset := by
      ext r
      simp [hmem]
    rw [this, Set.ncard_coe_finset, List.toFinset_card_of_nodup hnd]
  · exact List.pairwise_iff_getElem.mp hsort _ _ _ _ hij
  · rw [List.getD_eq_getElem?_getD, List.getElem?_map, List.getElem?_eq_getElem (lt_of_lt_of_le i.2 hN)]
    rfl
  · obtain ⟨q, hq, rfl⟩ := List.getElem_of_mem ((hmem r).mpr hr)
    by_cases hqN : q < N
    · exact Or.inl ⟨⟨q, hqN⟩, rfl⟩
    · refine Or.inr fun i => List.pairwise_iff_getElem.mp hsort _ _ _ _ ?_
      have := i.2
      omega

/-- The bounding box of a set. -/
def IsBox (P : Set (Fin k → ℝ)) (B : Fin k → ℝ × ℝ) : Prop :=
  ∀ i, (∃ z ∈ P, z i = (B i).1) ∧ (∃ z ∈ P, z i = (B i).2) ∧ ∀ z ∈ P, (B i).1 ≤ z i ∧ z i ≤ (B i).2

theorem box_run {lib : Model.Domains.Lib} (hl : QPLibOK lib.qp) (rng : Rng S) {r : ℕ} (A : Matrix (Fin r) (Fin k) ℝ) (b : Fin r → ℝ)
    (w w' : S × Files × E) (B : Fin k → ℝ × ℝ) (h : (box lib rng A b).run w = (.ok B, w')) : w' = w ∧ IsBox (ineqSet A b) B := by
  have hobj : ∀ (i : Fin k) (c : ℝ) (z : Fin k → ℝ), linObj (fun j => if j = i then c else 0) z = c * z i := fun i c z => by
    simp [linObj]
  have key : ∀ i p w1 w2, ((do
      let l ← (QPSolver.init lib.qp).linear_program_ineq lib.qp rng (fun j => if j = i then 1 else 0) A b
      let u ← (QPSolver.init lib.qp).linear_program_ineq lib.qp rng (fun j => if j = i then -1 else 0) A b
      return (l i, u i)) : PyM (S × Files × E) (ℝ × ℝ)).run w1 = (.ok p, w2) → w2 = w1 ∧ (∃ z ∈ ineqSet A b, z i = p.1) ∧
        (∃ z ∈ ineqSet A b, z i = p.2) ∧ ∀ z ∈ ineqSet A b, p.1 ≤ z i ∧ z i ≤ p.2 := by
    intro i p w1 w2 h1
    obtain ⟨l, w3, h2, h3⟩ := bind_inv h1
    obtain ⟨u, w4, h4, h5⟩ := bind_inv h3
    obtain ⟨rfl, rfl⟩ := pure_inv h5
    obtain ⟨⟨h6, h7⟩, rfl⟩ := C65_solves_linear_ineq hl _ _ _ _ _ _ _ _ h2
    obtain ⟨⟨h8, h9⟩, rfl⟩ := C65_solves_linear_ineq hl _ _ _ _ _ _ _ _ h4
    refine ⟨rfl, ⟨l, h6, rfl⟩, ⟨u, h8, rfl⟩, fun z hz => ?_⟩
    have h10 := h7 z hz
    have h11 := h9 z hz
    rw [hobj, hobj] at h10 h11
    constructor <;> linarith
  obtain ⟨h1, h2⟩ := mapFin_keep h fun i a w1 w2 h3 => (key i a w1 w2 h3).1
  exact ⟨h1, fun i => (key i _ _ _ (h2 i)).2⟩

/-- C45: the candidates are the draws scaled to a box (the bounding box of the polytope, when the solvers meet their
contracts); `None` is returned iff fewer than `N` of the `50 N` candidates are feasible; otherwise the rows are the first `N`
feasible candidates. -/
theorem C45_rejection (lib : Model.Domains.Lib) (rng : Rng S) (N : ℕ) (y : Fin n → ℝ) (W1 : Matrix (Fin m) (Fin n) ℝ)
    (W2 : Matrix (Fin m) (Fin k) ℝ) (w w' : S × Files × E) (r : Option (Matrix (Fin N) (Fin k) ℝ))
    (h : (rejection_sampling_z lib rng N y W1 W2).run w = (.ok r, w')) :
    ∃ (B : Fin k → ℝ × ℝ) (U : Matrix (Fin (50 * N)) (Fin k) ℝ) (cand : Fin (50 * N) → Fin k → ℝ),
      (∃ s, U = (rng.uniform (50 * N) k s).1) ∧ (QPLibOK lib.qp → IsBox (inactive W1 W2 y) B) ∧
      (∀ i j, cand i j = (B j).1 + ((B j).2 - (B j).1) * ((U i j + 1) / 2)) ∧
      (r = none ↔ Set.ncard {i | cand i ∈ inactive W1 W2 y} < N) ∧
      ∀ Z, r = some Z → ∃ f : Fin N → Fin (50 * N), StrictMono f ∧ (∀ i j, Z i j = cand (f i) j) ∧
        (∀ i, Z i ∈ inactive W1 W2 y) ∧ ∀ q, cand q ∈ inactive W1 W2 y → (∃ i, f i = q) ∨ ∀ i, f i < q := by
  classical
  obtain ⟨B, w1, h1, h⟩ := bind_inv h
  obtain ⟨bn, w2, h2, h⟩ := bind_inv h
  obtain ⟨U, w3, h3, h⟩ := bind_inv h
  obtain ⟨Zbox, w4, h4, h⟩ := bind_inv h
  obtain ⟨h5, rfl⟩ := lift_inv h2
  obtain ⟨hU, rfl⟩ := draw_inv h3
  rw [Proofs.Misc.init_ofFn] at h5
  have h6 := Except.ok.inj h5
  subst h6
  obtain ⟨h7, rfl⟩ := lift_inv h4
  rw [Proofs.Misc.unnormalize_of] at h7
  have h8 := Except.ok.inj h7
  subst h8
  set cand : Fin (50 * N) → Fin k → ℝ := fun i j => ((B j).2 - (B j).1) * (U i j + 1) / 2 + (B j).1 with hcand
  have hkeep : keep (polyA W2) (polyB (W1.mulVec y)) (NpMat.of (Matrix.of cand))
      = ((List.finRange (50 * N)).map cand).filter fun z => decide (∀ i, polyB (W1.mulVec y) i ≤ (polyA W2).mulVec z i) := by
    unfold keep
    congr 1
    refine List.ext_getElem (by simp) fun i hi1 hi2 => ?_
    simp only [List.getElem_map, List.getElem_range, List.getElem_finRange]
    funext j
    have hi3 : i < 50 * N := by simpa using hi2
    exact NpMat.get_of (Matrix.of cand) ⟨i, hi3⟩ j
  obtain ⟨hlen, hfirst⟩ := filter_map_first cand fun z => decide (∀ i, polyB (W1.mulVec y) i ≤ (polyA W2).mulVec z i)
  have hset : {i | (decide (∀ l, polyB (W1.mulVec y) l ≤ (polyA W2).mulVec (cand i) l)) = true} = {i | cand i ∈ inactive W1 W2 y} := by
    ext i
    simp only [Set.mem_setOf_eq, decide_eq_true_eq]
    exact (mem_inactive W1 W2 y (cand i)).symm
  rw [hset] at hlen
  refine ⟨B, U, cand, ⟨_, hU⟩, fun hl => ?_, fun i j => ?_, ?_⟩
  · rw [← ineqSet_poly]
    exact (box_run hl rng _ _ _ _ _ h1).2
  · rw [hcand]
    ring
  · dsimp only at h
    change (if (keep (polyA W2) (polyB (W1.mulVec y)) (NpMat.of (Matrix.of cand))).length ≥ N then _ else _ : PyM _ _).run _ = _ at h
    rw [hkeep] at h
    split_ifs at h with hN
    · obtain ⟨hr, -⟩ := pure_inv h
      refine ⟨?_, fun Z hZ => ?_⟩
      · rw [← hr]
        simp only [reduceCtorEq, false_iff, not_lt]
        omega
      · obtain ⟨f, hf1, hf2, hf3⟩ := hfirst N hN
        rw [← hr] at hZ
        have hZ' := Option.some.inj hZ
        have hrow : ∀ i, Z i = cand (f i) := fun i => by
          rw [← hZ']
          funext j
          exact congrFun (hf2 i) j
        refine ⟨f, hf1, fun i j => congrFun (hrow i) j, fun i => ?_, fun q hq => hf3 q ?_⟩
        · rw [hrow i, mem_inactive]
          have h7 := List.of_mem_filter (p := fun z => decide (∀ i, polyB (W1.mulVec y) i ≤ (polyA W2).mulVec z i))
            (List.getElem_mem (l := ((List.finRange (50 * N)).map cand).filter fun z => decide (∀ i, polyB (W1.mulVec y) i ≤ (polyA W2).mulVec z i))
              (lt_of_lt_of_le i.2 hN))
          rw [← hf2 i, List.getD_eq_getElem?_getD, List.getElem?_eq_getElem (lt_of_lt_of_le i.2 hN)]
          simpa using h7
        · simpa using (mem_inactive W1 W2 y _).mp hq
    · obtain ⟨hr, -⟩ := pure_inv h
      refine ⟨?_, fun Z hZ => ?_⟩
      · rw [← hr]
        simp only [true_iff]
        omega
      · rw [← hr] at hZ
        cases hZ

/-- A library that solves every solvable program. -/
theorem exists_solver : ∃ qp : Model.QPSolver.Lib, QPLibOK qp ∧ qp.hasGurobi = false ∧
    ∀ (S E : Type) (m n : ℕ) (rng : Rng S) (c : Fin n → ℝ) (A : Matrix (Fin m) (Fin n) ℝ) (b : Fin m → ℝ) (w : S × Files × E),
      (∃ x, IsMinimiser (ineqSet A b) (linObj c) x) →
      ∃ x, ((QPSolver.init qp).linear_program_ineq qp rng c A b).run w = (.ok x, w) := by
  obtain ⟨qp, h1, h2, h3, -⟩ := qpLibOK_exists false
  refine ⟨qp, h1, h2, fun S E m n rng c A b w ⟨x, hx⟩ => ?_⟩
  obtain ⟨⟨p, h4, h5, h6⟩, -⟩ := C65_linear_ineq (E := E) c A b qp rng
  rw [← h5, ← h6] at hx
  have h7 := h3 _ _ _ hx
  refine ⟨(qp.linprog p).x, ?_⟩
  have h8 : ((QPSolver.init qp).linear_program_ineq qp rng c A b : PyM (S × Files × E) _) = scipy_linear_program_ineq qp rng c A b := by
    refine ((C66_dispatch qp _ _ _).1).trans (if_neg ?_)
    simp [h2]
  rw [h8, h4, finishScipy, if_pos h7]
  rfl

theorem box_ok {qp : Model.QPSolver.Lib} {lib : Model.Domains.Lib} (hlib : lib.qp = qp) {rng : Rng S} {r : ℕ} {A : Matrix (Fin r) (Fin k) ℝ}
    {b : Fin r → ℝ} {w : S × Files × E}
    (h : ∀ c, (∃ i, c = (fun j => if j = i then 1 else 0) ∨ c = fun j => if j = i then -1 else 0) →
      ∃ x, ((QPSolver.init qp).linear_program_ineq qp rng c A b).run w = (.ok x, w)) :
    ∃ B, (box lib rng A b).run w = (.ok B, w) := by
  subst hlib
  choose l hl using fun i : Fin k => h _ ⟨i, .inl rfl⟩
  choose u hu using fun i : Fin k => h _ ⟨i, .inr rfl⟩
  refine ⟨fun i => (l i i, u i i), mapFin_run fun i => ?_⟩
  rw [PyM.run_bind_ok (hl i), PyM.run_bind_ok (hu i)]
  rfl

theorem rejection_ok {lib : Model.Domains.Lib} {rng : Rng S} {N : ℕ} {y : Fin n → ℝ} {W1 : Matrix (Fin m) (Fin n) ℝ}
    {W2 : Matrix (Fin m) (Fin k) ℝ} {w w1 : S × Files × E} {B : Fin k → ℝ × ℝ}
    (h : (box lib rng (polyA W2) (polyB (W1.mulVec y))).run w = (.ok B, w1)) :
    ∃ r w', (rejection_sampling_z lib rng N y W1 W2).run w = (.ok r, w') := by
  unfold rejection_sampling_z
  dsimp only
  rw [PyM.run_bind_ok h, Proofs.Misc.init_ofFn, PyM.run_bind_ok (PyM.run_lift _ _), PyM.run_bind_ok (Rng.run_draw _ _),
    Proofs.Misc.unnormalize_of, PyM.run_bind_ok (PyM.run_lift _ _)]
  split_ifs
  · exact ⟨_, _, rfl⟩
  · exact ⟨_, _, rfl⟩

/-- Every coordinate of a uniform draw is in `[-1, 1]`. -/
def UniformOK (rng : Rng S) : Prop := ∀ r c s i j, -1 ≤ (rng.uniform r c s).1 i j ∧ (rng.uniform r c s).1 i j ≤ 1

/-- The interval of `W1 = (3/5, 4/5)`, `W2 = (4/5, -3/5)`, `y = 0`: solvers and sampler succeed and there are samples. -/
theorem interval_samples : ∃ (lib : Model.Domains.Lib) (rng : Rng Unit), QPLibOK lib.qp ∧ UniformOK rng ∧
    ∀ (N : ℕ) (w : Unit × Files × Unit), ∃ Z w', (rejection_sampling_z lib rng N (fun _ : Fin 1 => 0) (Matrix.of ![![3 / 5], ![4 / 5]] : Matrix (Fin 2) (Fin 1) ℝ)
      (Matrix.of ![![4 / 5], ![-3 / 5]] : Matrix (Fin 2) (Fin 1) ℝ)).run w = (.ok (some Z), w') := by
  obtain ⟨qp, h1, -, h2⟩ := exists_solver
  let lib : Model.Domains.Lib := ⟨qp, fun l => l, fun _ => .error .exception⟩
  let rng : Rng Unit := ⟨fun _ => (), fun r c _ => (0, ()), fun r c _ => (0, ()), fun n _ => (0, ())⟩
  let W1 : Matrix (Fin 2) (Fin 1) ℝ := Matrix.of ![![3 / 5], ![4 / 5]]
  let W2 : Matrix (Fin 2) (Fin 1) ℝ := Matrix.of ![![4 / 5], ![-3 / 5]]
  refine ⟨lib, rng, h1, fun r c s i j => by change (-1 : ℝ) ≤ 0 ∧ (0 : ℝ) ≤ 1; norm_num, fun N w => ?_⟩
  have hin : ∀ z, z ∈ inactive W1 W2 (fun _ => 0) ↔ |z 0| ≤ 5 / 4 := by
    intro z
    simp only [inactive, Set.mem_setOf_eq, Fin.forall_fin_two, Fin.sum_univ_one, W1, W2, abs_le]
    simp only [Matrix.of_apply, Matrix.cons_val_zero, Matrix.cons_val_one, Matrix.cons_val_fin_one]
    constructor
    · rintro ⟨⟨h1, h2⟩, h3, h4⟩
      constructor <;> linarith
    · rintro ⟨h1, h2⟩
      refine ⟨⟨?_, ?_⟩, ?_, ?_⟩ <;> linarith
  obtain ⟨B, hB⟩ := box_ok (lib := lib) (rng := rng) (A := polyA W2) (b := polyB (W1.mulVec fun _ => 0)) (w := w) rfl
    fun c hc => h2 _ _ _ _ rng c _ _ _ (by
      rw [ineqSet_poly]
      obtain ⟨i, rfl | rfl⟩ := hc
      · refine ⟨fun _ => -(5 / 4), (hin _).mpr (by rw [abs_le]; constructor <;> norm_num), fun z hz => ?_⟩
        have := abs_le.mp ((hin z).mp hz)
        fin_cases i
        simp [linObj]
        linarith [this.1]
      · refine ⟨fun _ => 5 / 4, (hin _).mpr (by rw [abs_le]; constructor <;> norm_num), fun z hz => ?_⟩
        have := abs_le.mp ((hin z).mp hz)
        fin_cases i
        simp [linObj]
        linarith [this.2])
  obtain ⟨r, w', hr⟩ := rejection_ok (N := N) hB
  cases r with
  | some Z => exact ⟨Z, w', hr⟩
  | none =>
    exfalso
    obtain ⟨B', U, cand, ⟨s, hU⟩, hb, hc, hn, -⟩ := C45_rejection lib rng N _ W1 W2 _ _ _ hr
    have h3 := hn.mp rfl
    have h4 : {i | cand i ∈ inactive W1 W2 fun _ => 0} = Set.univ := by
      ext i
      simp only [Set.mem_setOf_eq, Set.mem_univ, iff_true]
      rw [hin, hc, hU]
      obtain ⟨⟨z, hz, hz'⟩, ⟨u, hu, hu'⟩, -⟩ := hb h1 0
      have h5 := abs_le.mp ((hin z).mp hz)
      have h6 := abs_le.mp ((hin u).mp hu)
      rw [hz'] at h5
      rw [hu'] at h6
      change |(B' 0).1 + ((B' 0).2 - (B' 0).1) * ((0 + 1) / 2)| ≤ 5 / 4
      rw [abs_le]
      constructor <;> linarith [h5.1, h5.2, h6.1, h6.2]
    rw [h4, Set.ncard_univ, Nat.card_fin] at h3
    omega

/-! ## C46 -/

/-- `B` is the largest ball in `P`, with centre `z`. -/
def IsLargestBall (P : Set (Fin k → ℝ)) (z : Fin k → ℝ) (r : ℝ) : Prop :=
  0 ≤ r ∧ (∀ d : Fin k → ℝ, ∑ j, d j ^ 2 ≤ r ^ 2 → (fun j => z j + d j) ∈ P) ∧
  ∀ (z' : Fin k → ℝ) (r' : ℝ), 0 ≤ r' → (∀ d : Fin k → ℝ, ∑ j, d j ^ 2 ≤ r' ^ 2 → (fun j => z' j + d j) ∈ P) → r' ≤ r

/-- The rows of the linear program for the Chebyshev centre. -/
theorem mem_cheb (W1 : Matrix (Fin m) (Fin n) ℝ) (W2 : Matrix (Fin m) (Fin k) ℝ) (y : Fin n → ℝ) (z : Fin k → ℝ) (r : ℝ) :
    (Fin.snoc z r : Fin (k + 1) → ℝ) ∈ ineqSet (-chebA W2) (-chebB (W1.mulVec y)) ↔
      ∀ i, ∑ j, W1 i j * y j + ∑ j, W2 i j * z j + √(∑ j, W2 i j ^ 2) * r ≤ 1 ∧
        -1 ≤ ∑ j, W1 i j * y j + ∑ j, W2 i j * z j - √(∑ j, W2 i j ^ 2) * r := by
  have e1 : ∀ (i : Fin m) (j : Fin k), chebA W2 (Fin.castAdd m i) j.castSucc = W2 i j := fun i j => by
    refine (Fin.append_left _ _ j).trans ?_
    exact congrFun (Fin.append_left (α := Fin k → ℝ) W2 (-W2) i) j
  have e2 : ∀ (i : Fin m) (j : Fin k), chebA W2 (Fin.natAdd m i) j.castSucc = -W2 i j := fun i j => by
    refine (Fin.append_left _ _ j).trans ?_
    exact congrFun (Fin.append_right (α := Fin k → ℝ) W2 (-W2) i) j
  have e3 : ∀ i : Fin m, chebA W2 (Fin.castAdd m i) (Fin.last k) = √(∑ j, W2 i j ^ 2) := fun i => by
    refine (Fin.append_right _ _ (0 : Fin 1)).trans ?_
    exact congrFun (Fin.append_left (α := Fin 1 → ℝ) _ _ i) 0
  have e4 : ∀ i : Fin m, chebA W2 (Fin.natAdd m i) (Fin.last k) = √(∑ j, W2 i j ^ 2) := fun i => by
    refine (Fin.append_right _ _ (0 : Fin 1)).trans ?_
    exact congrFun (Fin.append_right (α := Fin 1 → ℝ) _ _ i) 0
  have e5 : ∀ i : Fin m, chebB (W1.mulVec y) (Fin.castAdd m i) = 1 - ∑ j, W1 i j * y j := fun i => Fin.append_left _ _ i
  have e6 : ∀ i : Fin m, chebB (W1.mulVec y) (Fin.natAdd m i) = 1 + ∑ j, W1 i j * y j := fun i => Fin.append_right _ _ i
  have key : ∀ i, (-chebB (W1.mulVec y)) i ≤ ∑ j, (-chebA W2) i j * (Fin.snoc z r : Fin (k + 1) → ℝ) j ↔
      ∑ j : Fin k, chebA W2 i j.castSucc * z j + chebA W2 i (Fin.last k) * r ≤ chebB (W1.mulVec y) i := by
    intro i
    rw [Fin.sum_univ_castSucc]
    simp only [Pi.neg_apply, Matrix.neg_apply, neg_mul, Finset.sum_neg_distrib, Fin.snoc_castSucc, Fin.snoc_last]
    constructor <;> intro h <;> linarith
  change (∀ i, _) ↔ _
  simp only [key]
  constructor
  · intro h i
    have h1 := h (Fin.castAdd m i)
    have h2 := h (Fin.natAdd m i)
    simp only [e1, e3, e5] at h1
    simp only [e2, e4, e6, neg_mul, Finset.sum_neg_distrib] at h2
    constructor <;> linarith
  · intro h i
    refine Fin.addCases (fun i => ?_) (fun i => ?_) i
    · simp only [e1, e3, e5]; linarith [(h i).1]
    · simp only [e2, e4, e6, neg_mul, Finset.sum_neg_distrib]; linarith [(h i).2]

/-- A ball is in the polytope iff its centre and radius meet the rows. -/
theorem ball_subset (W1 : Matrix (Fin m) (Fin n) ℝ) (W2 : Matrix (Fin m) (Fin k) ℝ) (y : Fin n → ℝ) (z : Fin k → ℝ) {r : ℝ} (hr : 0 ≤ r) :
    (∀ d : Fin k → ℝ, ∑ j, d j ^ 2 ≤ r ^ 2 → (fun j => z j + d j) ∈ inactive W1 W2 y) ↔
      ∀ i, ∑ j, W1 i j * y j + ∑ j, W2 i j * z j + √(∑ j, W2 i j ^ 2) * r ≤ 1 ∧
        -1 ≤ ∑ j, W1 i j * y j + ∑ j, W2 i j * z j - √(∑ j, W2 i j ^ 2) * r := by
  have hsum : ∀ i (d : Fin k → ℝ), ∑ j, W2 i j * (z j + d j) = ∑ j, W2 i j * z j + ∑ j, W2 i j * d j := fun i d => by
    rw [← Finset.sum_add_distrib]
    exact Finset.sum_congr rfl fun j _ => by ring
  have hQ : ∀ i, 0 ≤ ∑ j, W2 i j ^ 2 := fun i => Finset.sum_nonneg fun j _ => sq_nonneg _
  constructor
  · intro h i
    rcases (hQ i).eq_or_lt with h0 | h0
    · rw [← h0, Real.sqrt_zero, zero_mul]
      have := h (fun _ => 0) (by simp [sq_nonneg]) i
      simp only [add_zero] at this
      constructor <;> linarith [this.1, this.2]
    · have hs : 0 < √(∑ j, W2 i j ^ 2) := Real.sqrt_pos.mpr h0
      have hs2 : √(∑ j, W2 i j ^ 2) ^ 2 = ∑ j, W2 i j ^ 2 := Real.sq_sqrt h0.le
      have hd : ∀ σ : ℝ, σ ^ 2 = 1 → ∑ j, (σ * r / √(∑ j, W2 i j ^ 2) * W2 i j) ^ 2 ≤ r ^ 2 := fun σ hσ => by
        simp only [mul_pow, div_pow, ← Finset.mul_sum, hs2, hσ]
        field_simp
        exact le_refl _
      have hv : ∀ σ : ℝ, ∑ j, W2 i j * (σ * r / √(∑ j, W2 i j ^ 2) * W2 i j) = σ * (√(∑ j, W2 i j ^ 2) * r) := fun σ => by
        have e : ∀ j, W2 i j * (σ * r / √(∑ j, W2 i j ^ 2) * W2 i j) = σ * r / √(∑ j, W2 i j ^ 2) * W2 i j ^ 2 := fun j => by ring
        simp only [e, ← Finset.mul_sum]
        rw [← hs2]
        rw [Real.sqrt_sq hs.le]
        field_simp
      have h1 := (h _ (hd 1 (by norm_num)) i).2
      have h2 := (h _ (hd (-1) (by norm_num)) i).1
      rw [hsum, hv] at h1 h2
      constructor <;> linarith
  · intro h d hd i
    rw [hsum]
    have hc : |∑ j, W2 i j * d j| ≤ √(∑ j, W2 i j ^ 2) * r := by
      refine abs_le_of_sq_le_sq ?_ (mul_nonneg (Real.sqrt_nonneg _) hr)
      rw [mul_pow, Real.sq_sqrt (hQ i)]
      exact (Finset.sum_mul_sq_le_sq_mul_sq _ _ _).trans (mul_le_mul_of_nonneg_left hd (hQ i))
    have := abs_le.mp hc
    constructor <;> linarith [(h i).1, (h i).2, this.1, this.2]

/-- C46: the starting point is the centre of a largest ball in the polytope, when there is a point in it at all. -/
theorem C46_centre {lib : Model.Domains.Lib} (hl : QPLibOK lib.qp) (rng : Rng S) (y : Fin n → ℝ) (W1 : Matrix (Fin m) (Fin n) ℝ)
    (W2 : Matrix (Fin m) (Fin k) ℝ) (hne : (inactive W1 W2 y).Nonempty) (w w' : S × Files × E) (z : Fin k → ℝ)
    (h : (chebyshev lib rng (W1.mulVec y) W2).run w = (.ok z, w')) : w' = w ∧ ∃ r, IsLargestBall (inactive W1 W2 y) z r := by
  obtain ⟨zc, w1, h1, h2⟩ := bind_inv h
  obtain ⟨rfl, rfl⟩ := pure_inv h2
  obtain ⟨⟨h3, h4⟩, h5⟩ := C65_solves_linear_ineq hl _ _ _ _ _ _ _ _ h1
  have hzc : zc = Fin.snoc (fun j : Fin k => zc j.castSucc) (zc (Fin.last k)) := (Fin.snoc_init_self zc).symm
  have hobj : ∀ x : Fin (k + 1) → ℝ, linObj (chebC k) x = -x (Fin.last k) := fun x => by
    simp [linObj, chebC]
  rw [hzc, mem_cheb] at h3
  have hmax : ∀ (z' : Fin k → ℝ) (r' : ℝ), 0 ≤ r' → (∀ d : Fin k → ℝ, ∑ j, d j ^ 2 ≤ r' ^ 2 → (fun j => z' j + d j) ∈ inactive W1 W2 y) →
      r' ≤ zc (Fin.last k) := fun z' r' hr' hb => by
    have := h4 _ ((mem_cheb W1 W2 y z' r').mpr ((ball_subset W1 W2 y z' hr').mp hb))
    rw [hobj, hobj, Fin.snoc_last] at this
    linarith
  obtain ⟨z0, hz0⟩ := hne
  have hr : 0 ≤ zc (Fin.last k) := hmax z0 0 le_rfl fun d hd => by
    have h6 : ∀ j, d j = 0 := fun j => by
      have h7 := Finset.single_le_sum (f := fun j => d j ^ 2) (fun j _ => sq_nonneg _) (Finset.mem_univ j)
      have h8 : d j ^ 2 = 0 := le_antisymm (by simpa using h7.trans hd) (sq_nonneg _)
      exact pow_eq_zero_iff (two_ne_zero) |>.mp h8
    have h9 : (fun j => z0 j + d j) = z0 := funext fun j => by rw [h6, add_zero]
    rw [h9]
    exact hz0
  exact ⟨h5, _, hr, (ball_subset W1 W2 y _ hr).mpr h3, hmax⟩

/-- The centre is in the set. -/
theorem IsLargestBall.mem {P : Set (Fin k → ℝ)} {z : Fin k → ℝ} {r : ℝ} (h : IsLargestBall P z r) : z ∈ P := by
  have := h.2.1 (fun _ => 0) (by simp [sq_nonneg])
  simpa using this

/-- One step from a point with slack in every row stays in the polytope. -/
theorem hitStep_feasible {rng : Rng S} (hu : UniformOK rng) {r : ℕ} {A : Matrix (Fin r) (Fin k) ℝ} {b : Fin r → ℝ} {z0 d z1 : Fin k → ℝ}
    {w w' : S × E} (h : (hitStep rng A b z0 d).run w = (.ok (some z1), w')) (hs : ∀ i, b i < A.mulVec z0 i - sqrtEps) :
    ∀ i, b i ≤ A.mulVec z1 i := by
  classical
  have hsq : 0 ≤ sqrtEps := Real.sqrt_nonneg _
  obtain ⟨emax, w1, h1, h⟩ := bind_inv h
  obtain ⟨emin, w2, h2, h⟩ := bind_inv h
  obtain ⟨U, w3, h3, h⟩ := bind_inv h
  obtain ⟨h4, rfl⟩ := lift_inv h1
  obtain ⟨h5, rfl⟩ := lift_inv h2
  obtain ⟨h6, rfl⟩ := draw_inv h3
  split_ifs at h with hz
  · exact absurd (pure_inv h).1 (by simp)
  · obtain ⟨h7, -⟩ := pure_inv h
    have h8 := Option.some.inj h7
    subst h8
    push Not at hz
    intro i
    have hlin : A.mulVec (fun j => z0 j + (emin + (emax - emin) * ((U 0 0 + 1) / 2)) * d j) i
        = A.mulVec z0 i + (emin + (emax - emin) * ((U 0 0 + 1) / 2)) * A.mulVec d i := by
      simp only [Matrix.mulVec, dotProduct, mul_add, Finset.sum_add_distrib, Finset.mul_sum]
      congr 1
      exact Finset.sum_congr rfl fun j _ => by ring
    rw [hlin]
    obtain ⟨⟨a, ha⟩, hmin⟩ := Np.amin_eq_ok_iff.mp h4
    obtain ⟨⟨c, hc⟩, hmax⟩ := Np.amax_eq_ok_iff.mp h5
    -- membership
    have hneg : ∀ l, b l - A.mulVec z0 l < -sqrtEps := fun l => by linarith [hs l]
    have hminl : ∀ l, A.mulVec d l ≤ 0 → emax ≤ (b l - A.mulVec z0 l) / A.mulVec d l := fun l hl => by
      have hmem : (b l - A.mulVec z0 l) / A.mulVec d l ∈
          ((List.finRange r).filter fun i => decide (A.mulVec d i ≤ 0 ∧ b i - A.mulVec z0 i < -sqrtEps)).map
            (fun i => (b i - A.mulVec z0 i) / A.mulVec d i) :=
        List.mem_map.mpr ⟨l, by simp [hl, hneg l], rfl⟩
      obtain ⟨q, hq⟩ := List.get_of_mem hmem
      rw [← hq]
      exact hmin q
    have hmaxl : ∀ l, 0 < A.mulVec d l → (b l - A.mulVec z0 l) / A.mulVec d l ≤ emin := fun l hl => by
      have hmem : (b l - A.mulVec z0 l) / A.mulVec d l ∈
          ((List.finRange r).filter fun i => decide (A.mulVec d i > 0 ∧ b i - A.mulVec z0 i < -sqrtEps)).map
            (fun i => (b i - A.mulVec z0 i) / A.mulVec d i) :=
        List.mem_map.mpr ⟨l, by simp [hl, hneg l], rfl⟩
      obtain ⟨q, hq⟩ := List.get_of_mem hmem
      rw [← hq]
      exact hmax q
    have hz' : ∀ l, A.mulVec d l ≤ 0 → A.mulVec d l < 0 := fun l hl =>
      lt_of_le_of_ne hl (hz l (by simp [hl, hneg l]))
    have hpos : 0 ≤ emax := by
      obtain ⟨l, hl, hl'⟩ := List.mem_map.mp (List.get_mem _ a)
      rw [← ha, ← hl']
      have hl2 : A.mulVec d l ≤ 0 := by
        have := List.of_mem_filter hl
        simp only [decide_eq_true_eq] at this
        exact this.1
      exact div_nonneg_of_nonpos (by linarith [hneg l]) hl2
    have hneg' : emin ≤ 0 := by
      obtain ⟨l, hl, hl'⟩ := List.mem_map.mp (List.get_mem _ c)
      rw [← hc, ← hl']
      have hl2 : 0 < A.mulVec d l := by
        have := List.of_mem_filter hl
        simp only [decide_eq_true_eq] at this
        exact this.1
      exact div_nonpos_of_nonpos_of_nonneg (by linarith [hneg l]) hl2.le
    have hU := hu 1 1 w2.1 0 0
    rw [← h6] at hU
    have he1 : emin ≤ emin + (emax - emin) * ((U 0 0 + 1) / 2) := by nlinarith [hU.1]
    have he2 : emin + (emax - emin) * ((U 0 0 + 1) / 2) ≤ emax := by nlinarith [hU.2]
    rcases le_or_gt (A.mulVec d i) 0 with hg | hg
    · have hg' := hz' i hg
      have h9 := he2.trans (hminl i hg)
      rw [le_div_iff_of_neg hg'] at h9
      linarith
    · have h9 := (hmaxl i hg).trans he1
      rw [div_le_iff₀ hg] at h9
      linarith

theorem hitLoop_feasible {rng : Rng S} (hu : UniformOK rng) {r : ℕ} {A : Matrix (Fin r) (Fin k) ℝ} {b : Fin r → ℝ} {N : ℕ} {z0 : Fin k → ℝ}
    {w w' : S × E} {Z : Matrix (Fin N) (Fin k) ℝ} (h : (hitLoop rng A b N z0).run w = (.ok (some Z), w'))
    (hs : ∀ l, b l < A.mulVec z0 l - sqrtEps) (i : Fin N) (hZ : ∀ i' < i, ∀ l, b l < A.mulVec (Z i') l - sqrtEps) :
    ∀ l, b l ≤ A.mulVec (Z i) l := by
  have hsq : 0 ≤ sqrtEps := Real.sqrt_nonneg _
  induction N generalizing z0 w with
  | zero => exact i.elim0
  | succ N ih =>
    obtain ⟨d, w1, h1, h2⟩ := bind_inv h
    cases d with
    | none =>
      obtain ⟨h3, -⟩ := pure_inv h2
      rw [← Option.some.inj h3]
      exact fun l => by
        have : A.mulVec (fun j => z0 j) l = A.mulVec z0 l := rfl
        change b l ≤ A.mulVec (fun j => z0 j) l
        linarith [hs l]
    | some d =>
      obtain ⟨z1, w2, h3, h4⟩ := bind_inv h2
      cases z1 with
      | none => exact absurd (pure_inv h4).1 (by simp)
      | some z1 =>
        obtain ⟨rest, w3, h5, h6⟩ := bind_inv h4
        obtain ⟨h7, rfl⟩ := pure_inv h6
        cases rest with
        | none => exact absurd h7 (by simp)
        | some R =>
          have h8 := Option.some.inj h7
          subst h8
          revert hZ
          refine Fin.cases (fun _ => hitStep_feasible hu h3 hs) (fun i hZ => ?_) i
          refine ih h5 (hZ 0 (Fin.succ_pos i)) i fun i' hi' => hZ i'.succ (Fin.succ_lt_succ_iff.mpr hi')

/-- C46 (partial): a row is feasible when every row of the polytope has a slack of more than `sqrt(eps)` at the centre and at the
samples before it.  Missing: the other cases, where it is false (`C46_infeasible`), and the ones in which the step is not finite. -/
theorem C46_hit_and_run_partial {lib : Model.Domains.Lib} (hl : QPLibOK lib.qp) {rng : Rng S} (hu : UniformOK rng) (y : Fin n → ℝ)
    (W1 : Matrix (Fin m) (Fin n) ℝ) (W2 : Matrix (Fin m) (Fin k) ℝ) (hne : (inactive W1 W2 y).Nonempty) (w w' : S × Files × E)
    (Z : Matrix (Fin N) (Fin k) ℝ) (h : (hit_and_run_z lib rng N y W1 W2).run w = (.ok (some Z), w')) :
    ∃ z0 r, IsLargestBall (inactive W1 W2 y) z0 r ∧
      ((∀ i, |∑ j, W1 i j * y j + ∑ j, W2 i j * z0 j| < 1 - sqrtEps) → ∀ i,
        (∀ i' < i, ∀ l, |∑ j, W1 l j * y j + ∑ j, W2 l j * Z i' j| < 1 - sqrtEps) → Z i ∈ inactive W1 W2 y) := by
  obtain ⟨z0, w1, h1, h2⟩ := bind_inv h
  obtain ⟨rfl, r, hr⟩ := C46_centre hl rng y W1 W2 hne w w1 z0 h1
  refine ⟨z0, r, hr, fun hs i hZ => ?_⟩
  rw [mem_inactive]
  have key : ∀ z : Fin k → ℝ, (∀ i, |∑ j, W1 i j * y j + ∑ j, W2 i j * z j| < 1 - sqrtEps) →
      ∀ l, polyB (W1.mulVec y) l < (polyA W2).mulVec z l - sqrtEps := by
    intro z hz l
    refine Fin.addCases (fun l => ?_) (fun l => ?_) l
    · rw [polyA_left, polyB_left]
      linarith [(abs_lt.mp (hz l)).1]
    · rw [polyA_right, polyB_right]
      linarith [(abs_lt.mp (hz l)).2]
  exact hitLoop_feasible hu h2 (key z0 hs) i fun i' hi' => key _ (hZ i' hi')

end Props
