import Verif.Props.Samplers

/-!
# Properties C46 and C47: samplers that leave the polytope
-/

open Py Model.Domains Model.QPSolver Model.Misc Spec Proofs.Run

namespace Props

variable {S E : Type} {m n k N : ℕ}

/-! ## C46 -/

theorem sqrtEps_eq : sqrtEps = 1 / 67108864 := by
  unfold sqrtEps
  rw [show (2 : ℝ) ^ (-52 : ℤ) = (1 / 67108864) ^ 2 by norm_num, Real.sqrt_sq (by norm_num)]

namespace HitWitness

/-- The first eigenvector. -/
noncomputable def W1 : Matrix (Fin 2) (Fin 1) ℝ := Matrix.of ![![3 / 5], ![4 / 5]]

/-- The second eigenvector. -/
noncomputable def W2 : Matrix (Fin 2) (Fin 1) ℝ := Matrix.of ![![4 / 5], ![-3 / 5]]

/-- An active variable close to the end of its interval `[-7/5, 7/5]`. -/
noncomputable def y : Fin 1 → ℝ := fun _ => 7 / 5 - 24 / 10 ^ 10

/-- A generator. -/
noncomputable def rng : Rng Unit :=
  ⟨fun _ => (), fun r c _ => (Matrix.of fun _ _ => 1 / 1000, ()), fun r c _ => (Matrix.of fun _ _ => 1, ()), fun n _ => (0, ())⟩

theorem orthogonal : W1 * W1.transpose + W2 * W2.transpose = 1 := by
  ext i j
  rw [Matrix.add_apply, Matrix.mul_apply, Matrix.mul_apply, Fin.sum_univ_one, Fin.sum_univ_one]
  fin_cases i <;> fin_cases j <;> norm_num [W1, W2, Matrix.transpose_apply]

theorem mem (z : Fin 1 → ℝ) : z ∈ inactive W1 W2 y ↔ 1 / 5 - 32 / 10 ^ 10 ≤ z 0 ∧ z 0 ≤ 1 / 5 + 18 / 10 ^ 10 := by
  simp only [inactive, Set.mem_setOf_eq, Fin.forall_fin_two, Fin.sum_univ_one, W1, W2, y]
  simp only [Matrix.of_apply, Matrix.cons_val_zero, Matrix.cons_val_one, Matrix.cons_val_fin_one]
  constructor
  · rintro ⟨⟨h1, h2⟩, h3, h4⟩
    constructor <;> linarith
  · rintro ⟨h1, h2⟩
    refine ⟨⟨?_, ?_⟩, ?_, ?_⟩ <;> linarith

theorem cheb (z : Fin 1 → ℝ) (r : ℝ) : (Fin.snoc z r : Fin 2 → ℝ) ∈ ineqSet (-chebA W2) (-chebB (W1.mulVec y)) ↔
    1 / 5 - 32 / 10 ^ 10 ≤ z 0 - r ∧ z 0 + r ≤ 1 / 5 + 18 / 10 ^ 10 := by
  have s1 : √((4 / 5 : ℝ) ^ 2) = 4 / 5 := Real.sqrt_sq (by norm_num)
  have s2 : √((-3 / 5 : ℝ) ^ 2) = 3 / 5 := by rw [Real.sqrt_sq_eq_abs]; norm_num [abs_div]
  rw [mem_cheb]
  simp only [Fin.forall_fin_two, Fin.sum_univ_one, W1, W2, y]
  simp only [Matrix.of_apply, Matrix.cons_val_zero, Matrix.cons_val_one, Matrix.cons_val_fin_one, s1, s2]
  constructor
  · rintro ⟨⟨h1, h2⟩, h3, h4⟩
    constructor <;> linarith
  · rintro ⟨h1, h2⟩
    refine ⟨⟨?_, ?_⟩, ?_, ?_⟩ <;> linarith

/-- The centre of the interval. -/
noncomputable def z0 : Fin 1 → ℝ := fun _ => 1 / 5 - 7 / 10 ^ 10

theorem centre {lib : Model.Domains.Lib} (hl : QPLibOK lib.qp) {w w' : Unit × Files × E} {z : Fin 1 → ℝ}
    (h : (chebyshev lib rng (W1.mulVec y) W2).run w = (.ok z, w')) : w' = w ∧ z = z0 := by
  have hne : (inactive W1 W2 y).Nonempty := ⟨z0, (mem z0).mpr ⟨by norm_num [z0], by norm_num [z0]⟩⟩
  obtain ⟨rfl, r, h0, h1, h2⟩ := C46_centre hl rng y W1 W2 hne w w' z h
  refine ⟨rfl, ?_⟩
  have h3 := h2 z0 (25 / 10 ^ 10) (by norm_num) fun d hd => by
    rw [Fin.sum_univ_one] at hd
    have := abs_le.mp (abs_le_of_sq_le_sq hd (by norm_num))
    rw [mem]
    simp only [z0]
    constructor <;> linarith [this.1, this.2]
  have h4 := (mem _).mp (h1 (fun _ => r) (by simp))
  have h5 := (mem _).mp (h1 (fun _ => -r) (by simp))
  funext i
  fin_cases i
  simp only [z0, Fin.zero_eta]
  linarith [h4.1, h4.2, h5.1, h5.2]

theorem rows (z : Fin 1 → ℝ) : (polyA W2).mulVec z 0 = 4 / 5 * z 0 ∧ (polyA W2).mulVec z 1 = -3 / 5 * z 0 ∧
    (polyA W2).mulVec z 2 = -(4 / 5 * z 0) ∧ (polyA W2).mulVec z 3 = -(-3 / 5 * z 0) := by
  have h0 := polyA_left W2 z 0
  have h1 := polyA_left W2 z 1
  have h2 := polyA_right W2 z 0
  have h3 := polyA_right W2 z 1
  rw [Fin.sum_univ_one] at h0 h1 h2 h3
  exact ⟨h0, h1, h2, h3⟩

theorem rhs : polyB (W1.mulVec y) 0 = -1 - 3 / 5 * (7 / 5 - 24 / 10 ^ 10) ∧ polyB (W1.mulVec y) 1 = -1 - 4 / 5 * (7 / 5 - 24 / 10 ^ 10) ∧
    polyB (W1.mulVec y) 2 = -1 + 3 / 5 * (7 / 5 - 24 / 10 ^ 10) ∧ polyB (W1.mulVec y) 3 = -1 + 4 / 5 * (7 / 5 - 24 / 10 ^ 10) := by
  have h0 := polyB_left W1 y 0
  have h1 := polyB_left W1 y 1
  have h2 := polyB_right W1 y 0
  have h3 := polyB_right W1 y 1
  rw [Fin.sum_univ_one] at h0 h1 h2 h3
  exact ⟨h0, h1, h2, h3⟩

theorem direction (w : Unit × E) : (findDir rng (polyA W2) (polyB (W1.mulVec y)) z0 50).run w = (.ok (some fun _ => 1 / 1000), w) := by
  unfold findDir
  rw [PyM.run_bind_ok (Rng.run_draw _ _)]
  dsimp only
  rw [if_neg (by norm_num), if_neg]
  · rfl
  · rintro ⟨i, hi⟩
    obtain ⟨a0, a1, a2, a3⟩ := rows fun j => z0 j + eps0 * (Matrix.of fun (_ : Fin 1) (_ : Fin 1) => (1 / 1000 : ℝ)) j 0
    obtain ⟨b0, b1, b2, b3⟩ := rhs
    simp only [z0, eps0, Matrix.of_apply] at a0 a1 a2 a3
    have hi' : (polyA W2).mulVec (fun j => z0 j + eps0 * (Matrix.of fun (_ : Fin 1) (_ : Fin 1) => (1 / 1000 : ℝ)) j 0) i
      ≤ polyB (W1.mulVec y) i := hi
    simp only [z0, eps0, Matrix.of_apply] at hi'
    fin_cases i
    · change (polyA W2).mulVec _ 0 ≤ polyB _ 0 at hi'
      rw [a0, b0] at hi'
      norm_num at hi'
    · change (polyA W2).mulVec _ 1 ≤ polyB _ 1 at hi'
      rw [a1, b1] at hi'
      norm_num at hi'
    · change (polyA W2).mulVec _ 2 ≤ polyB _ 2 at hi'
      rw [a2, b2] at hi'
      norm_num at hi'
    · change (polyA W2).mulVec _ 3 ≤ polyB _ 3 at hi'
      rw [a3, b3] at hi'
      norm_num at hi'

theorem aminList_one (x : ℝ) : aminList [x] = .ok x := by
  refine Np.amin_eq_ok_iff.mpr ⟨⟨⟨0, by simp⟩, rfl⟩, fun j => ?_⟩
  have hj : j = ⟨0, by simp⟩ := Fin.ext (Nat.lt_one_iff.mp j.2)
  rw [hj]
  exact le_refl x

theorem amaxList_one (x : ℝ) : amaxList [x] = .ok x := by
  refine Np.amax_eq_ok_iff.mpr ⟨⟨⟨0, by simp⟩, rfl⟩, fun j => ?_⟩
  have hj : j = ⟨0, by simp⟩ := Fin.ext (Nat.lt_one_iff.mp j.2)
  rw [hj]
  exact le_refl x

theorem step (w : Unit × E) : ∃ z1, (hitStep rng (polyA W2) (polyB (W1.mulVec y)) z0 fun _ => 1 / 1000).run w = (.ok (some z1), w) ∧
    3 ≤ z1 0 := by
  classical
  have a0 : (polyA W2).mulVec z0 0 = 4 / 5 * (1 / 5 - 7 / 10 ^ 10) := (rows z0).1
  have a1 : (polyA W2).mulVec z0 1 = -3 / 5 * (1 / 5 - 7 / 10 ^ 10) := (rows z0).2.1
  have a2 : (polyA W2).mulVec z0 2 = -(4 / 5 * (1 / 5 - 7 / 10 ^ 10)) := (rows z0).2.2.1
  have a3 : (polyA W2).mulVec z0 3 = -(-3 / 5 * (1 / 5 - 7 / 10 ^ 10)) := (rows z0).2.2.2
  obtain ⟨g0, g1, g2, g3⟩ := rows fun _ => 1 / 1000
  obtain ⟨b0, b1, b2, b3⟩ := rhs
  have hmin : (List.finRange (2 + 2)).filter (fun i => decide ((polyA W2).mulVec (fun _ => 1 / 1000) i ≤ 0 ∧
      polyB (W1.mulVec y) i - (polyA W2).mulVec z0 i < -sqrtEps)) = [1] := by
    have e : List.finRange (2 + 2) = [0, 1, 2, 3] := rfl
    have f0 : ¬ ((polyA W2).mulVec (fun _ => 1 / 1000) 0 ≤ 0 ∧ polyB (W1.mulVec y) 0 - (polyA W2).mulVec z0 0 < -sqrtEps) := by
      rw [g0]; norm_num
    have f1 : (polyA W2).mulVec (fun _ => 1 / 1000) 1 ≤ 0 ∧ polyB (W1.mulVec y) 1 - (polyA W2).mulVec z0 1 < -sqrtEps := by
      rw [g1, b1, a1, sqrtEps_eq]; norm_num
    have f2 : ¬ ((polyA W2).mulVec (fun _ => 1 / 1000) 2 ≤ 0 ∧ polyB (W1.mulVec y) 2 - (polyA W2).mulVec z0 2 < -sqrtEps) := by
      rw [g2, b2, a2, sqrtEps_eq]; norm_num
    have f3 : ¬ ((polyA W2).mulVec (fun _ => 1 / 1000) 3 ≤ 0 ∧ polyB (W1.mulVec y) 3 - (polyA W2).mulVec z0 3 < -sqrtEps) := by
      rw [g3]; norm_num
    rw [e, List.filter_cons_of_neg (by simpa using f0), List.filter_cons_of_pos (by simpa using f1),
      List.filter_cons_of_neg (by simpa using f2), List.filter_cons_of_neg (by simpa using f3), List.filter_nil]
  have hmax : (List.finRange (2 + 2)).filter (fun i => decide ((polyA W2).mulVec (fun _ => 1 / 1000) i > 0 ∧
      polyB (W1.mulVec y) i - (polyA W2).mulVec z0 i < -sqrtEps)) = [0] := by
    have e : List.finRange (2 + 2) = [0, 1, 2, 3] := rfl
    have f0 : (polyA W2).mulVec (fun _ => 1 / 1000) 0 > 0 ∧ polyB (W1.mulVec y) 0 - (polyA W2).mulVec z0 0 < -sqrtEps := by
      rw [g0, b0, a0, sqrtEps_eq]; norm_num
    have f1 : ¬ ((polyA W2).mulVec (fun _ => 1 / 1000) 1 > 0 ∧ polyB (W1.mulVec y) 1 - (polyA W2).mulVec z0 1 < -sqrtEps) := by
      rw [g1]; norm_num
    have f2 : ¬ ((polyA W2).mulVec (fun _ => 1 / 1000) 2 > 0 ∧ polyB (W1.mulVec y) 2 - (polyA W2).mulVec z0 2 < -sqrtEps) := by
      rw [g2]; norm_num
    have f3 : ¬ ((polyA W2).mulVec (fun _ => 1 / 1000) 3 > 0 ∧ polyB (W1.mulVec y) 3 - (polyA W2).mulVec z0 3 < -sqrtEps) := by
      rw [g3, b3, a3, sqrtEps_eq]; norm_num
    rw [e, List.filter_cons_of_pos (by simpa using f0), List.filter_cons_of_neg (by simpa using f1),
      List.filter_cons_of_neg (by simpa using f2), List.filter_cons_of_neg (by simpa using f3), List.filter_nil]
  unfold hitStep
  dsimp only
  rw [hmin, hmax]
  simp only [List.map_cons, List.map_nil]
  rw [aminList_one, PyM.run_bind_ok (PyM.run_lift _ _), amaxList_one, PyM.run_bind_ok (PyM.run_lift _ _),
    PyM.run_bind_ok (Rng.run_draw _ _), if_neg (by
      rintro ⟨i, hi, h⟩
      rw [List.mem_singleton] at hi
      rw [hi, g1] at h
      norm_num at h)]
  refine ⟨_, rfl, ?_⟩
  change 3 ≤ (1 / 5 - 7 / 10 ^ 10) + _ * (1 / 1000 : ℝ)
  rw [g0, g1, b0, b1, a0, a1]
  change 3 ≤ (1 / 5 - 7 / 10 ^ 10) + (_ + (_ - _) * ((1 + 1) / 2)) * (1 / 1000 : ℝ)
  norm_num

end HitWitness

/-- C46 fails: the polytope is an interval with interior points, its Chebyshev centre is found, and the first row is outside. -/
theorem C46_infeasible : ∃ (lib : Model.Domains.Lib) (rng : Rng Unit) (W1 W2 : Matrix (Fin 2) (Fin 1) ℝ) (y : Fin 1 → ℝ)
    (w w' : Unit × Files × Unit) (Z : Matrix (Fin 1) (Fin 1) ℝ) (z0 : Fin 1 → ℝ) (r : ℝ), QPLibOK lib.qp ∧ UniformOK rng ∧
    W1 * W1.transpose + W2 * W2.transpose = 1 ∧ IsLargestBall (inactive W1 W2 y) z0 r ∧ 0 < r ∧
    (chebyshev lib rng (W1.mulVec y) W2).run w = (.ok z0, w) ∧
    (hit_and_run_z lib rng 1 y W1 W2).run w = (.ok (some Z), w') ∧ Z 0 ∉ inactive W1 W2 y := by
  obtain ⟨qp, h1, -, h2⟩ := exists_solver
  let lib : Model.Domains.Lib := ⟨qp, fun l => l, fun _ => .error .exception⟩
  have hmem : (inactive HitWitness.W1 HitWitness.W2 HitWitness.y).Nonempty :=
    ⟨HitWitness.z0, (HitWitness.mem _).mpr ⟨by norm_num [HitWitness.z0], by norm_num [HitWitness.z0]⟩⟩
  obtain ⟨zc, h3⟩ := h2 Unit Unit _ _ HitWitness.rng (chebC 1) (-chebA HitWitness.W2) (-chebB (HitWitness.W1.mulVec HitWitness.y)) ((), [], ()) (by
    refine ⟨Fin.snoc HitWitness.z0 (25 / 10 ^ 10), (HitWitness.cheb _ _).mpr ⟨by norm_num [HitWitness.z0], by norm_num [HitWitness.z0]⟩, fun x hx => ?_⟩
    have hx' : x = Fin.snoc (fun j : Fin 1 => x j.castSucc) (x (Fin.last 1)) := (Fin.snoc_init_self x).symm
    rw [hx', HitWitness.cheb] at hx
    have hobj : ∀ x : Fin (1 + 1) → ℝ, linObj (chebC 1) x = -x (Fin.last 1) := fun x => by simp [linObj, chebC]
    rw [hobj, hobj, Fin.snoc_last]
    linarith [hx.1, hx.2])
  have h4 : (chebyshev lib HitWitness.rng (HitWitness.W1.mulVec HitWitness.y) HitWitness.W2).run ((), [], ())
      = (.ok fun j => zc j.castSucc, ((), [], ())) := by
    unfold chebyshev
    rw [PyM.run_bind_ok h3]
    rfl
  obtain ⟨-, h5⟩ := HitWitness.centre (lib := lib) h1 h4
  rw [h5] at h4
  obtain ⟨-, r, hr⟩ := C46_centre (lib := lib) h1 _ _ _ _ hmem _ _ _ h4
  obtain ⟨z1, h6, h7⟩ := HitWitness.step (E := Files × Unit) ((), [], ())
  refine ⟨lib, HitWitness.rng, HitWitness.W1, HitWitness.W2, HitWitness.y, ((), [], ()), ((), [], ()),
    Matrix.of (Fin.cons z1 fun i => Np.zeros 0 1 i), HitWitness.z0, r, h1, ?_, HitWitness.orthogonal, hr, ?_, h4, ?_, ?_⟩
  · intro r c s i j
    change (-1 : ℝ) ≤ 1 ∧ (1 : ℝ) ≤ 1
    norm_num
  · refine lt_of_lt_of_le (by norm_num : (0 : ℝ) < 1 / 10 ^ 10) (hr.2.2 HitWitness.z0 _ (by norm_num) fun d hd => ?_)
    rw [Fin.sum_univ_one] at hd
    have := abs_le.mp (abs_le_of_sq_le_sq hd (by norm_num))
    rw [HitWitness.mem]
    simp only [HitWitness.z0]
    constructor <;> linarith [this.1, this.2]
  · unfold hit_and_run_z
    dsimp only
    rw [PyM.run_bind_ok h4]
    unfold hitLoop
    rw [PyM.run_bind_ok (HitWitness.direction _)]
    dsimp only
    rw [PyM.run_bind_ok h6]
    rfl
  · rw [HitWitness.mem]
    rintro ⟨-, h8⟩
    change z1 0 ≤ _ at h8
    norm_num at h8
    linarith

/-- The search for a direction gives up when no draw is good. -/
theorem findDir_none {rng : Rng S} {r : ℕ} {A : Matrix (Fin r) (Fin k) ℝ} {b : Fin r → ℝ} {z0 : Fin k → ℝ}
    (h : ∀ s, ∃ i, A.mulVec (fun j => z0 j + eps0 * (rng.normal k 1 s).1 j 0) i ≤ b i) (t : ℕ) (w : S × E) :
    ∃ w', (findDir rng A b z0 t).run w = (.ok none, w') := by
  induction t generalizing w with
  | zero => exact ⟨w, rfl⟩
  | succ t ih =>
    unfold findDir
    rw [PyM.run_bind_ok (Rng.run_draw _ _)]
    dsimp only
    split_ifs with h1 h2
    · exact ⟨_, rfl⟩
    · exact ih _
    · exact absurd (h w.1) h2

/-- The hypotheses of the partial theorem are met, with slack at the centre: `y = 0`, and no good direction is drawn. -/
example : ∃ (lib : Model.Domains.Lib) (rng : Rng Unit) (W1 W2 : Matrix (Fin 2) (Fin 1) ℝ) (y : Fin 1 → ℝ)
    (w w' : Unit × Files × Unit) (Z : Matrix (Fin 2) (Fin 1) ℝ), QPLibOK lib.qp ∧ UniformOK rng ∧ (inactive W1 W2 y).Nonempty ∧
    (hit_and_run_z lib rng 2 y W1 W2).run w = (.ok (some Z), w') ∧
    ∀ z0 r, IsLargestBall (inactive W1 W2 y) z0 r → ∀ i, |∑ j, W1 i j * y j + ∑ j, W2 i j * z0 j| < 1 - sqrtEps := by
  obtain ⟨qp, h1, -, h2⟩ := exists_solver
  let lib : Model.Domains.Lib := ⟨qp, fun l => l, fun _ => .error .exception⟩
  let rng : Rng Unit := ⟨fun _ => (), fun r c _ => (Matrix.of fun _ _ => 10 ^ 10, ()), fun r c _ => (0, ()), fun n _ => (0, ())⟩
  let y : Fin 1 → ℝ := fun _ => 0
  have hin : ∀ z, z ∈ inactive HitWitness.W1 HitWitness.W2 y ↔ -(5 / 4) ≤ z 0 ∧ z 0 ≤ 5 / 4 := by
    intro z
    simp only [inactive, Set.mem_setOf_eq, Fin.forall_fin_two, Fin.sum_univ_one, HitWitness.W1, HitWitness.W2, y]
    simp only [Matrix.of_apply, Matrix.cons_val_zero, Matrix.cons_val_one, Matrix.cons_val_fin_one]
    constructor
    · rintro ⟨⟨h1, h2⟩, h3, h4⟩
      constructor <;> linarith
    · rintro ⟨h1, h2⟩
      refine ⟨⟨?_, ?_⟩, ?_, ?_⟩ <;> linarith
  have hball : ∀ z0 r, IsLargestBall (inactive HitWitness.W1 HitWitness.W2 y) z0 r → z0 = fun _ => 0 := by
    rintro z0 r ⟨h3, h4, h5⟩
    have h6 := h5 (fun _ => 0) (5 / 4) (by norm_num) fun d hd => by
      rw [Fin.sum_univ_one] at hd
      have := abs_le.mp (abs_le_of_sq_le_sq hd (by norm_num))
      rw [hin]
      constructor <;> linarith [this.1, this.2]
    have h7 := (hin _).mp (h4 (fun _ => r) (by simp))
    have h8 := (hin _).mp (h4 (fun _ => -r) (by simp))
    funext i
    fin_cases i
    simp only [Fin.zero_eta]
    linarith [h7.1, h7.2, h8.1, h8.2]
  have hne : (inactive HitWitness.W1 HitWitness.W2 y).Nonempty := ⟨fun _ => 0, (hin _).mpr ⟨by norm_num, by norm_num⟩⟩
  obtain ⟨zc, h3⟩ := h2 Unit Unit _ _ rng (chebC 1) (-chebA HitWitness.W2) (-chebB (HitWitness.W1.mulVec y)) ((), [], ()) (by
    have hobj : ∀ x : Fin (1 + 1) → ℝ, linObj (chebC 1) x = -x (Fin.last 1) := fun x => by simp [linObj, chebC]
    refine ⟨Fin.snoc (fun _ => 0) (5 / 4), (mem_cheb _ _ _ _ _).mpr ((ball_subset _ _ _ _ (by norm_num)).mp fun d hd => ?_), fun x hx => ?_⟩
    · rw [Fin.sum_univ_one] at hd
      have := abs_le.mp (abs_le_of_sq_le_sq hd (by norm_num))
      rw [hin]
      constructor <;> linarith [this.1, this.2]
    · rw [hobj, hobj, Fin.snoc_last]
      rcases le_or_gt (x (Fin.last 1)) 0 with h0 | h0
      · linarith
      · have hx' : x = Fin.snoc (fun j : Fin 1 => x j.castSucc) (x (Fin.last 1)) := (Fin.snoc_init_self x).symm
        rw [hx', mem_cheb, ← ball_subset _ _ _ _ h0.le] at hx
        have h7 := (hin _).mp (hx (fun _ => x (Fin.last 1)) (by simp))
        have h8 := (hin _).mp (hx (fun _ => -x (Fin.last 1)) (by simp))
        linarith [h7.1, h7.2, h8.1, h8.2])
  have h4 : (chebyshev lib rng (HitWitness.W1.mulVec y) HitWitness.W2).run ((), [], ())
      = (.ok fun j => zc j.castSucc, ((), [], ())) := by
    unfold chebyshev
    rw [PyM.run_bind_ok h3]
    rfl
  obtain ⟨-, r, hr⟩ := C46_centre (lib := lib) h1 _ _ _ _ hne _ _ _ h4
  rw [hball _ _ hr] at h4
  have hbad : ∀ s : Unit, ∃ i, (polyA HitWitness.W2).mulVec (fun j => (fun _ => (0 : ℝ)) j + eps0 * (rng.normal 1 1 s).1 j 0) i
      ≤ polyB (HitWitness.W1.mulVec y) i := by
    intro s
    refine ⟨Fin.natAdd 2 0, ?_⟩
    rw [polyA_right, polyB_right, Fin.sum_univ_one, Fin.sum_univ_one]
    change -(4 / 5 * (0 + eps0 * 10 ^ 10 : ℝ)) ≤ -1 + 3 / 5 * 0
    rw [eps0]
    norm_num
  obtain ⟨w', h5⟩ := findDir_none (E := Files × Unit) hbad 50 ((), [], ())
  refine ⟨lib, rng, HitWitness.W1, HitWitness.W2, y, ((), [], ()), w', Matrix.of fun _ _ => 0, h1, fun r c s i j => ?_, hne, ?_, fun z0 r hr i => ?_⟩
  · change (-1 : ℝ) ≤ 0 ∧ (0 : ℝ) ≤ 1
    norm_num
  · unfold hit_and_run_z
    dsimp only
    rw [PyM.run_bind_ok h4]
    unfold hitLoop
    rw [PyM.run_bind_ok h5]
    rfl
  · rw [hball z0 r hr, sqrtEps_eq]
    simp [y]
    norm_num

end Props
