import Mathlib.Analysis.SpecialFunctions.ExpDeriv
import Mathlib.Analysis.Real.Pi.Bounds
import Verif.Proofs.Misc
import Verif.Proofs.TestFunctions
import Verif.Spec.RowGradient
import Verif.Spec.Zonotope

/-!
# C74-C78: the functions of the tutorials and their gradients
-/

open Py Model.Misc Model.TestFunctions Proofs.Partials Proofs.TestFunctions Spec

namespace Props

variable {m M d : ℕ}

theorem columns_of (X : Matrix (Fin M) (Fin m) ℝ) : columns m (NpMat.of X) = .ok X := by
  unfold columns
  exact dif_pos (le_refl m)

theorem onBox_of (xl xu : Fin m → ℝ) (f : (Fin m → ℝ) → Fin d → ℝ) (Z : Matrix (Fin M) (Fin m) ℝ) :
    onBox xl xu f (.mat (.of Z)) = .ok (.of (Matrix.of fun i => f fun j => (xu j - xl j) * (Z i j + 1) / 2 + xl j)) := by
  unfold onBox
  rw [Proofs.Misc.init_ofFn]
  change (do
    let x ← BoundedNormalizer.unnormalize ⟨_, _⟩ (.mat (.of Z))
    let x ← columns m x
    return NpMat.of (Matrix.of fun i => f (x i))) = _
  rw [Proofs.Misc.unnormalize_of]
  change (do
    let x ← columns m (NpMat.of _)
    return NpMat.of (Matrix.of fun i => f (x i))) = _
  rw [columns_of]
  rfl

/-- The chain rule for the scaling of the unit box. -/
theorem rowGradient_of_box {xl xu : Fin m → ℝ} {f : (Fin m → ℝ) → ℝ} {g : (Fin m → ℝ) → Fin m → ℝ} {P : (Fin m → ℝ) → ℝ → Prop}
    (hU : ∀ j, xl j < xu j)
    (h : ∀ z : Fin m → ℝ, P z (f fun j => (xu j - xl j) * (z j + 1) / 2 + xl j) →
      HasFDerivAt f (lin fun j => g (fun j => (xu j - xl j) * (z j + 1) / 2 + xl j) j / ((xu j - xl j) / 2))
        fun j => (xu j - xl j) * (z j + 1) / 2 + xl j) :
    RowGradient m (onBox xl xu fun x (_ : Fin 1) => f x) (onBox xl xu g) P := by
  refine ⟨fun z => f fun j => (xu j - xl j) * (z j + 1) / 2 + xl j, fun M Z => ⟨onBox_of _ _ _ Z, _, onBox_of _ _ _ Z, fun i hi => ?_⟩⟩
  have h1 := comp_coords (φ := fun j t => (xu j - xl j) * (t + 1) / 2 + xl j) (c := fun j => (xu j - xl j) / 2) (h (Z i) hi) fun j => by
    have := ((((hasDerivAt_id (Z i j)).add_const 1).const_mul (xu j - xl j)).div_const 2).add_const (xl j)
    simpa using this
  refine h1.congr_fderiv ?_
  unfold lin
  refine Finset.sum_congr rfl fun j _ => ?_
  dsimp only
  rw [div_mul_cancel₀ _ (by have := hU j; linarith)]
  rfl

/-- Points of the cube are scaled to points of the box. -/
theorem box_mem {xl xu z : Fin m → ℝ} (hU : ∀ j, xl j < xu j) (hz : z ∈ cube m) (j : Fin m) :
    xl j ≤ (xu j - xl j) * (z j + 1) / 2 + xl j ∧ (xu j - xl j) * (z j + 1) / 2 + xl j ≤ xu j := by
  have h1 := hU j
  obtain ⟨h2, h3⟩ := hz j
  constructor <;> nlinarith

/-! ## C74: circuit, piston and wing weight -/

theorem circuit_box (j : Fin 6) : 0 < circuitL j ∧ circuitL j < circuitU j := by
  fin_cases j <;> simp [circuitL, circuitU] <;> norm_num

theorem piston_box (j : Fin 7) : 0 < pistonL j ∧ pistonL j < pistonU j := by
  fin_cases j <;> simp [pistonL, pistonU] <;> norm_num

theorem wing_box (j : Fin 10) : (j ≠ 3 → 0 < wingL j) ∧ wingL j < wingU j := by
  fin_cases j <;> simp [wingL, wingU] <;> norm_num

theorem C74_circuit : RowGradient 6 circuit circuit_grad fun z _ => z ∈ cube 6 := by
  refine rowGradient_of_box (fun j => (circuit_box j).2) fun z hz => ?_
  have h : ∀ j, 0 < (circuitU j - circuitL j) * (z j + 1) / 2 + circuitL j := fun j =>
    lt_of_lt_of_le (circuit_box j).1 (box_mem (fun j => (circuit_box j).2) hz j).1
  have h0 := h 0; have h1 := h 1; have h2 := h 2; have h3 := h 3; have h4 := h 4; have h5 := h 5
  refine circuit_grad_at _ (by positivity) ?_ (by positivity)
  have : 0 < ((circuitU 5 - circuitL 5) * (z 5 + 1) / 2 + circuitL 5) * ((circuitU 4 - circuitL 4) * (z 4 + 1) / 2 + circuitL 4 + 9) := by
    positivity
  positivity

theorem C74_piston : RowGradient 7 piston piston_grad fun z _ => z ∈ cube 7 :=
  rowGradient_of_box (fun j => (piston_box j).2) fun _ hz => piston_grad_at _ fun j =>
    lt_of_lt_of_le (piston_box j).1 (box_mem (fun j => (piston_box j).2) hz j).1

/-- The cosine of an angle of less than 90 degrees. -/
theorem cos_degrees_pos {a : ℝ} (h : |a| < 90) : 0 < Real.cos (a * Real.pi / 180) := by
  obtain ⟨h1, h2⟩ := abs_lt.1 h
  have := Real.pi_pos
  refine Real.cos_pos_of_mem_Ioo ⟨?_, ?_⟩ <;> nlinarith

theorem C74_wing : RowGradient 10 wing wing_grad fun z _ => z ∈ cube 10 := by
  refine rowGradient_of_box (fun j => (wing_box j).2) fun z hz => ?_
  have hb := box_mem (fun j => (wing_box j).2) hz
  have h3 := hb 3
  refine (wing_grad_at _ (fun j hj => lt_of_lt_of_le ((wing_box j).1 hj) (hb j).1) (cos_degrees_pos ?_)).congr_fderiv ?_
  · have e1 : wingL 3 = -10 := rfl
    have e2 : wingU 3 = 10 := rfl
    rw [e1, e2] at h3 ⊢
    rw [abs_lt]
    constructor <;> linarith [h3.1, h3.2]
  · congr 1
    funext j
    fin_cases j <;> simp [wingGradAt, wingL, wingU] <;> ring

example : (fun _ => 0 : Fin 6 → ℝ) ∈ cube 6 ∧ (fun _ => 1 : Fin 7 → ℝ) ∈ cube 7 ∧ (fun _ => -1 : Fin 10 → ℝ) ∈ cube 10 := by
  refine ⟨fun _ => ⟨by norm_num, by norm_num⟩, fun _ => ⟨by norm_num, le_refl _⟩, fun _ => ⟨le_refl _, by norm_num⟩⟩

/-! ## C75: the robot arm -/

theorem robot_box (j : Fin 8) : robotL j < robotU j := by
  have := Real.pi_pos
  fin_cases j <;> simp [robotL, robotU] <;> norm_num <;> positivity

theorem C75_robot : RowGradient 8 robot robot_grad fun _ y => y ≠ 0 := by
  refine rowGradient_of_box robot_box fun z hz => robot_grad_at _ fun h => hz ?_
  unfold robotAt
  rw [h]
  norm_num

/-- The hand of the arm is at most four units from the shoulder. -/
theorem C75_range (M : ℕ) (Z : Matrix (Fin M) (Fin 8) ℝ) (hZ : ∀ i, Z i ∈ cube 8) : ∃ F : Matrix (Fin M) (Fin 1) ℝ,
    robot (.mat (.of Z)) = .ok (.of F) ∧ ∀ i, 0 ≤ F i 0 ∧ F i 0 ≤ 4 := by
  refine ⟨_, onBox_of _ _ _ Z, fun i => ?_⟩
  have hb := box_mem robot_box (hZ i)
  change 0 ≤ robotAt _ ∧ robotAt _ ≤ 4
  generalize hx : (fun j => (robotU j - robotL j) * (Z i j + 1) / 2 + robotL j) = x
  replace hb : ∀ j, robotL j ≤ x j ∧ x j ≤ robotU j := fun j => by rw [← hx]; exact hb j
  have h4 := hb 4; have h5 := hb 5; have h6 := hb 6; have h7 := hb 7
  simp only [robotL, robotU] at h4 h5 h6 h7
  simp at h4 h5 h6 h7
  unfold robotAt
  have hs : (robotX x ^ 2 + robotY x ^ 2) ^ (0.5 : ℝ) = Real.sqrt (robotX x ^ 2 + robotY x ^ 2) := by
    rw [Real.sqrt_eq_rpow]; norm_num
  rw [hs]
  refine ⟨Real.sqrt_nonneg _, Real.sqrt_le_iff.2 ⟨by norm_num, ?_⟩⟩
  have key : ∀ a b : ℝ, Real.cos a * Real.cos b + Real.sin a * Real.sin b ≤ 1 := fun a b => by
    rw [← Real.cos_sub]; exact Real.cos_le_one _
  have sq : ∀ a : ℝ, Real.cos a ^ 2 + Real.sin a ^ 2 = 1 := Real.cos_sq_add_sin_sq
  simp only [robotX, robotY]
  generalize x 0 + x 1 + x 2 + x 3 = d
  generalize x 0 + x 1 + x 2 = c
  generalize x 0 + x 1 = b
  generalize x 0 = a
  have p := fun (i j : ℝ) (hi : 0 ≤ i ∧ i ≤ 1) (hj : 0 ≤ j ∧ j ≤ 1) (a b : ℝ) =>
    (mul_le_mul_of_nonneg_left (key a b) (mul_nonneg hi.1 hj.1)).trans
      (show i * j * 1 ≤ 1 by rw [mul_one]; exact mul_le_one₀ hi.2 hj.1 hj.2)
  have q := fun (i : ℝ) (hi : 0 ≤ i ∧ i ≤ 1) (a : ℝ) => show i ^ 2 * (Real.cos a ^ 2 + Real.sin a ^ 2) ≤ 1 by
    rw [sq, mul_one]; exact pow_le_one₀ hi.1 hi.2
  nlinarith [p _ _ h4 h5 a b, p _ _ h4 h6 a c, p _ _ h4 h7 a d, p _ _ h5 h6 b c, p _ _ h5 h7 b d, p _ _ h6 h7 c d,
    q _ h4 a, q _ h5 b, q _ h6 c, q _ h7 d]

/-- There are points of the cube with the value zero, where the code divides by zero: the arm folded to nothing. -/
theorem C75_zero : ∃ z ∈ cube 8, robot (.mat (.of (Matrix.of fun (_ : Fin 1) => z))) = .ok (.of (Matrix.of fun (_ : Fin 1) (_ : Fin 1) => (0 : ℝ))) := by
  refine ⟨fun _ => -1, fun _ => ⟨le_refl _, by norm_num⟩, ?_⟩
  unfold robot
  rw [onBox_of]
  congr 3
  funext i j
  simp [robotAt, robotX, robotY, robotL, robotU]
  norm_num

/-! ## C76: the borehole -/

theorem boreholeRows_of (store : ℝ → ℝ) (f : (Fin 8 → ℝ) → Fin d → ℝ) (Z : Matrix (Fin M) (Fin 8) ℝ) :
    boreholeRows store f (.mat (.of Z)) = .ok (.of (Matrix.of fun i => f fun j =>
      store (![0.0161812 * Z i 0 + 0.1, Real.exp (1.0056 * Z i 1 + 7.71), (115600 - 63070) * (Z i 2 + 1) / 2 + 63070,
        (1110 - 990) * (Z i 3 + 1) / 2 + 990, (116 - 63.1) * (Z i 4 + 1) / 2 + 63.1, (820 - 700) * (Z i 5 + 1) / 2 + 700,
        (1680 - 1120) * (Z i 6 + 1) / 2 + 1120, (12045 - 9855) * (Z i 7 + 1) / 2 + 9855] j))) := by
  unfold boreholeRows
  rw [Proofs.Misc.init_ofFn]
  change (do
    let t ← BoundedNormalizer.unnormalize ⟨_, _⟩ (.mat (.of (Matrix.of fun (i : Fin M) (j : Fin 6) => (NpMat.of Z).get i (j + 2))))
    _) = _
  rw [Proofs.Misc.unnormalize_of]
  refine (if_pos ⟨rfl, rfl⟩).trans ?_
  refine congrArg (fun X : Matrix (Fin M) (Fin d) ℝ => Except.ok (NpMat.of X)) ?_
  refine funext fun (i : Fin M) => funext fun l => ?_
  refine congrFun (congrArg f ?_) l
  refine funext fun (j : Fin 8) => ?_
  have hg : ∀ k (hk : k < 8), (NpMat.of Z).get i k = Z i ⟨k, hk⟩ := fun k hk => by
    unfold NpMat.get
    exact dif_pos ⟨i.2, hk⟩
  have ht : ∀ (X : Matrix (Fin M) (Fin 6) ℝ) k (hk : k < 6), (NpMat.of X).get i k = X i ⟨k, hk⟩ := fun X k hk => by
    unfold NpMat.get
    exact dif_pos ⟨i.2, hk⟩
  fin_cases j
  · refine (if_pos rfl).trans ?_
    rw [hg 0 (by omega)]
    rfl
  · refine (if_neg (by decide)).trans ((if_pos rfl).trans ?_)
    rw [hg 1 (by omega)]
    rfl
  all_goals
    refine (if_neg (by decide)).trans ((if_neg (by decide)).trans ?_)
    refine congrArg store ((ht _ _ (by decide)).trans ?_)
    rw [Matrix.of_apply, Matrix.of_apply, hg _ (by decide)]
    rfl

/-- The radius of the borehole is positive and less than the radius of influence; the other inputs are in the unit box. -/
def BoreholeDomain (z : Fin 8 → ℝ) : Prop :=
  0 < 0.0161812 * z 0 + 0.1 ∧ 0.0161812 * z 0 + 0.1 < Real.exp (1.0056 * z 1 + 7.71) ∧ ∀ j, 2 ≤ j → -1 ≤ z j ∧ z j ≤ 1

theorem C76_borehole : RowGradient 8 (borehole id) (borehole_grad id) fun z _ => BoreholeDomain z := by
  refine ⟨fun z => boreholeAt ![0.0161812 * z 0 + 0.1, Real.exp (1.0056 * z 1 + 7.71), (115600 - 63070) * (z 2 + 1) / 2 + 63070,
        (1110 - 990) * (z 3 + 1) / 2 + 990, (116 - 63.1) * (z 4 + 1) / 2 + 63.1, (820 - 700) * (z 5 + 1) / 2 + 700,
        (1680 - 1120) * (z 6 + 1) / 2 + 1120, (12045 - 9855) * (z 7 + 1) / 2 + 9855],
    fun M Z => ⟨boreholeRows_of id _ Z, _, boreholeRows_of id _ Z, fun i hi => ?_⟩⟩
  simp only [id, Matrix.of_apply]
  generalize Z i = z at *
  obtain ⟨h0, h1, h2⟩ := hi
  let φ : Fin 8 → ℝ → ℝ := ![fun t => 0.0161812 * t + 0.1, fun t => Real.exp (1.0056 * t + 7.71), fun t => (115600 - 63070) * (t + 1) / 2 + 63070,
        fun t => (1110 - 990) * (t + 1) / 2 + 990, fun t => (116 - 63.1) * (t + 1) / 2 + 63.1, fun t => (820 - 700) * (t + 1) / 2 + 700,
        fun t => (1680 - 1120) * (t + 1) / 2 + 1120, fun t => (12045 - 9855) * (t + 1) / 2 + 9855]
  have hφ : ∀ y : Fin 8 → ℝ, ![0.0161812 * y 0 + 0.1, Real.exp (1.0056 * y 1 + 7.71), (115600 - 63070) * (y 2 + 1) / 2 + 63070,
        (1110 - 990) * (y 3 + 1) / 2 + 990, (116 - 63.1) * (y 4 + 1) / 2 + 63.1, (820 - 700) * (y 5 + 1) / 2 + 700,
        (1680 - 1120) * (y 6 + 1) / 2 + 1120, (12045 - 9855) * (y 7 + 1) / 2 + 9855] = fun j => φ j (y j) := fun y => by
    funext j
    fin_cases j <;> rfl
  have z2 := h2 2 (by decide); have z3 := h2 3 (by decide); have z4 := h2 4 (by decide)
  have z5 := h2 5 (by decide); have z6 := h2 6 (by decide); have z7 := h2 7 (by decide)
  have p0 : 0 < φ 0 (z 0) := h0
  have p1 : φ 0 (z 0) < φ 1 (z 1) := h1
  have p1' : 0 < φ 1 (z 1) := p0.trans p1
  have p2 : 0 < φ 2 (z 2) := by change (0 : ℝ) < (115600 - 63070) * (z 2 + 1) / 2 + 63070; linarith [z2.1]
  have p4 : 0 < φ 4 (z 4) := by change (0 : ℝ) < (116 - 63.1) * (z 4 + 1) / 2 + 63.1; norm_num; linarith [z4.1]
  have p6 : 0 < φ 6 (z 6) := by change (0 : ℝ) < (1680 - 1120) * (z 6 + 1) / 2 + 1120; linarith [z6.1]
  have p7 : 0 < φ 7 (z 7) := by change (0 : ℝ) < (12045 - 9855) * (z 7 + 1) / 2 + 9855; linarith [z7.1]
  have pl : 0 < Real.log (φ 1 (z 1) / φ 0 (z 0)) := Real.log_pos ((one_lt_div p0).2 p1)
  have key := borehole_grad_at (fun j => φ j (z j)) p0.ne' p1' p4.ne' p7.ne' pl.ne' (by positivity)
  have h3 := comp_coords (φ := φ) (c := ![0.0161812, 1.0056 * φ 1 (z 1), (115600 - 63070) / 2, (1110 - 990) / 2, (116 - 63.1) / 2,
    (820 - 700) / 2, (1680 - 1120) / 2, (12045 - 9855) / 2]) key fun j => by
    have lin' : ∀ (a b c t : ℝ), HasDerivAt (fun t => (a - b) * (t + 1) / 2 + c) ((a - b) / 2) t := fun a b c t => by
      have := ((((hasDerivAt_id t).add_const 1).const_mul (a - b)).div_const 2).add_const c
      simpa using this
    fin_cases j
    · have := ((hasDerivAt_id (z 0)).const_mul (0.0161812 : ℝ)).add_const (0.1 : ℝ)
      refine this.congr_deriv ?_
      exact mul_one _
    · have := (((hasDerivAt_id (z 1)).const_mul 1.0056).add_const 7.71).exp
      refine this.congr_deriv ?_
      change Real.exp _ * (1.0056 * 1) = 1.0056 * Real.exp _
      rw [mul_one, mul_comm]
      rfl
    all_goals exact lin' _ _ _ _
  simp only [hφ]
  refine h3.congr_fderiv ?_
  unfold lin
  refine Finset.sum_congr rfl fun j _ => ?_
  dsimp only
  rw [div_mul_cancel₀]
  · have := p1'.ne'
    fin_cases j <;> simp <;> norm_num
    assumption

/-- The domain contains the unit box, and all but the extreme tails of the normal variables `z 0` and `z 1`. -/
theorem borehole_domain {z : Fin 8 → ℝ} (h0 : |z 0| ≤ 6) (h1 : |z 1| ≤ 7) (h2 : ∀ j, 2 ≤ j → -1 ≤ z j ∧ z j ≤ 1) : BoreholeDomain z := by
  obtain ⟨a, b⟩ := abs_le.1 h0
  obtain ⟨c, d⟩ := abs_le.1 h1
  refine ⟨by norm_num; linarith, ?_, h2⟩
  have : 1.0056 * z 1 + 7.71 + 1 ≤ Real.exp (1.0056 * z 1 + 7.71) := Real.add_one_le_exp _
  norm_num at this ⊢
  linarith

example : BoreholeDomain fun _ => 0 :=
  borehole_domain (by norm_num) (by norm_num) fun _ _ => ⟨by norm_num, by norm_num⟩

/-- Conversion of a float to an integer. -/
noncomputable def truncate (x : ℝ) : ℝ := if 0 ≤ x then (⌊x⌋ : ℝ) else (⌈x⌉ : ℝ)

/-- On an array of integers the radius of the borehole is stored as zero. -/
theorem C76_integer (Z : Matrix (Fin M) (Fin 8) ℤ) (hZ : ∀ i, |Z i 0| ≤ 6) : ∃ X : Matrix (Fin M) (Fin 8) ℝ,
    boreholeRows truncate (fun x => x) (.mat (.of (Matrix.of fun i j => (Z i j : ℝ)))) = .ok (.of X) ∧ (∀ i, X i 0 = 0) ∧
    ∃ Y : Matrix (Fin M) (Fin 8) ℝ,
      boreholeRows id (fun x => x) (.mat (.of (Matrix.of fun i j => (Z i j : ℝ)))) = .ok (.of Y) ∧ ∀ i, 0 < Y i 0 := by
  have hb : ∀ i, -6 ≤ (Z i 0 : ℝ) ∧ (Z i 0 : ℝ) ≤ 6 := fun i => by
    obtain ⟨a, b⟩ := abs_le.1 (hZ i)
    exact ⟨by exact_mod_cast a, by exact_mod_cast b⟩
  refine ⟨_, boreholeRows_of truncate _ _, fun i => ?_, _, boreholeRows_of id _ _, fun i => ?_⟩
  · obtain ⟨a, b⟩ := hb i
    change truncate (0.0161812 * (Z i 0 : ℝ) + 0.1) = 0
    unfold truncate
    rw [if_pos (by norm_num; linarith)]
    have : ⌊0.0161812 * (Z i 0 : ℝ) + 0.1⌋ = 0 := by
      rw [Int.floor_eq_zero_iff]
      constructor <;> norm_num <;> linarith
    rw [this]
    simp
  · obtain ⟨a, b⟩ := hb i
    change 0 < 0.0161812 * (Z i 0 : ℝ) + 0.1
    norm_num
    linarith

example : ∀ i : Fin 2, |(Matrix.of ![![0, 1, 1, 0, 0, 0, 1, 1], ![-1, 0, 1, 0, -1, 0, 1, 1]] : Matrix (Fin 2) (Fin 8) ℤ) i 0| ≤ 6 := by
  intro i
  fin_cases i <;> simp

/-! ## C77: the wing weight function of the first tutorial -/

theorem onRows_of (f : (Fin m → ℝ) → Fin d → ℝ) (Z : Matrix (Fin M) (Fin m) ℝ) :
    onRows f (.mat (.of Z)) = .ok (.of (Matrix.of fun i => f (Z i))) := by
  unfold onRows
  change (do
    let x ← columns m (NpMat.of Z)
    return NpMat.of (Matrix.of fun i => f (x i))) = _
  rw [columns_of]
  rfl

/-- The rows of the box of the wing weight function, in its own units. -/
def WingDomain (x : Fin 10 → ℝ) : Prop :=
  ∀ j, ![150, 220, 6, -10, 16, 0.5, 0.08, 2.5, 1700, 0.025] j ≤ x j ∧ x j ≤ ![200, 300, 10, 10, 45, 1, 0.18, 6, 2500, 0.08] j

/-- Multiplication of a column by a number, `df[:,k] *= c`. -/
def scaleColumn (k : ℕ) (c : ℝ) (A : NpMat) : NpMat := ⟨A.rows, A.cols, Matrix.of fun i j => if (j : ℕ) = k then A.val i j * c else A.val i j⟩

theorem wing_domain {x : Fin 10 → ℝ} (h : WingDomain x) : (∀ j, j ≠ 3 → 0 < x j) ∧ 0 < Real.cos (x 3 * Real.pi / 180) := by
  refine ⟨fun j hj => lt_of_lt_of_le ((wing_box j).1 hj) (h j).1, cos_degrees_pos ?_⟩
  have h3 := h 3
  simp at h3
  rw [abs_lt]
  constructor <;> linarith [h3.1, h3.2]

/-- With the fourth column multiplied by `pi / 180`, as the notebook does, the rows are the gradients. -/
theorem C77_wing_partial :
    RowGradient 10 tutorialWing (fun X => (tutorialWing_grad X).map (scaleColumn 3 (Real.pi / 180))) fun x _ => WingDomain x := by
  refine ⟨wingAt, fun M Z => ⟨onRows_of _ Z, Matrix.of fun i j => if (j : ℕ) = 3 then wingPartials (Z i) j * (Real.pi / 180) else wingPartials (Z i) j, ?_, fun i hi => ?_⟩⟩
  · dsimp only
    unfold tutorialWing_grad
    rw [onRows_of]
    rfl
  · refine (wing_grad_at (Z i) (wing_domain hi).1 (wing_domain hi).2).congr_fderiv ?_
    unfold lin
    refine Finset.sum_congr rfl fun j _ => ?_
    simp only [Matrix.of_apply, Fin.ext_iff]
    rfl

/-- The rows of `wing_grad` are not the gradients of `wing`: the sweep is in degrees. -/
theorem C77_refuted : ¬ RowGradient 10 tutorialWing tutorialWing_grad fun x _ => WingDomain x := by
  rintro ⟨φ, hφ⟩
  have e : φ = wingAt := by
    funext x
    have h1 := (hφ 1 (Matrix.of fun _ => x)).1
    unfold tutorialWing at h1
    rw [onRows_of] at h1
    have h2 := NpMat.of_injective (Except.ok.inj h1)
    exact (congrFun (congrFun h2 0) 0).symm
  subst e
  let x : Fin 10 → ℝ := ![150, 220, 6, 10, 16, 0.5, 0.08, 2.5, 1700, 0.025]
  have hx : WingDomain x := fun j => by
    fin_cases j <;> simp [x] <;> norm_num
  obtain ⟨-, G, hG, hd⟩ := hφ 1 (Matrix.of fun _ => x)
  unfold tutorialWing_grad at hG
  rw [onRows_of] at hG
  have hG' := NpMat.of_injective (Except.ok.inj hG)
  have h1 := (hd 0 hx).unique (wing_grad_at x (wing_domain hx).1 (wing_domain hx).2)
  have h2 := congrArg (fun T : (Fin 10 → ℝ) →L[ℝ] ℝ => T (Pi.single 3 1)) h1
  have e1 : (∑ j, G 0 j • (ContinuousLinearMap.proj j : (Fin 10 → ℝ) →L[ℝ] ℝ)) (Pi.single 3 1) = G 0 3 := by
    rw [show (∑ j, G 0 j • (ContinuousLinearMap.proj j : (Fin 10 → ℝ) →L[ℝ] ℝ)) = lin (G 0) from rfl, lin_apply]
    simp [Pi.single_apply]
  have e2 : lin (fun j => if j = 3 then wingPartials x j * (Real.pi / 180) else wingPartials x j) (Pi.single 3 1)
      = wingPartials x 3 * (Real.pi / 180) := by
    rw [lin_apply]
    simp [Pi.single_apply]
  have e3 : G 0 3 = wingPartials x 3 := (congrFun (congrFun hG' 0) 3).symm
  have h3 : wingPartials x 3 = wingPartials x 3 * (Real.pi / 180) := by
    rw [← e2, ← e3, ← e1]
    exact h2
  have hp := (wing_domain hx).1
  have hq : 0 < wingPartials x 3 := by
    have hc := (wing_domain hx).2
    have hs : 0 < Real.sin (x 3 * Real.pi / 180) := by
      have := Real.pi_pos
      refine Real.sin_pos_of_pos_of_lt_pi ?_ ?_ <;> simp [x] <;> nlinarith
    have h0 := hp 0 (by decide); have h1 := hp 1 (by decide); have h2 := hp 2 (by decide); have h4 := hp 4 (by decide)
    have h5 := hp 5 (by decide); have h6 := hp 6 (by decide); have h7 := hp 7 (by decide); have h8 := hp 8 (by decide)
    change 0 < 0.9 * wingQ x * Real.sin (x 3 * Real.pi / 180) / Real.cos (x 3 * Real.pi / 180)
    have : 0 < wingQ x := by
      unfold wingQ
      dsimp only
      positivity
    positivity
  have hpi := Real.pi_lt_four
  nlinarith

example : WingDomain ![150, 220, 6, 10, 16, 0.5, 0.08, 2.5, 1700, 0.025] := fun j => by
  fin_cases j <;> simp <;> norm_num

/-! ## C78: the shapes -/

/-- The functions that scale the unit box, with the number of inputs and of columns of the result. -/
noncomputable def boxFunctions : List ((Arr → Except Err NpMat) × ℕ × ℕ) :=
  [(circuit, 6, 1), (circuit_grad, 6, 6), (piston, 7, 1), (piston_grad, 7, 7), (robot, 8, 1), (robot_grad, 8, 8), (wing, 10, 1), (wing_grad, 10, 10)]

/-- `unnormalize` raises an error for a number of columns other than one and the number of bounds. -/
theorem unnormalize_columns (lb ub : Fin m → ℝ) (X : NpMat) (h : X.cols ≠ m) (h1 : X.cols ≠ 1) (hm : m ≠ 1) :
    BoundedNormalizer.unnormalize ⟨Proofs.Misc.rowOf lb, Proofs.Misc.rowOf ub⟩ (.mat X) = .error .valueError := by
  simp only [BoundedNormalizer.unnormalize, Proofs.Misc.rowOf, process_inputs]
  simp only [bind, Except.bind, NpMat.zipB_same]
  have : ∀ A : Matrix (Fin 1) (Fin m) ℝ, NpMat.zipB (· * ·) (NpMat.of A) (NpMat.map (· + 1) X) = .error .valueError := fun A => by
    unfold NpMat.zipB
    have hb : NpMat.bdim m X.cols = none := by
      unfold NpMat.bdim
      rw [if_neg (fun hh => h hh.symm), if_neg hm, if_neg h1]
    have hb' : NpMat.bdim (NpMat.of A).cols (NpMat.map (· + 1) X).cols = none := hb
    rw [hb']
    cases NpMat.bdim (NpMat.of A).rows (NpMat.map (· + 1) X).rows <;> rfl
  rw [this]

theorem bget_of_column (B : Matrix (Fin M) (Fin 1) ℝ) (i : Fin M) (j : ℕ) : (NpMat.of B).bget i j = B i 0 := by
  have hi : (if M = 1 then 0 else (i : ℕ)) = i := by
    split_ifs with h
    · subst h; omega
    · rfl
  change (NpMat.of B).get (if M = 1 then 0 else (i : ℕ)) 0 = B i 0
  rw [hi]
  exact NpMat.get_of B i 0

/-- `unnormalize` repeats a single column. -/
theorem unnormalize_broadcast (lb ub : Fin m → ℝ) (B : Matrix (Fin M) (Fin 1) ℝ) :
    BoundedNormalizer.unnormalize ⟨Proofs.Misc.rowOf lb, Proofs.Misc.rowOf ub⟩ (.mat (.of B))
      = BoundedNormalizer.unnormalize ⟨Proofs.Misc.rowOf lb, Proofs.Misc.rowOf ub⟩ (.mat (.of (Matrix.of fun i (_ : Fin m) => B i 0))) := by
  rw [Proofs.Misc.unnormalize_of]
  simp only [BoundedNormalizer.unnormalize, Proofs.Misc.rowOf, process_inputs]
  simp only [bind, Except.bind, NpMat.zipB_same, NpMat.map_of]
  have : ∀ (A : Matrix (Fin 1) (Fin m) ℝ) (C : Matrix (Fin M) (Fin 1) ℝ), NpMat.zipB (· * ·) (NpMat.of A) (NpMat.of C)
      = .ok (NpMat.of (Matrix.of fun i j => A 0 j * C i 0)) := fun A C => by
    simp only [NpMat.zipB, NpMat.of_rows, NpMat.of_cols, NpMat.bdim_one_left, NpMat.bdim_one_right]
    simp only [bget_of_column, NpMat.bget_of_row]
    rfl
  rw [this]
  simp only [NpMat.map_of, NpMat.zipB_row_right]
  rfl

/-- The functions scaling the unit box: results of the right shape, a vector is one row, one column is repeated, and any other number of
columns or of dimensions is a `ValueError`. -/
def ShapesOf (fn : Arr → Except Err NpMat) (m d : ℕ) : Prop :=
  (∀ (M : ℕ) (Z : Matrix (Fin M) (Fin m) ℝ), ∃ F : Matrix (Fin M) (Fin d) ℝ, fn (.mat (.of Z)) = .ok (.of F)) ∧
  (∀ (n : ℕ) (x : Fin n → ℝ), fn (.vec n x) = fn (.mat (.of (Matrix.of fun (_ : Fin 1) => x)))) ∧
  (∀ (M : ℕ) (B : Matrix (Fin M) (Fin 1) ℝ), fn (.mat (.of B)) = fn (.mat (.of (Matrix.of fun i (_ : Fin m) => B i 0)))) ∧
  (∀ X : NpMat, X.cols ≠ m → X.cols ≠ 1 → fn (.mat X) = .error .valueError) ∧
  ∀ X : Arr, 2 < X.ndim → fn X = .error .valueError

theorem shapes_onBox (xl xu : Fin m → ℝ) (f : (Fin m → ℝ) → Fin d → ℝ) (hm : m ≠ 1) : ShapesOf (onBox xl xu f) m d := by
  have h0 : ∀ A : Arr, onBox xl xu f A = (do
    let x ← BoundedNormalizer.unnormalize ⟨Proofs.Misc.rowOf xl, Proofs.Misc.rowOf xu⟩ (atleast2 A)
    let x ← columns m x
    return NpMat.of (Matrix.of fun i => f (x i))) := fun A => by
    unfold onBox
    rw [Proofs.Misc.init_ofFn]
    rfl
  refine ⟨fun M Z => ⟨_, onBox_of _ _ _ Z⟩, fun n x => rfl, fun M B => ?_, fun X h h1 => ?_, fun X hX => ?_⟩
  · rw [h0, h0]
    change (do
      let x ← BoundedNormalizer.unnormalize ⟨_, _⟩ (.mat (.of B))
      _) = (do
      let x ← BoundedNormalizer.unnormalize ⟨_, _⟩ (.mat (.of (Matrix.of fun i (_ : Fin m) => B i 0)))
      _)
    rw [unnormalize_broadcast]
  · rw [h0]
    change (do
      let x ← BoundedNormalizer.unnormalize ⟨_, _⟩ (.mat X)
      _) = _
    rw [unnormalize_columns _ _ X h h1 hm]
    rfl
  · rw [h0]
    cases X with
    | nd a b c r l => rfl
    | _ => exact absurd hX (by simp [Arr.ndim, Arr.shape])

theorem C78_box : ∀ p ∈ boxFunctions, ShapesOf p.1 p.2.1 p.2.2 := by
  intro p hp
  simp only [boxFunctions, List.mem_cons, List.not_mem_nil, or_false] at hp
  rcases hp with rfl | rfl | rfl | rfl | rfl | rfl | rfl | rfl 
  · exact shapes_onBox circuitL circuitU (fun x (_ : Fin 1) => circuitAt x) (by decide)
  · exact shapes_onBox circuitL circuitU circuitGradAt (by decide)
  · exact shapes_onBox pistonL pistonU (fun x (_ : Fin 1) => pistonAt x) (by decide)
  · exact shapes_onBox pistonL pistonU pistonGradAt (by decide)
  · exact shapes_onBox robotL robotU (fun x (_ : Fin 1) => robotAt x) (by decide)
  · exact shapes_onBox robotL robotU robotGradAt (by decide)
  · exact shapes_onBox wingL wingU (fun x (_ : Fin 1) => wingAt x) (by decide)
  · exact shapes_onBox wingL wingU wingGradAt (by decide)

example : (wing_grad, 10, 10) ∈ boxFunctions ∧ (NpMat.of (Matrix.of ![![0, 1, 2]])).cols ≠ 10 := by
  constructor
  · simp [boxFunctions]
  · simp

theorem boreholeRows_columns (store : ℝ → ℝ) (f : (Fin 8 → ℝ) → Fin d → ℝ) (X : NpMat) (h : X.cols ≠ 8) :
    boreholeRows store f (.mat X) = .error .valueError := by
  unfold boreholeRows
  rw [Proofs.Misc.init_ofFn]
  change (do
    let t ← BoundedNormalizer.unnormalize ⟨_, _⟩ (.mat ⟨X.rows, X.cols - 2, Matrix.of fun i j => X.get i (j + 2)⟩)
    _) = _
  by_cases h3 : X.cols = 3
  · obtain ⟨r, c, X⟩ := X
    obtain rfl : c = 3 := h3
    change (do
      let t ← BoundedNormalizer.unnormalize ⟨_, _⟩ (.mat (.of (Matrix.of fun (i : Fin r) (j : Fin 1) => NpMat.get ⟨r, 3, X⟩ i (j + 2))))
      _) = _
    rw [unnormalize_broadcast, Proofs.Misc.unnormalize_of]
    simp only [bind, Except.bind]
    exact if_neg fun h1 => absurd (show 3 - 2 = 6 from h1.1) (by decide)
  · rw [unnormalize_columns _ _ _ (by change X.cols - 2 ≠ 6; omega) (by change X.cols - 2 ≠ 1; omega) (by decide)]
    rfl

/-- The borehole functions take eight columns, and nothing else. -/
theorem C78_borehole (store : ℝ → ℝ) (X : NpMat) (h : X.cols ≠ 8) :
    borehole store (.mat X) = .error .valueError ∧ borehole_grad store (.mat X) = .error .valueError :=
  ⟨boreholeRows_columns _ _ X h, boreholeRows_columns _ _ X h⟩

theorem onRows_columns (f : (Fin 10 → ℝ) → Fin d → ℝ) (X : NpMat) (hX : X.cols < 10) : onRows f (.mat X) = .error .indexError := by
  change (do
    let x ← columns 10 X
    return NpMat.of (Matrix.of fun i => f (x i))) = _
  unfold columns
  rw [dif_neg (by omega)]
  rfl

theorem onRows_extra (f : (Fin 10 → ℝ) → Fin d → ℝ) (k : ℕ) (Z : Matrix (Fin M) (Fin (10 + k)) ℝ) :
    onRows f (.mat (.of Z)) = onRows f (.mat (.of (Matrix.of fun i (j : Fin 10) => Z i (Fin.castAdd k j)))) := by
  rw [onRows_of]
  change (do
    let x ← columns 10 (NpMat.of Z)
    return NpMat.of (Matrix.of fun i => f (x i))) = _
  have : columns 10 (NpMat.of Z) = .ok (Matrix.of fun (i : Fin M) (j : Fin 10) => Z i (Fin.castAdd k j)) := by
    unfold columns
    exact dif_pos (Nat.le_add_right 10 k)
  rw [this]
  rfl

/-- The functions of the first tutorial take at least ten columns; the columns after the tenth are ignored. -/
theorem C78_tutorial :
    (∀ X : NpMat, X.cols < 10 → tutorialWing (.mat X) = .error .indexError ∧ tutorialWing_grad (.mat X) = .error .indexError) ∧
    ∀ (M k : ℕ) (Z : Matrix (Fin M) (Fin (10 + k)) ℝ),
      tutorialWing (.mat (.of Z)) = tutorialWing (.mat (.of (Matrix.of fun i (j : Fin 10) => Z i (Fin.castAdd k j)))) ∧
      tutorialWing_grad (.mat (.of Z)) = tutorialWing_grad (.mat (.of (Matrix.of fun i (j : Fin 10) => Z i (Fin.castAdd k j)))) :=
  ⟨fun X hX => ⟨onRows_columns _ X hX, onRows_columns _ X hX⟩, fun _ k Z => ⟨onRows_extra _ k Z, onRows_extra _ k Z⟩⟩

example : (NpMat.of (Matrix.of ![![0, 1, 2]])).cols ≠ 8 ∧ (NpMat.of (Matrix.of ![![0, 1, 2]])).cols < 10 := by
  constructor <;> simp

end Props
