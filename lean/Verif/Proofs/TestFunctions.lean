import Mathlib.Analysis.Calculus.Deriv.Inv
import Mathlib.Analysis.Calculus.Deriv.Pow
import Mathlib.Analysis.SpecialFunctions.Pow.Deriv
import Mathlib.Analysis.SpecialFunctions.Sqrt
import Mathlib.Tactic.FieldSimp
import Mathlib.Tactic.Positivity
import Verif.Model.TestFunctions
import Verif.Proofs.Partials

/-!
# The gradients of the formulas of the tutorials' functions
-/

open Model.TestFunctions Proofs.Partials

namespace Proofs.TestFunctions

theorem circuit_grad_at (x : Fin 6 → ℝ) (h1 : x 0 + x 1 ≠ 0) (h2 : x 5 * (x 4 + 9) + x 2 ≠ 0) (h3 : x 3 ≠ 0) :
    HasFDerivAt circuitAt (lin fun j => circuitGradAt x j / ((circuitU j - circuitL j) / 2)) x := by
  have h4 : x 3 * (x 5 * (x 4 + 9) + x 2) ≠ 0 := mul_ne_zero h3 h2
  refine grad_of_lines ?_ fun v => ?_
  · unfold circuitAt
    dsimp only
    fun_prop (disch := assumption)
  have hx := line x v
  have hV : HasDerivAt (fun t : ℝ => 12 * (x 1 + t * v 1) / ((x 0 + t * v 0) + (x 1 + t * v 1))) _ 0 :=
    ((hx 1).const_mul 12).div ((hx 0).add (hx 1)) (by simpa using h1)
  have hD : HasDerivAt (fun t : ℝ => (x 5 + t * v 5) * ((x 4 + t * v 4) + 9) + (x 2 + t * v 2)) _ 0 :=
    ((hx 5).mul ((hx 4).add_const 9)).add (hx 2)
  have h := ((((hV.add_const 0.74).mul (hx 5)).mul ((hx 4).add_const 9)).div hD (by simpa using h2)).add
    ((((hx 2).const_mul 11.35).div hD (by simpa using h2))) |>.add
    (((((hx 2).const_mul 0.74).mul (hx 5)).mul ((hx 4).add_const 9)).div ((hx 3).mul hD) (by simpa using ⟨h3, h2⟩))
  refine (h.congr_deriv ?_).congr_of_eventuallyEq (Filter.Eventually.of_forall fun t => rfl)
  simp only [line_zero, Pi.mul_apply]
  simp only [Fin.sum_univ_six, circuitGradAt, circuitU, circuitL]
  simp
  field_simp
  ring

/-- Multiplying out the derivative of a product of powers. -/
theorem rpow_line {f : ℝ → ℝ} {d : ℝ} (h : HasDerivAt f d 0) (h0 : f 0 ≠ 0) (p : ℝ) :
    HasDerivAt (fun t => f t ^ p) (f 0 ^ p * (p * d / f 0)) 0 := by
  refine (h.rpow_const (Or.inl h0)).congr_deriv ?_
  rw [Real.rpow_sub_one h0]
  ring

theorem wing_grad_at (x : Fin 10 → ℝ) (h : ∀ j, j ≠ 3 → 0 < x j) (hc : 0 < Real.cos (x 3 * Real.pi / 180)) :
    HasFDerivAt wingAt (lin fun j => if j = 3 then wingPartials x j * (Real.pi / 180) else wingPartials x j) x := by
  have g : ∀ j, j ≠ 3 → x j ≠ 0 := fun j hj => (h j hj).ne'
  have hc' := hc.ne'
  have g0 := g 0 (by decide)
  have g1 := g 1 (by decide)
  have g2 := g 2 (by decide)
  have g4 := g 4 (by decide)
  have g5 := g 5 (by decide)
  have g6 := g 6 (by decide)
  have g7 := g 7 (by decide)
  have g8 := g 8 (by decide)
  have g9 := g 9 (by decide)
  refine grad_of_lines ?_ fun v => ?_
  · unfold wingAt
    dsimp only
    fun_prop (disch := assumption)
  have hx := line x v
  have hp : ∀ (j : Fin 10) (hj : x j ≠ 0) (p : ℝ), HasDerivAt (fun t : ℝ => (x j + t * v j) ^ p) (x j ^ p * (p * v j / x j)) 0 := by
    intro j hj p
    have := rpow_line (hx j) (by simpa using hj) p
    simpa using this
  have hC : HasDerivAt (fun t : ℝ => Real.cos ((x 3 + t * v 3) * Real.pi / 180) ^ (-0.9 : ℝ))
    (Real.cos (x 3 * Real.pi / 180) ^ (-0.9 : ℝ) * (-0.9 * (-Real.sin (x 3 * Real.pi / 180) * (v 3 * Real.pi / 180)) / Real.cos (x 3 * Real.pi / 180))) 0 := by
    have := rpow_line ((((hx 3).mul_const Real.pi).div_const 180).cos) (by simpa using hc') (-0.9)
    simpa using this
  have hh := (((((((((((hp 0 g0 0.758).const_mul 0.036).mul (hp 1 g1 0.0035)).mul (hp 2 g2 0.6)).mul hC).mul (hp 4 g4 0.006)).mul (hp 5 g5 0.04)).mul_const ((100 : ℝ) ^ (-0.3 : ℝ))).mul (hp 6 g6 (-0.3))).mul (hp 7 g7 0.49)).mul (hp 8 g8 0.49)).add ((hx 0).mul (hx 9))
  refine (hh.congr_deriv ?_).congr_of_eventuallyEq (Filter.Eventually.of_forall fun t => rfl)
  simp only [Pi.mul_apply, zero_mul, add_zero, Fin.sum_univ_succ, Fin.sum_univ_zero, wingPartials, wingQ]
  simp [Fin.ext_iff, Fin.succ]
  generalize x 0 ^ (0.758 : ℝ) = p0
  generalize x 1 ^ (0.0035 : ℝ) = p1
  generalize x 2 ^ (0.6 : ℝ) = p2
  generalize Real.cos (x 3 * Real.pi / 180) ^ (-0.9 : ℝ) = p3
  generalize x 4 ^ (0.006 : ℝ) = p4
  generalize x 5 ^ (0.04 : ℝ) = p5
  generalize x 6 ^ (-0.3 : ℝ) = p6
  generalize x 7 ^ (0.49 : ℝ) = p7
  generalize x 8 ^ (0.49 : ℝ) = p8
  generalize (100:ℝ) ^ (-0.3 : ℝ) = p9
  generalize Real.sin (x 3 * Real.pi / 180) = s
  generalize Real.cos (x 3 * Real.pi / 180) = c at *
  field_simp
  ring

theorem robot_grad_at (x : Fin 8 → ℝ) (h : robotX x ^ 2 + robotY x ^ 2 ≠ 0) :
    HasFDerivAt robotAt (lin fun j => robotGradAt x j / ((robotU j - robotL j) / 2)) x := by
  refine grad_of_lines ?_ fun v => ?_
  · unfold robotAt
    have hX : DifferentiableAt ℝ robotX x := by unfold robotX; dsimp only; fun_prop
    have hY : DifferentiableAt ℝ robotY x := by unfold robotY; dsimp only; fun_prop
    fun_prop (disch := assumption)
  have hx := line x v
  have hX : HasDerivAt (fun t : ℝ => robotX fun j => x j + t * v j) _ 0 :=
    ((((hx 4).mul (hx 0).cos).add ((hx 5).mul ((hx 0).add (hx 1)).cos)).add
    ((hx 6).mul (((hx 0).add (hx 1)).add (hx 2)).cos)).add ((hx 7).mul ((((hx 0).add (hx 1)).add (hx 2)).add (hx 3)).cos)
  have hY : HasDerivAt (fun t : ℝ => robotY fun j => x j + t * v j) _ 0 :=
    ((((hx 4).mul (hx 0).sin).add ((hx 5).mul ((hx 0).add (hx 1)).sin)).add
    ((hx 6).mul (((hx 0).add (hx 1)).add (hx 2)).sin)).add ((hx 7).mul ((((hx 0).add (hx 1)).add (hx 2)).add (hx 3)).sin)
  have hh := rpow_line ((hX.pow 2).add (hY.pow 2)) (by simpa using h) 0.5
  refine (hh.congr_deriv ?_).congr_of_eventuallyEq (Filter.Eventually.of_forall fun t => rfl)
  simp only [line_zero, Pi.add_apply, Pi.pow_apply, Fin.sum_univ_eight, robotGradAt, robotU, robotL]
  have hm : (robotX x ^ 2 + robotY x ^ 2) ^ (-0.5 : ℝ) = (robotX x ^ 2 + robotY x ^ 2) ^ (0.5 : ℝ) / (robotX x ^ 2 + robotY x ^ 2) := by
    rw [← Real.rpow_sub_one h]; norm_num
  rw [hm]
  generalize (robotX x ^ 2 + robotY x ^ 2) ^ (0.5 : ℝ) = p
  have hpi := Real.pi_ne_zero
  have e1 : (robotX fun j => x j) = robotX x := rfl
  have e2 : (robotY fun j => x j) = robotY x := rfl
  simp only [e1, e2]
  generalize robotX x ^ 2 + robotY x ^ 2 = R at *
  simp
  field_simp
  simp only [robotX, robotY]
  ring

theorem borehole_grad_at (x : Fin 8 → ℝ) (h0 : x 0 ≠ 0) (h1 : 0 < x 1) (h4 : x 4 ≠ 0) (h7 : x 7 ≠ 0) (hl : Real.log (x 1 / x 0) ≠ 0)
    (hQ : 1 + 2 * x 6 * x 2 / (Real.log (x 1 / x 0) * x 0 ^ 2 * x 7) + x 2 / x 4 ≠ 0) :
    HasFDerivAt boreholeAt (lin fun j => boreholeGradAt x j /
      ![0.0161812, 1.0056 * x 1, (115600 - 63070) / 2, (1110 - 990) / 2, (116 - 63.1) / 2, (820 - 700) / 2, (1680 - 1120) / 2, (12045 - 9855) / 2] j) x := by
  have h1' := h1.ne'
  have hr : x 1 / x 0 ≠ 0 := div_ne_zero h1' h0
  have hd : Real.log (x 1 / x 0) * x 0 ^ 2 * x 7 ≠ 0 := mul_ne_zero (mul_ne_zero hl (pow_ne_zero 2 h0)) h7
  have hn : Real.log (x 1 / x 0) * (1 + 2 * x 6 * x 2 / (Real.log (x 1 / x 0) * x 0 ^ 2 * x 7) + x 2 / x 4) ≠ 0 := mul_ne_zero hl hQ
  refine grad_of_lines ?_ fun v => ?_
  · unfold boreholeAt
    dsimp only
    fun_prop (disch := assumption)
  have hx := line x v
  have hL : HasDerivAt (fun t : ℝ => Real.log ((x 1 + t * v 1) / (x 0 + t * v 0))) _ 0 :=
    (((hx 1).div (hx 0)) (by simpa using h0)).log (by simpa using ⟨h1', h0⟩)
  have hq := (((((hx 6).const_mul 2).mul (hx 2)).div ((hL.mul ((hx 0).pow 2)).mul (hx 7)) (by simpa using ⟨⟨by simpa using hl, h0⟩, h7⟩)).const_add 1).add ((hx 2).div (hx 4) (by simpa using h4))
  have hh := (((hx 2).const_mul (2 * Real.pi)).mul ((hx 3).sub (hx 5))).div (hL.mul hq) (by simpa using ⟨by simpa using hl, hQ⟩)
  refine (hh.congr_deriv ?_).congr_of_eventuallyEq (Filter.Eventually.of_forall fun t => rfl)
  have he : Real.exp (1.0056 * ((Real.log (x 1) - 7.71) / 1.0056) + 7.71) = x 1 := by
    rw [show 1.0056 * ((Real.log (x 1) - 7.71) / 1.0056) + 7.71 = Real.log (x 1) by norm_num; ring, Real.exp_log h1]
  simp only [line_zero, Pi.mul_apply, Pi.add_apply, Pi.pow_apply, Pi.sub_apply, Pi.div_apply, Fin.sum_univ_eight, boreholeGradAt]
  rw [he]
  simp only [zpow_neg]
  generalize Real.log (x 1 / x 0) = l at *
  generalize 1 + 2 * x 6 * x 2 / (l * x 0 ^ 2 * x 7) + x 2 / x 4 = Q at *
  simp
  field_simp
  ring

theorem piston_V_pos (x : Fin 7 → ℝ) (h : ∀ j, 0 < x j) (A : ℝ) :
    0 < x 1 / (2 * x 3) * (-A + Real.sqrt (A ^ 2 + 4 * x 3 * x 4 * x 2 * x 5 / x 6)) := by
  have h0 := h 0; have h1 := h 1; have h2 := h 2; have h3 := h 3; have h4 := h 4; have h5 := h 5; have h6 := h 6
  refine mul_pos (by positivity) ?_
  have : A < Real.sqrt (A ^ 2 + 4 * x 3 * x 4 * x 2 * x 5 / x 6) := by
    refine Real.lt_sqrt_of_sq_lt ?_
    have : 0 < 4 * x 3 * x 4 * x 2 * x 5 / x 6 := by positivity
    linarith
  linarith

theorem piston_grad_at (x : Fin 7 → ℝ) (h : ∀ j, 0 < x j) :
    HasFDerivAt pistonAt (lin fun j => pistonGradAt x j / ((pistonU j - pistonL j) / 2)) x := by
  have h0 := h 0; have h1 := h 1; have h2 := h 2; have h3 := h 3; have h4 := h 4; have h5 := h 5; have h6 := h 6
  obtain ⟨A, hA⟩ : ∃ A, A = x 4 * x 1 + 19.62 * x 0 - x 3 * x 2 / x 1 := ⟨_, rfl⟩
  obtain ⟨R, hR⟩ : ∃ R, R = A ^ 2 + 4 * x 3 * x 4 * x 2 * x 5 / x 6 := ⟨_, rfl⟩
  obtain ⟨V, hV⟩ : ∃ V, V = x 1 / (2 * x 3) * (-A + Real.sqrt R) := ⟨_, rfl⟩
  obtain ⟨Q, hQ⟩ : ∃ Q, Q = x 3 + x 1 ^ 2 * x 4 * x 2 * x 5 / (x 6 * V ^ 2) := ⟨_, rfl⟩
  have pV : 0 < V := by rw [hV, hR]; exact piston_V_pos x h A
  have pR : 0 < R := by rw [hR]; positivity
  have pQ : 0 < Q := by rw [hQ]; positivity
  have sM : 0 < Real.sqrt (x 0) := Real.sqrt_pos.2 h0
  have sQ : 0 < Real.sqrt Q := Real.sqrt_pos.2 pQ
  have sR : 0 < Real.sqrt R := Real.sqrt_pos.2 pR
  have eM := Real.sq_sqrt h0.le
  have eQ := Real.sq_sqrt pQ.le
  have k1 : (x 0) ^ (0.5 : ℝ) = Real.sqrt (x 0) := by rw [Real.sqrt_eq_rpow]; norm_num
  have k2 : R ^ (-0.5 : ℝ) = (Real.sqrt R)⁻¹ := by
    rw [Real.sqrt_eq_rpow, ← Real.rpow_neg pR.le]; norm_num
  have k3 : (x 0 * Q) ^ (-0.5 : ℝ) = (Real.sqrt (x 0))⁻¹ * (Real.sqrt Q)⁻¹ := by
    rw [Real.mul_rpow h0.le pQ.le, Real.sqrt_eq_rpow, Real.sqrt_eq_rpow, ← Real.rpow_neg h0.le, ← Real.rpow_neg pQ.le]; norm_num
  have k4 : Q ^ (-1.5 : ℝ) = (Real.sqrt Q)⁻¹ / Q := by
    rw [Real.sqrt_eq_rpow, ← Real.rpow_neg pQ.le, ← Real.rpow_sub_one pQ.ne']; norm_num
  have k5 : Real.sqrt (x 0 / Q) = Real.sqrt (x 0) / Real.sqrt Q := Real.sqrt_div h0.le _
  refine grad_of_lines ?_ fun v => ?_
  · unfold pistonAt
    dsimp only
    rw [hA] at hR
    have n1 := h1.ne'
    have n2 : (2 * x 3) ≠ 0 := by positivity
    have n6 := h6.ne'
    have n3 := pR.ne'
    have n4 : x 6 * V ^ 2 ≠ 0 := by positivity
    have n5 := pQ.ne'
    have n7 : x 0 / Q ≠ 0 := by positivity
    rw [hA] at hV
    rw [hR] at hV n3
    rw [hV] at n4 hQ
    rw [hQ] at n5 n7
    fun_prop (disch := assumption)
  have hx := line x v
  have dA : HasDerivAt (fun t : ℝ => (x 4 + t * v 4) * (x 1 + t * v 1) + 19.62 * (x 0 + t * v 0) - (x 3 + t * v 3) * (x 2 + t * v 2) / (x 1 + t * v 1)) 
      (v 4 * x 1 + x 4 * v 1 + 19.62 * v 0 - ((v 3 * x 2 + x 3 * v 2) * x 1 - x 3 * x 2 * v 1) / x 1 ^ 2) 0 := by
    have := (((hx 4).mul (hx 1)).add ((hx 0).const_mul 19.62)).sub (((hx 3).mul (hx 2)).div (hx 1) (by simpa using h1.ne'))
    refine (this.congr_deriv ?_).congr_of_eventuallyEq (Filter.Eventually.of_forall fun t => rfl)
    simp
  obtain ⟨A', hA'⟩ : ∃ A', A' = (v 4 * x 1 + x 4 * v 1 + 19.62 * v 0 - ((v 3 * x 2 + x 3 * v 2) * x 1 - x 3 * x 2 * v 1) / x 1 ^ 2) := ⟨_, rfl⟩
  obtain ⟨At, hAt⟩ : ∃ At : ℝ → ℝ, At = fun t : ℝ => (x 4 + t * v 4) * (x 1 + t * v 1) + 19.62 * (x 0 + t * v 0) - (x 3 + t * v 3) * (x 2 + t * v 2) / (x 1 + t * v 1) := ⟨_, rfl⟩
  rw [← hA', ← hAt] at dA
  have A0 : At 0 = A := by rw [hAt, hA]; simp
  obtain ⟨Rt, hRt⟩ : ∃ Rt : ℝ → ℝ, Rt = fun t : ℝ => At t ^ 2 + 4 * (x 3 + t * v 3) * (x 4 + t * v 4) * (x 2 + t * v 2) * (x 5 + t * v 5) / (x 6 + t * v 6) := ⟨_, rfl⟩
  obtain ⟨R', hR'⟩ : ∃ R', R' = 2 * A * A' + (4 * (v 3 * x 4 * x 2 * x 5 + x 3 * v 4 * x 2 * x 5 + x 3 * x 4 * v 2 * x 5 + x 3 * x 4 * x 2 * v 5) * x 6 - 4 * x 3 * x 4 * x 2 * x 5 * v 6) / x 6 ^ 2 := ⟨_, rfl⟩
  have R0 : Rt 0 = R := by rw [hRt, hR]; simp [A0]
  have dR : HasDerivAt Rt R' 0 := by
    have := (dA.pow 2).add ((((((hx 3).const_mul 4).mul (hx 4)).mul (hx 2)).mul (hx 5)).div (hx 6) (by simpa using h6.ne'))
    rw [hRt, hR']
    refine (this.congr_deriv ?_).congr_of_eventuallyEq (Filter.Eventually.of_forall fun t => rfl)
    simp [A0]
    ring
  obtain ⟨Vt, hVt⟩ : ∃ Vt : ℝ → ℝ, Vt = fun t : ℝ => (x 1 + t * v 1) / (2 * (x 3 + t * v 3)) * (- At t + Real.sqrt (Rt t)) := ⟨_, rfl⟩
  obtain ⟨V', hV'⟩ : ∃ V', V' = V / x 1 * v 1 - V / x 3 * v 3 + x 1 / (2 * x 3) * (- A' + R' / (2 * Real.sqrt R)) := ⟨_, rfl⟩
  have V0 : Vt 0 = V := by rw [hVt, hV]; simp [A0, R0]
  have dV : HasDerivAt Vt V' 0 := by
    have := ((hx 1).div ((hx 3).const_mul 2) (by simpa using h3.ne')).mul (dA.neg.add (dR.sqrt (by rw [R0]; exact pR.ne')))
    rw [hVt, hV']
    refine (this.congr_deriv ?_).congr_of_eventuallyEq (Filter.Eventually.of_forall fun t => rfl)
    simp [A0, R0]
    rw [hV]
    field_simp
  obtain ⟨Qt, hQt⟩ : ∃ Qt : ℝ → ℝ, Qt = fun t : ℝ => (x 3 + t * v 3) + (x 1 + t * v 1) ^ 2 * (x 4 + t * v 4) * (x 2 + t * v 2) * (x 5 + t * v 5) / ((x 6 + t * v 6) * Vt t ^ 2) := ⟨_, rfl⟩
  obtain ⟨Q', hQ'⟩ : ∃ Q', Q' = v 3 + (2 * x 1 * v 1 * x 4 * x 2 * x 5 + x 1 ^ 2 * v 4 * x 2 * x 5 + x 1 ^ 2 * x 4 * v 2 * x 5 + x 1 ^ 2 * x 4 * x 2 * v 5) / (x 6 * V ^ 2)
    - x 1 ^ 2 * x 4 * x 2 * x 5 * v 6 / (x 6 ^ 2 * V ^ 2) - 2 * x 1 ^ 2 * x 4 * x 2 * x 5 / (x 6 * V ^ 3) * V' := ⟨_, rfl⟩
  have Q0 : Qt 0 = Q := by rw [hQt, hQ]; simp [V0]
  have dQ : HasDerivAt Qt Q' 0 := by
    have := (hx 3).add ((((((hx 1).pow 2).mul (hx 4)).mul (hx 2)).mul (hx 5)).div ((hx 6).mul (dV.pow 2)) (by simpa [V0] using ⟨h6.ne', pV.ne'⟩))
    rw [hQt, hQ']
    refine (this.congr_deriv ?_).congr_of_eventuallyEq (Filter.Eventually.of_forall fun t => rfl)
    simp [V0]
    field_simp
    ring
  have dF := (((hx 0).div dQ (by rw [Q0]; exact pQ.ne')).sqrt (by simpa [Q0] using ⟨h0.ne', pQ.ne'⟩)).const_mul (2 * Real.pi)
  refine (dF.congr_deriv ?_).congr_of_eventuallyEq (Filter.Eventually.of_forall fun t => ?_)
  swap
  · simp only [pistonAt, hQt, hVt, hRt, hAt, Pi.div_apply]
  simp only [Q0, line_zero, Pi.div_apply, k5]
  simp only [pistonGradAt, ← hA, ← hR, ← hV, ← hQ, k1, k2, k3, k4, Fin.sum_univ_seven, pistonU, pistonL]
  simp
  generalize Real.sqrt (x 0) = m at *
  generalize Real.sqrt Q = q at *
  generalize Real.sqrt R = r at *
  rw [hQ', hV', hR', hA']
  clear hQ' hV' hR' hA' dA dR dV dQ dF hx hA hR hV hQ k1 k2 k3 k4 k5
  rw [← eM, ← eQ]
  generalize x 1 = S at *
  generalize x 2 = V0 at *
  generalize x 3 = k at *
  generalize x 4 = P at *
  generalize x 5 = Ta at *
  generalize x 6 = T at *
  field_simp
  ring

end Proofs.TestFunctions
