import Mathlib.Analysis.SpecialFunctions.Complex.Circle
import Mathlib.Analysis.Complex.Trigonometric
import Verif.Props.TestFunctions

/-!
# C79: what `robot`, `piston`, `circuit` and `borehole` compute

Independent descriptions of the functions: the distance of the hand of a robot arm from its shoulder, the period of small oscillations of a
piston around its equilibrium, the voltage at which the currents into a node balance, and the flow through three resistances in series.
-/

open Py Model.TestFunctions Spec

namespace Props

variable {M : ℕ}

/-- The place of the hand in the complex plane: four links, each turned by its angle with respect to the link before. -/
noncomputable def hand (θ L : Fin 4 → ℝ) : ℂ :=
  L 0 * Complex.exp (θ 0 * Complex.I) + L 1 * Complex.exp ((θ 0 + θ 1) * Complex.I) + L 2 * Complex.exp ((θ 0 + θ 1 + θ 2) * Complex.I)
    + L 3 * Complex.exp ((θ 0 + θ 1 + θ 2 + θ 3) * Complex.I)

/-- `robot` returns the distance of the hand from the shoulder, for angles `pi (z + 1)` and lengths `(z + 1) / 2`. -/
theorem C79_robot (Z : Matrix (Fin M) (Fin 8) ℝ) : robot (.mat (.of Z)) = .ok (.of (Matrix.of fun i (_ : Fin 1) =>
    ‖hand (fun k => Real.pi * (Z i (Fin.castAdd 4 k) + 1)) fun k => (Z i (Fin.natAdd 4 k) + 1) / 2‖)) := by
  unfold robot
  rw [onBox_of]
  congr 3
  funext i _
  unfold robotAt
  have h : ∀ x : Fin 8 → ℝ, (robotX x ^ 2 + robotY x ^ 2) ^ (0.5 : ℝ) = ‖hand (fun k => x (Fin.castAdd 4 k)) fun k => x (Fin.natAdd 4 k)‖ := by
    intro x
    have hre : (hand (fun k => x (Fin.castAdd 4 k)) fun k => x (Fin.natAdd 4 k)) = (robotX x : ℂ) + (robotY x : ℂ) * Complex.I := by
      simp only [hand, robotX, robotY, Complex.exp_mul_I]
      push_cast
      ring
    rw [hre, Complex.norm_add_mul_I, Real.sqrt_eq_rpow]
    norm_num
  rw [h]
  congr 2
  · funext k
    fin_cases k <;> simp [robotU, robotL] <;> ring
  · funext k
    fin_cases k <;> simp [robotU, robotL]

/-- The force on a piston of weight `M` and surface `S` over gas of volume `V`, where the gas had volume `V0` and temperature `T0` at the
pressure `P0` of the atmosphere and is now at temperature `Ta`, and the spring with coefficient `k` is relaxed at volume `V0`. -/
noncomputable def pistonForce (M S V0 k P0 Ta T0 V : ℝ) : ℝ :=
  S * (P0 * V0 * Ta / (T0 * V)) - S * P0 - 19.62 * M - k * ((V - V0) / S)

/-- There is at most one volume at which the forces balance. -/
theorem piston_equilibrium_unique {M S V0 k P0 Ta T0 V W : ℝ} (hS : 0 < S) (hV0 : 0 < V0) (hk : 0 < k) (hP : 0 < P0) (hTa : 0 < Ta)
    (hT : 0 < T0) (hV : 0 < V) (hW : 0 < W) (h : pistonForce M S V0 k P0 Ta T0 V = 0) (h' : pistonForce M S V0 k P0 Ta T0 W = 0) : W = V := by
  unfold pistonForce at h h'
  have h1 : (V - W) * (S * (P0 * V0 * Ta) / (T0 * V * W) + k / S) = 0 := by
    have e : (V - W) * (S * (P0 * V0 * Ta) / (T0 * V * W) + k / S)
        = (S * (P0 * V0 * Ta / (T0 * W)) - S * P0 - 19.62 * M - k * ((W - V0) / S))
          - (S * (P0 * V0 * Ta / (T0 * V)) - S * P0 - 19.62 * M - k * ((V - V0) / S)) := by
      field_simp
      ring
    rw [e, h, h', sub_zero]
  rcases mul_eq_zero.1 h1 with h2 | h2
  · linarith
  · exact absurd h2 (by positivity)

/-- The lower and the upper ends of the inputs of the piston, in their units. -/
noncomputable def pistonLow : Fin 7 → ℝ := ![30, 0.005, 0.002, 1000, 90000, 290, 340]
/-- Upper ends. -/
noncomputable def pistonHigh : Fin 7 → ℝ := ![60, 0.02, 0.01, 5000, 110000, 296, 360]

/-- `piston` returns the period `2 pi sqrt(M / K)` of small oscillations: `V` is the only volume at which the forces balance and `K` is the
stiffness there, the decrease of the force with the height of the piston. -/
theorem C79_piston (Z : Matrix (Fin M) (Fin 7) ℝ) (hZ : ∀ i, Z i ∈ cube 7) : ∃ F : Matrix (Fin M) (Fin 1) ℝ,
    piston (.mat (.of Z)) = .ok (.of F) ∧ ∀ i, ∀ x : Fin 7 → ℝ, (∀ j, x j = pistonLow j + (pistonHigh j - pistonLow j) * ((Z i j + 1) / 2)) →
      ∃ V K : ℝ, 0 < V ∧ (∀ W, 0 < W → (pistonForce (x 0) (x 1) (x 2) (x 3) (x 4) (x 5) (x 6) W = 0 ↔ W = V)) ∧
        0 < K ∧ HasDerivAt (fun y : ℝ => pistonForce (x 0) (x 1) (x 2) (x 3) (x 4) (x 5) (x 6) (x 1 * y)) (-K) (V / x 1) ∧
        F i 0 = 2 * Real.pi * Real.sqrt (x 0 / K) := by
  refine ⟨_, onBox_of _ _ _ Z, fun i x hx => ?_⟩
  have hb := box_mem (fun j => (piston_box j).2) (hZ i)
  have e : (fun j => (pistonU j - pistonL j) * (Z i j + 1) / 2 + pistonL j) = x := by
    funext j
    rw [hx]
    fin_cases j <;> simp [pistonU, pistonL, pistonLow, pistonHigh] <;> ring
  have h : ∀ j, 0 < x j := fun j => by
    rw [← e]
    exact lt_of_lt_of_le (piston_box j).1 (hb j).1
  rw [Matrix.of_apply, e]
  have h0 := h 0; have h1 := h 1; have h2 := h 2; have h3 := h 3; have h4 := h 4; have h5 := h 5; have h6 := h 6
  have pV := Proofs.TestFunctions.piston_V_pos x h (x 4 * x 1 + 19.62 * x 0 - x 3 * x 2 / x 1)
  obtain ⟨A, hA⟩ : ∃ A, A = x 4 * x 1 + 19.62 * x 0 - x 3 * x 2 / x 1 := ⟨_, rfl⟩
  rw [← hA] at pV
  obtain ⟨r, hr⟩ : ∃ r, r = Real.sqrt (A ^ 2 + 4 * x 3 * x 4 * x 2 * x 5 / x 6) := ⟨_, rfl⟩
  rw [← hr] at pV
  have hr2 : r ^ 2 = A ^ 2 + 4 * x 3 * x 4 * x 2 * x 5 / x 6 := by
    rw [hr, Real.sq_sqrt (by positivity)]
  obtain ⟨V, hV⟩ : ∃ V, V = x 1 / (2 * x 3) * (-A + r) := ⟨_, rfl⟩
  rw [← hV] at pV
  have hd : HasDerivAt (fun y : ℝ => pistonForce (x 0) (x 1) (x 2) (x 3) (x 4) (x 5) (x 6) (x 1 * y))
      (-(x 3 + x 1 ^ 2 * x 4 * x 2 * x 5 / (x 6 * V ^ 2))) (V / x 1) := by
    have hl : HasDerivAt (fun y : ℝ => x 1 * y) (x 1) (V / x 1) := by
      simpa using (hasDerivAt_id (V / x 1)).const_mul (x 1)
    have e1 : x 1 * (V / x 1) = V := by field_simp
    have := (((((hasDerivAt_const (V / x 1) (x 4 * x 2 * x 5)).div (hl.const_mul (x 6)) (by rw [e1]; positivity)).const_mul (x 1)).sub_const
      (x 1 * x 4)).sub_const (19.62 * x 0)).sub ((((hl.sub_const (x 2)).div_const (x 1))).const_mul (x 3))
    refine (this.congr_deriv ?_).congr_of_eventuallyEq (Filter.Eventually.of_forall fun t => rfl)
    simp only [e1]
    field_simp
    ring
  have hf : pistonForce (x 0) (x 1) (x 2) (x 3) (x 4) (x 5) (x 6) V = 0 := by
    have q : x 3 * V ^ 2 / x 1 ^ 2 + A * V / x 1 = x 4 * x 2 * x 5 / x 6 := by
      rw [hV]
      field_simp at hr2 ⊢
      linear_combination hr2
    unfold pistonForce
    have : x 1 * (x 4 * x 2 * x 5 / (x 6 * V)) - x 1 * x 4 - 19.62 * x 0 - x 3 * ((V - x 2) / x 1)
        = x 1 / V * (x 4 * x 2 * x 5 / x 6) - A - x 3 * V / x 1 := by
      rw [hA]
      field_simp
      ring
    rw [this, ← q]
    field_simp
    ring
  refine ⟨V, x 3 + x 1 ^ 2 * x 4 * x 2 * x 5 / (x 6 * V ^ 2), pV, fun W hW => ⟨fun hw => ?_, fun hw => by rw [hw]; exact hf⟩, by positivity, hd, ?_⟩
  · exact piston_equilibrium_unique h1 h2 h3 h4 h5 h6 pV hW hf hw
  · simp only [pistonAt]
    rw [← hA, ← hr, ← hV]

example : ∀ i : Fin 2, (Matrix.of ![fun _ => (1 / 2 : ℝ), fun _ => -1] : Matrix (Fin 2) (Fin 7) ℝ) i ∈ cube 7 := by
  intro i j
  fin_cases i <;> simp <;> norm_num

/-- The current into the output node of the circuit at voltage `V`: through the feedback resistance `Rf`, from the base whose voltage comes
from the divider `Rb1`, `Rb2` and the drop of 0.74 V; through the current gain; and through `Rc1`. -/
noncomputable def nodeCurrent (Rb1 Rb2 Rf Rc1 Rc2 beta V : ℝ) : ℝ :=
  (12 * (Rb2 / (Rb1 + Rb2)) + 0.74 - V) / Rf + (11.35 - V) / (beta * (Rc2 + 9)) + 0.74 / Rc1

/-- Lower ends of the inputs of the circuit. -/
noncomputable def circuitLow : Fin 6 → ℝ := ![50, 25, 0.5, 1.2, 0.25, 50]
/-- Upper ends. -/
noncomputable def circuitHigh : Fin 6 → ℝ := ![150, 70, 3, 2.5, 1.2, 300]

/-- `circuit` returns the voltage at which the currents into the node balance. -/
theorem C79_circuit (Z : Matrix (Fin M) (Fin 6) ℝ) (hZ : ∀ i, Z i ∈ cube 6) : ∃ F : Matrix (Fin M) (Fin 1) ℝ,
    circuit (.mat (.of Z)) = .ok (.of F) ∧ ∀ i, ∀ x : Fin 6 → ℝ, (∀ j, x j = circuitLow j + (circuitHigh j - circuitLow j) * ((Z i j + 1) / 2)) →
      ∀ V, nodeCurrent (x 0) (x 1) (x 2) (x 3) (x 4) (x 5) V = 0 ↔ V = F i 0 := by
  refine ⟨_, onBox_of _ _ _ Z, fun i x hx V => ?_⟩
  have hb := box_mem (fun j => (circuit_box j).2) (hZ i)
  have e : (fun j => (circuitU j - circuitL j) * (Z i j + 1) / 2 + circuitL j) = x := by
    funext j
    rw [hx]
    fin_cases j <;> simp [circuitU, circuitL, circuitLow, circuitHigh] <;> ring
  have h : ∀ j, 0 < x j := fun j => by
    rw [← e]
    exact lt_of_lt_of_le (circuit_box j).1 (hb j).1
  rw [Matrix.of_apply, e]
  have h0 := h 0; have h1 := h 1; have h2 := h 2; have h3 := h 3; have h4 := h 4; have h5 := h 5
  have k1 : nodeCurrent (x 0) (x 1) (x 2) (x 3) (x 4) (x 5) V
      = (circuitAt x - V) * (1 / x 2 + 1 / (x 5 * (x 4 + 9))) := by
    simp only [nodeCurrent, circuitAt]
    have h01 : x 0 + x 1 ≠ 0 := by positivity
    have h49 : x 4 + 9 ≠ 0 := by positivity
    have hD : x 5 * (x 4 + 9) + x 2 ≠ 0 := by positivity
    field_simp
    ring
  rw [k1]
  have hp : (1 / x 2 + 1 / (x 5 * (x 4 + 9))) ≠ 0 := by positivity
  constructor
  · intro hh
    rcases mul_eq_zero.1 hh with h6 | h6
    · linarith
    · exact absurd h6 hp
  · intro hh
    rw [hh, sub_self, zero_mul]

/-- The drop of the head over the path of the water when the flow is `Q`: towards the borehole in the upper aquifer, down the borehole, and
away from it in the lower aquifer. -/
noncomputable def headDrop (rw r Tu Tl L Kw Q : ℝ) : ℝ :=
  Q / (2 * Real.pi * Tu) * (Real.log r - Real.log rw) + Q * L / (Kw * (Real.pi * rw ^ 2)) + Q / (2 * Real.pi * Tl) * (Real.log r - Real.log rw)

/-- `borehole` returns the flow at which the drop of the head is the difference of the heads of the aquifers. -/
theorem C79_borehole (Z : Matrix (Fin M) (Fin 8) ℝ) (hZ : ∀ i, BoreholeDomain (Z i)) : ∃ F : Matrix (Fin M) (Fin 1) ℝ,
    borehole id (.mat (.of Z)) = .ok (.of F) ∧ ∀ i, ∀ rw r Tu Hu Tl Hl L Kw : ℝ,
      rw = 0.1 + 0.0161812 * Z i 0 → r = Real.exp (7.71 + 1.0056 * Z i 1) →
      Tu = 63070 + (115600 - 63070) * ((Z i 2 + 1) / 2) → Hu = 990 + (1110 - 990) * ((Z i 3 + 1) / 2) →
      Tl = 63.1 + (116 - 63.1) * ((Z i 4 + 1) / 2) → Hl = 700 + (820 - 700) * ((Z i 5 + 1) / 2) →
      L = 1120 + (1680 - 1120) * ((Z i 6 + 1) / 2) → Kw = 9855 + (12045 - 9855) * ((Z i 7 + 1) / 2) →
      ∀ Q, headDrop rw r Tu Tl L Kw Q = Hu - Hl ↔ Q = F i 0 := by
  refine ⟨_, boreholeRows_of id _ Z, fun i rw r Tu Hu Tl Hl L Kw hrw hr hTu hHu hTl hHl hL hKw Q => ?_⟩
  obtain ⟨d0, d1, d2⟩ := hZ i
  have z2 := d2 2 (by decide); have z4 := d2 4 (by decide); have z6 := d2 6 (by decide); have z7 := d2 7 (by decide)
  have e : (fun j => id (![0.0161812 * Z i 0 + 0.1, Real.exp (1.0056 * Z i 1 + 7.71), (115600 - 63070) * (Z i 2 + 1) / 2 + 63070,
        (1110 - 990) * (Z i 3 + 1) / 2 + 990, (116 - 63.1) * (Z i 4 + 1) / 2 + 63.1, (820 - 700) * (Z i 5 + 1) / 2 + 700,
        (1680 - 1120) * (Z i 6 + 1) / 2 + 1120, (12045 - 9855) * (Z i 7 + 1) / 2 + 9855] j)) = ![rw, r, Tu, Hu, Tl, Hl, L, Kw] := by
    funext j
    rw [hrw, hr, hTu, hHu, hTl, hHl, hL, hKw, add_comm (7.71 : ℝ)]
    fin_cases j <;> simp <;> ring
  rw [Matrix.of_apply, e]
  have prw : 0 < rw := by rw [hrw]; linarith
  have hlt : rw < r := by rw [hrw, hr, add_comm (7.71 : ℝ)]; linarith
  have pr : 0 < r := prw.trans hlt
  have pTu : 0 < Tu := by rw [hTu]; linarith [z2.1]
  have pTl : 0 < Tl := by rw [hTl]; norm_num; linarith [z4.1]
  have pL : 0 < L := by rw [hL]; linarith [z6.1]
  have pKw : 0 < Kw := by rw [hKw]; linarith [z7.1]
  have pl : 0 < Real.log (r / rw) := Real.log_pos ((one_lt_div prw).2 hlt)
  have hpi := Real.pi_pos
  unfold headDrop
  rw [← Real.log_div pr.ne' prw.ne']
  change _ ↔ Q = 2 * Real.pi * Tu * (Hu - Hl) / (Real.log (r / rw) * (1 + 2 * L * Tu / (Real.log (r / rw) * rw ^ 2 * Kw) + Tu / Tl))
  rw [eq_div_iff (by positivity)]
  generalize Real.log (r / rw) = l at *
  have k : Q / (2 * Real.pi * Tu) * l + Q * L / (Kw * (Real.pi * rw ^ 2)) + Q / (2 * Real.pi * Tl) * l
      = Q * (l * (1 + 2 * L * Tu / (l * rw ^ 2 * Kw) + Tu / Tl)) / (2 * Real.pi * Tu) := by
    field_simp
  rw [k, div_eq_iff (by positivity)]
  constructor <;> intro hh <;> linarith

example : ∀ i : Fin 2, BoreholeDomain ((Matrix.of ![fun _ => (1 / 2 : ℝ), fun _ => -1] : Matrix (Fin 2) (Fin 8) ℝ) i) := by
  intro i
  fin_cases i <;> refine borehole_domain ?_ ?_ fun j _ => ?_ <;> simp <;> norm_num

end Props
