import Mathlib.Analysis.SpecialFunctions.Integrals.Basic
import Mathlib.Analysis.Calculus.Deriv.Polynomial
import Mathlib.Tactic.FieldSimp
import Mathlib.Topology.Algebra.Polynomial
import Verif.Spec.OrthoPoly
import Verif.Proofs.GaussRule

/-!
# Moments of the uniform density on [-1, 1] and Legendre polynomials
-/

open Polynomial Spec MeasureTheory

namespace Proofs.LegendrePoly

theorem intervalIntegrable_poly (p : ℝ[X]) (a b : ℝ) : IntervalIntegrable (fun x => p.eval x) volume a b :=
  (p.continuous).intervalIntegrable a b

/-- The functional of the uniform density. -/
noncomputable def unifL : ℝ[X] →ₗ[ℝ] ℝ where
  toFun p := (∫ x in (-1 : ℝ)..1, p.eval x) / 2
  map_add' p q := by
    simp only [eval_add]
    rw [intervalIntegral.integral_add (intervalIntegrable_poly p _ _) (intervalIntegrable_poly q _ _)]
    ring
  map_smul' c p := by
    simp only [eval_smul, smul_eq_mul, RingHom.id_apply]
    rw [intervalIntegral.integral_const_mul]
    ring

theorem unifL_apply (p : ℝ[X]) : unifL p = (∫ x in (-1 : ℝ)..1, p.eval x) / 2 := rfl

theorem unifL_one : unifL 1 = 1 := by
  simp [unifL_apply]

theorem unifL_derivative (p : ℝ[X]) : unifL (derivative p) = (p.eval 1 - p.eval (-1)) / 2 := by
  rw [unifL_apply, intervalIntegral.integral_eq_sub_of_hasDerivAt (fun x _ => p.hasDerivAt x)
    (intervalIntegrable_poly _ _ _)]

/-- Legendre polynomials (value 1 at 1). -/
noncomputable def P : ℕ → ℝ[X]
  | 0 => 1
  | 1 => X
  | k + 2 => C ((2 * k + 3) / (k + 2) : ℝ) * (X * P (k + 1)) - C ((k + 1) / (k + 2) : ℝ) * P k

theorem P_rec (k : ℕ) : C ((k : ℝ) + 2) * P (k + 2) = C (2 * (k : ℝ) + 3) * (X * P (k + 1)) - C ((k : ℝ) + 1) * P k := by
  have h : (k : ℝ) + 2 ≠ 0 := by positivity
  rw [P, mul_sub, ← mul_assoc, ← mul_assoc (C _) (C _) (P k), ← C_mul, ← C_mul]
  congr 4 <;> field_simp

theorem eval_one (k : ℕ) : (P k).eval 1 = 1 := by
  induction k using Nat.strong_induction_on with
  | _ k ih =>
    rcases k with _ | _ | k
    · simp [P]
    · simp [P]
    · have h : (k : ℝ) + 2 ≠ 0 := by positivity
      simp only [P, eval_sub, eval_mul, eval_C, eval_X, ih k (by omega), ih (k + 1) (by omega)]
      field_simp
      ring

theorem eval_neg_one (k : ℕ) : (P k).eval (-1) = (-1) ^ k := by
  induction k using Nat.strong_induction_on with
  | _ k ih =>
    rcases k with _ | _ | k
    · simp [P]
    · simp [P]
    · have h : (k : ℝ) + 2 ≠ 0 := by positivity
      simp only [P, eval_sub, eval_mul, eval_C, eval_X, ih k (by omega), ih (k + 1) (by omega)]
      field_simp
      ring

/-- Derivative identities. -/
theorem deriv_ids (k : ℕ) :
    derivative (P (k + 1)) - X * derivative (P k) = C ((k : ℝ) + 1) * P k ∧
    X * derivative (P (k + 1)) - derivative (P k) = C ((k : ℝ) + 1) * P (k + 1) := by
  induction k with
  | zero => simp [P]
  | succ k ih =>
    obtain ⟨hA, hB⟩ := ih
    have hrec := P_rec k
    have hd := congrArg derivative hrec
    simp only [derivative_sub, derivative_mul, derivative_C, derivative_X, zero_mul, zero_add, one_mul] at hd
    have hk : (k : ℝ) + 2 ≠ 0 := by positivity
    have hC : (C ((k : ℝ) + 2) : ℝ[X]) ≠ 0 := C_ne_zero.mpr hk
    simp only [C_add, C_mul, C_1, C_ofNat, Nat.cast_add, Nat.cast_one] at *
    constructor
    · apply mul_left_cancel₀ hC
      linear_combination hd + (C (k : ℝ) + 1) * hB
    · have h2 : derivative (P (k + 1 + 1)) = X * derivative (P (k + 1)) + (C (k : ℝ) + 1 + 1) * P (k + 1) := by
        apply mul_left_cancel₀ hC
        linear_combination hd + (C (k : ℝ) + 1) * hB
      rw [h2]
      linear_combination X * hB - hA - hrec

theorem P_integral (k : ℕ) : unifL (P (k + 1)) = 0 := by
  obtain ⟨hA, hB⟩ := deriv_ids k
  obtain ⟨hA', hB'⟩ := deriv_ids (k + 1)
  have hk : (2 * (k : ℝ) + 3) ≠ 0 := by positivity
  have h : derivative (P (k + 2) - P k) = (2 * (k : ℝ) + 3) • P (k + 1) := by
    rw [smul_eq_C_mul, derivative_sub]
    simp only [C_add, C_mul, C_1, C_ofNat, Nat.cast_add, Nat.cast_one] at *
    linear_combination hA' + hB
  have h2 := unifL_derivative (P (k + 2) - P k)
  rw [h, map_smul, smul_eq_mul] at h2
  simp only [eval_sub, eval_one, eval_neg_one] at h2
  have h3 : (2 * (k : ℝ) + 3) * unifL (P (k + 1)) = 0 := by
    rw [h2]
    ring
  exact (mul_eq_zero.mp h3).resolve_left hk

/-- The recurrence coefficients `a_k = 0`, `b_k = k^2 / (4 k^2 - 1)`. -/
noncomputable def bLeg (k : ℕ) : ℝ := (k : ℝ) ^ 2 / (4 * (k : ℝ) ^ 2 - 1)

theorem four_sq_pos (k : ℕ) (hk : 1 ≤ k) : 0 < 4 * (k : ℝ) ^ 2 - 1 := by
  have : (1 : ℝ) ≤ k := by exact_mod_cast hk
  nlinarith

theorem bLeg_pos (k : ℕ) (hk : 1 ≤ k) : 0 < bLeg k := by
  have : (1 : ℝ) ≤ k := by exact_mod_cast hk
  exact div_pos (by positivity) (four_sq_pos k hk)

theorem bLeg_nonneg (k : ℕ) : 0 ≤ bLeg k := by
  rcases k with _ | k
  · simp [bLeg]
  · exact (bLeg_pos _ (by omega)).le

noncomputable def leg (k : ℕ) : ℝ[X] := monicPoly (fun _ => 0) bLeg k

/-- Leading coefficients. -/
noncomputable def lc : ℕ → ℝ
  | 0 => 1
  | k + 1 => lc k * (2 * k + 1) / (k + 1)

theorem lc_pos (k : ℕ) : 0 < lc k := by
  induction k with
  | zero => simp [lc]
  | succ k ih => rw [lc]; positivity

theorem P_eq (k : ℕ) : P k = C (lc k) * leg k := by
  induction k using Nat.strong_induction_on with
  | _ k ih =>
    rcases k with _ | _ | k
    · simp [P, lc, leg, monicPoly]
    · simp [P, lc, leg, monicPoly]
    · have h1 : leg (k + 2) = X * leg (k + 1) - C (bLeg (k + 1)) * leg k := by
        simp [leg, monicPoly]
      rw [P, ih k (by omega), ih (k + 1) (by omega), h1]
      have hlc : lc (k + 2) = lc (k + 1) * (2 * (k + 1 : ℕ) + 1) / ((k + 1 : ℕ) + 1) := by rw [lc]
      have hlc1 : lc (k + 1) = lc k * (2 * k + 1) / (k + 1) := by rw [lc]
      have e1 : (2 * (k : ℝ) + 3) / (k + 2) * lc (k + 1) = lc (k + 2) := by
        rw [hlc]
        push_cast
        field_simp
        ring
      have e2 : ((k : ℝ) + 1) / (k + 2) * lc k = lc (k + 2) * bLeg (k + 1) := by
        rw [hlc, hlc1, bLeg]
        have h4 := four_sq_pos (k + 1) (by omega)
        have h5 : 4 * (((k + 1 : ℕ) : ℝ)) ^ 2 - 1 = (2 * k + 1) * (2 * k + 3) := by push_cast; ring
        rw [h5]
        push_cast
        field_simp
        ring
      rw [← e1]
      have e2' : C (((k : ℝ) + 1) / (k + 2)) * C (lc k) = C (lc (k + 2)) * C (bLeg (k + 1)) := by
        rw [← C_mul, ← C_mul, e2]
      rw [← e1] at e2'
      simp only [C_mul] at e2' ⊢
      linear_combination (-leg k) * e2'

theorem unifL_leg (k : ℕ) : unifL (monicPoly (fun _ => 0) bLeg (k + 1)) = 0 := by
  have h := P_integral k
  rw [P_eq, ← smul_eq_C_mul, map_smul, smul_eq_mul] at h
  exact (mul_eq_zero.mp h).resolve_left (lc_pos _).ne'

end Proofs.LegendrePoly
