import Mathlib.Analysis.SpecialFunctions.Integrals.Basic
import Mathlib.Analysis.SpecialFunctions.Pow.Deriv
import Mathlib.Analysis.Calculus.Deriv.Polynomial
import Mathlib.Tactic.FieldSimp
import Mathlib.Topology.Algebra.Polynomial
import Verif.Spec.OrthoPoly
import Verif.Proofs.GaussRule

/-!
# Jacobi polynomials on an interval
-/

open Polynomial Spec MeasureTheory Set

namespace Proofs.JacobiPoly

/-! ## The functional of the weight -/

/-- The weight `(r-x)^a (x-l)^b`. -/
noncomputable def wt (l r a b x : ℝ) : ℝ := (r - x) ^ a * (x - l) ^ b

variable {l r a b : ℝ}

theorem wt_integrable (hlr : l < r) (ha : -1 < a) (hb : -1 < b) : IntervalIntegrable (wt l r a b) volume l r := by
  set m := (l + r) / 2 with hm
  have h1 : l < m := by rw [hm]; linarith
  have h2 : m < r := by rw [hm]; linarith
  refine IntervalIntegrable.trans (b := m) ?_ ?_
  · have hi : IntervalIntegrable (fun x : ℝ => (x - l) ^ b) volume l m := by
      have := (intervalIntegral.intervalIntegrable_rpow' (a := 0) (b := m - l) hb).comp_sub_right l
      simpa using this
    refine hi.continuousOn_mul (f := fun x : ℝ => (x - l) ^ b) (g := fun x : ℝ => (r - x) ^ a) ?_
    refine ContinuousOn.rpow_const (by fun_prop) fun x hx => .inl ?_
    rw [uIcc_of_le h1.le] at hx
    have := hx.2
    linarith
  · have hi : IntervalIntegrable (fun x : ℝ => (r - x) ^ a) volume m r := by
      have := ((intervalIntegral.intervalIntegrable_rpow' (a := 0) (b := r - m) ha).comp_sub_left r).symm
      simpa using this
    refine hi.mul_continuousOn (f := fun x : ℝ => (r - x) ^ a) (g := fun x : ℝ => (x - l) ^ b) ?_
    refine ContinuousOn.rpow_const (by fun_prop) fun x hx => .inl ?_
    rw [uIcc_of_le h2.le] at hx
    have := hx.1
    linarith

theorem poly_integrable (hlr : l < r) (ha : -1 < a) (hb : -1 < b) (p : ℝ[X]) :
    IntervalIntegrable (fun x => p.eval x * wt l r a b x) volume l r :=
  (wt_integrable hlr ha hb).continuousOn_mul p.continuous.continuousOn

/-- Integration against the weight. -/
noncomputable def jacL (hlr : l < r) (ha : -1 < a) (hb : -1 < b) : ℝ[X] →ₗ[ℝ] ℝ where
  toFun p := ∫ x in l..r, p.eval x * wt l r a b x
  map_add' p q := by
    simp only [eval_add, add_mul]
    rw [intervalIntegral.integral_add (poly_integrable hlr ha hb p) (poly_integrable hlr ha hb q)]
  map_smul' c p := by
    simp only [eval_smul, smul_eq_mul, RingHom.id_apply, mul_assoc]
    rw [intervalIntegral.integral_const_mul]

theorem jacL_apply (hlr : l < r) (ha : -1 < a) (hb : -1 < b) (p : ℝ[X]) : jacL hlr ha hb p = ∫ x in l..r, p.eval x * wt l r a b x := rfl

theorem jacL_one_pos (hlr : l < r) (ha : -1 < a) (hb : -1 < b) : 0 < jacL hlr ha hb 1 := by
  rw [jacL_apply]
  simp only [eval_one, one_mul]
  refine intervalIntegral.intervalIntegral_pos_of_pos_on (wt_integrable hlr ha hb) (fun x hx => ?_) hlr
  exact mul_pos (Real.rpow_pos_of_pos (sub_pos.mpr hx.2) _) (Real.rpow_pos_of_pos (sub_pos.mpr hx.1) _)

/-- Integration by parts. -/
theorem pearson (hlr : l < r) (ha : -1 < a) (hb : -1 < b) (f : ℝ[X]) :
    jacL hlr ha hb ((X - C l) * (C r - X) * derivative f + (C (b + 1) * (C r - X) - C (a + 1) * (X - C l)) * f) = 0 := by
  rw [jacL_apply]
  set F : ℝ → ℝ := fun x => (r - x) ^ (a + 1) * (x - l) ^ (b + 1) * f.eval x with hF
  have h := intervalIntegral.integral_eq_sub_of_hasDerivAt_of_le (f := F) hlr.le ?_ ?_
    (poly_integrable hlr ha hb ((X - C l) * (C r - X) * derivative f + (C (b + 1) * (C r - X) - C (a + 1) * (X - C l)) * f))
  · rw [h, hF]
    beta_reduce
    rw [sub_self, sub_self, Real.zero_rpow (by linarith), Real.zero_rpow (by linarith)]
    ring
  · refine ContinuousOn.mul (ContinuousOn.mul ?_ ?_) f.continuous.continuousOn
    · exact ContinuousOn.rpow_const (by fun_prop) fun x _ => .inr (by linarith)
    · exact ContinuousOn.rpow_const (by fun_prop) fun x _ => .inr (by linarith)
  · intro x hx
    have h1 : 0 < r - x := sub_pos.mpr hx.2
    have h2 : 0 < x - l := sub_pos.mpr hx.1
    have d1 : HasDerivAt (fun x : ℝ => (r - x) ^ (a + 1)) ((-1) * (a + 1) * (r - x) ^ (a + 1 - 1)) x :=
      ((hasDerivAt_id x).const_sub r).rpow_const (.inl h1.ne')
    have d2 : HasDerivAt (fun x : ℝ => (x - l) ^ (b + 1)) (1 * (b + 1) * (x - l) ^ (b + 1 - 1)) x :=
      ((hasDerivAt_id x).sub_const l).rpow_const (.inl h2.ne')
    have d3 := (d1.mul d2).mul (f.hasDerivAt x)
    refine HasDerivAt.congr_deriv (f := F) d3 ?_
    simp only [wt, eval_add, eval_mul, eval_sub, eval_X, eval_C, add_sub_cancel_right, Pi.mul_apply]
    rw [Real.rpow_add_one h1.ne', Real.rpow_add_one h2.ne']
    ring

/-! ## The recurrence -/

/-- Recurrence coefficients of the Jacobi polynomials on the interval with centre `o` and half length `s`. -/
noncomputable def dJ (s a b : ℝ) (k : ℕ) : ℝ :=
  if k = 0 then s * ((b - a) / (a + b + 2)) else s * ((b ^ 2 - a ^ 2) / ((2 * k + a + b) * (2 * k + a + b + 2)))

noncomputable def aJ (o s a b : ℝ) (k : ℕ) : ℝ := o + dJ s a b k

noncomputable def bJ (s a b : ℝ) (k : ℕ) : ℝ :=
  if k = 1 then s ^ 2 * (4 * (1 + a) * (1 + b) / ((2 + a + b) ^ 2 * (3 + a + b)))
  else s ^ 2 * (4 * k * (k + a) * (k + b) * (k + a + b) / ((2 * k + a + b) ^ 2 * (2 * k + a + b + 1) * (2 * k + a + b - 1)))

noncomputable def eJ (s a b : ℝ) (k : ℕ) : ℝ := s * ((a - b) / (2 * k + a + b))

theorem bJ_pos {s : ℝ} (hs : s ≠ 0) (ha : -1 < a) (hb : -1 < b) (k : ℕ) (hk : 1 ≤ k) : 0 < bJ s a b k := by
  have hs2 : 0 < s ^ 2 := by positivity
  rw [bJ]
  split_ifs with h
  · have h1 : 0 < 1 + a := by linarith
    have h2 : 0 < 1 + b := by linarith
    have h3 : 0 < 2 + a + b := by linarith
    have h4 : 0 < 3 + a + b := by linarith
    positivity
  · have hk2 : (2 : ℝ) ≤ k := by exact_mod_cast (by omega : 2 ≤ k)
    have h1 : 0 < (k : ℝ) + a := by linarith
    have h2 : 0 < (k : ℝ) + b := by linarith
    have h3 : 0 < (k : ℝ) + a + b := by linarith
    have h4 : 0 < 2 * (k : ℝ) + a + b := by linarith
    have h5 : 0 < 2 * (k : ℝ) + a + b + 1 := by linarith
    have h6 : 0 < 2 * (k : ℝ) + a + b - 1 := by linarith
    positivity

section identities

variable {s : ℝ} (ha : -1 < a) (hb : -1 < b)

include ha hb

theorem id_I1 (n : ℕ) : ((n + 1 : ℕ) : ℝ) * (eJ s a b (n + 1) + dJ s a b (n + 1)) = ((n + 2 : ℕ) : ℝ) * (eJ s a b (n + 2) + dJ s a b (n + 1)) := by
  have hn : (0 : ℝ) ≤ n := n.cast_nonneg
  obtain ⟨D, hD⟩ : ∃ D, D = 2 * ((n : ℝ) + 1) + a + b := ⟨_, rfl⟩
  have h1 : D ≠ 0 := by intro h; linarith
  have h2 : D + 2 ≠ 0 := by intro h; linarith
  rw [eJ, eJ, dJ, if_neg (by omega)]
  push_cast
  have e : 2 * ((n : ℝ) + 2) + a + b = D + 2 := by rw [hD]; ring
  rw [e, ← hD]
  obtain rfl : b = D - 2 * ((n : ℝ) + 1) - a := by rw [hD]; ring
  field_simp
  ring

theorem id_b1 (n : ℕ) : (2 * ((n + 1 : ℕ) : ℝ) + a + b - 1) * bJ s a b (n + 1)
    = s ^ 2 * (4 * (n + 1) * (n + 1 + a) * (n + 1 + b) * (n + 1 + a + b) / ((2 * (n + 1) + a + b) ^ 2 * (2 * (n + 1) + a + b + 1))) := by
  have hn : (0 : ℝ) ≤ n := n.cast_nonneg
  have h1 : 2 * ((n : ℝ) + 1) + a + b ≠ 0 := by intro h; linarith
  have h2 : 2 * ((n : ℝ) + 1) + a + b + 1 ≠ 0 := by intro h; linarith
  rw [bJ]
  split_ifs with h
  · obtain rfl : n = 0 := by omega
    have h3 : 2 + a + b ≠ 0 := by intro h; linarith
    have h4 : 3 + a + b ≠ 0 := by intro h; linarith
    push_cast
    have e1 : 2 * ((0 : ℝ) + 1) + a + b = 2 + a + b := by ring
    have e2 : 2 + a + b + 1 = 3 + a + b := by ring
    rw [e1, e2]
    field_simp
    ring
  · have hn1 : (1 : ℝ) ≤ n := by exact_mod_cast (by omega : 1 ≤ n)
    have h3 : 2 * ((n : ℝ) + 1) + a + b - 1 ≠ 0 := by intro h; linarith
    push_cast
    field_simp

theorem id_b2 (n : ℕ) : (2 * ((n + 2 : ℕ) : ℝ) + a + b + 1) * bJ s a b (n + 2)
    = s ^ 2 * (4 * (n + 2) * (n + 2 + a) * (n + 2 + b) * (n + 2 + a + b) / ((2 * (n + 2) + a + b) ^ 2 * (2 * (n + 2) + a + b - 1))) := by
  have hn : (0 : ℝ) ≤ n := n.cast_nonneg
  have h1 : 2 * ((n : ℝ) + 2) + a + b ≠ 0 := by intro h; linarith
  have h2 : 2 * ((n : ℝ) + 2) + a + b + 1 ≠ 0 := by intro h; linarith
  have h3 : 2 * ((n : ℝ) + 2) + a + b - 1 ≠ 0 := by intro h; linarith
  rw [bJ, if_neg (by omega)]
  push_cast
  field_simp

theorem id_I0 (n : ℕ) : s ^ 2 - ((n + 1 : ℕ) : ℝ) * dJ s a b (n + 1) * eJ s a b (n + 1) + (2 * ((n + 1 : ℕ) : ℝ) + a + b - 1) * bJ s a b (n + 1)
    = -((n + 2 : ℕ) : ℝ) * eJ s a b (n + 2) * dJ s a b (n + 1) + (2 * ((n + 2 : ℕ) : ℝ) + a + b + 1) * bJ s a b (n + 2) := by
  have hn : (0 : ℝ) ≤ n := n.cast_nonneg
  rw [id_b1 ha hb, id_b2 ha hb, eJ, eJ, dJ, if_neg (by omega)]
  push_cast
  obtain ⟨D, hD⟩ : ∃ D, D = 2 * ((n : ℝ) + 1) + a + b := ⟨_, rfl⟩
  have e1 : 2 * ((n : ℝ) + 2) + a + b = D + 2 := by rw [hD]; ring
  have e2 : D + 2 - 1 = D + 1 := by ring
  rw [e1, e2, ← hD]
  have h1 : D ≠ 0 := by intro h; linarith
  have h2 : D + 2 ≠ 0 := by intro h; linarith
  have h3 : D + 1 ≠ 0 := by intro h; linarith
  obtain rfl : b = D - 2 * ((n : ℝ) + 1) - a := by rw [hD]; ring
  field_simp
  ring

theorem id_II0 (n : ℕ) : -(2 * ((n + 1 : ℕ) : ℝ) + a + b + 1) * dJ s a b (n + 1) - (n : ℝ) * eJ s a b n
    + (2 * ((n + 1 : ℕ) : ℝ) + a + b - 1) * dJ s a b n = -((n + 2 : ℕ) : ℝ) * eJ s a b (n + 2) := by
  have hn : (0 : ℝ) ≤ n := n.cast_nonneg
  rw [eJ, eJ, dJ, dJ, if_neg (by omega)]
  split_ifs with h
  · subst h
    push_cast
    obtain ⟨D, hD⟩ : ∃ D, D = a + b + 2 := ⟨_, rfl⟩
    have e1 : 2 + a + b = D := by rw [hD]; ring
    have e2 : 4 + a + b = D + 2 := by rw [hD]; ring
    have h3 : D ≠ 0 := by intro h; linarith
    have h4 : D + 2 ≠ 0 := by intro h; linarith
    norm_num only [zero_add]
    rw [e1, e2, ← hD]
    obtain rfl : b = D - 2 - a := by rw [hD]; ring
    field_simp
    ring
  · have hn1 : (1 : ℝ) ≤ n := by exact_mod_cast (by omega : 1 ≤ n)
    obtain ⟨D, hD⟩ : ∃ D, D = 2 * (n : ℝ) + a + b := ⟨_, rfl⟩
    have h3 : D ≠ 0 := by intro h; linarith
    push_cast
    have e1 : 2 * ((n : ℝ) + 2) + a + b = D + 4 := by rw [hD]; ring
    have e2 : 2 * ((n : ℝ) + 1) + a + b = D + 2 := by rw [hD]; ring
    have e3 : D + 2 + 2 = D + 4 := by ring
    rw [e1, e2, e3, ← hD]
    have h4 : D + 2 ≠ 0 := by intro h; linarith
    have h5 : D + 4 ≠ 0 := by intro h; linarith
    obtain rfl : b = D - 2 * (n : ℝ) - a := by rw [hD]; ring
    field_simp
    ring

theorem id_base : s ^ 2 - (s * ((b - a) / (a + b + 2))) ^ 2 = (3 + a + b) * bJ s a b 1 := by
  have h1 : a + b + 2 ≠ 0 := by intro h; linarith
  have h2 : 3 + a + b ≠ 0 := by intro h; linarith
  rw [bJ, if_pos rfl, show 2 + a + b = a + b + 2 by ring]
  field_simp
  ring

end identities

/-- The Jacobi polynomials. -/
noncomputable def jac (o s a b : ℝ) (k : ℕ) : ℝ[X] := monicPoly (aJ o s a b) (bJ s a b) k

/-- `b_k p_{k-1}` -/
noncomputable def prevJ (o s a b : ℝ) : ℕ → ℝ[X]
  | 0 => 0
  | k + 1 => C (bJ s a b (k + 1)) * jac o s a b k

theorem jac_succ (o s a b : ℝ) (k : ℕ) : jac o s a b (k + 1) = (X - C (aJ o s a b k)) * jac o s a b k - prevJ o s a b k := by
  cases k with
  | zero => simp [jac, monicPoly, prevJ]
  | succ k => rw [jac, monicPoly, prevJ]; rfl

/-- The structure relation. -/
theorem structure_rel {o s : ℝ} (ha : -1 < a) (hb : -1 < b) (n : ℕ) :
    (C (s ^ 2) - (X - C o) ^ 2) * derivative (jac o s a b n)
      = C (n : ℝ) * (C (eJ s a b n) - (X - C o)) * jac o s a b n + C (2 * (n : ℝ) + a + b + 1) * prevJ o s a b n := by
  induction n using Nat.strong_induction_on with
  | _ n ih =>
    rcases n with _ | _ | n
    · simp [jac, monicPoly, prevJ]
    · have h := congrArg (C : ℝ → ℝ[X]) (id_base (s := s) ha hb)
      have e : eJ s a b 1 = -(s * ((b - a) / (a + b + 2))) := by
        rw [eJ]
        push_cast
        rw [show 2 * 1 + a + b = a + b + 2 by ring]
        ring
      have e2 : (C (2 * ((0 + 1 : ℕ) : ℝ) + a + b + 1) : ℝ[X]) = C (3 + a + b) := by
        congr 1
        push_cast
        ring
      rw [e2, zero_add, e]
      simp only [jac, monicPoly, prevJ, derivative_sub, derivative_X, derivative_C, zero_add, Nat.cast_one, C_1, C_neg] at h ⊢
      simp only [aJ, dJ, if_true, C_sub, C_mul, C_pow, C_add] at h ⊢
      linear_combination h
    · have i0 := ih n (by omega)
      have i1 := ih (n + 1) (by omega)
      have r1 := jac_succ o s a b (n + 1)
      have r0 := jac_succ o s a b n
      have d1 := congrArg derivative r1
      have hq : prevJ o s a b (n + 1) = C (bJ s a b (n + 1)) * jac o s a b n := rfl
      have hq2 : prevJ o s a b (n + 1 + 1) = C (bJ s a b (n + 2)) * jac o s a b (n + 1) := rfl
      have k1 := congrArg (C : ℝ → ℝ[X]) (id_I1 (s := s) ha hb n)
      have k0 := congrArg (C : ℝ → ℝ[X]) (id_I0 (s := s) ha hb n)
      have k2 := congrArg (C : ℝ → ℝ[X]) (id_II0 (s := s) ha hb n)
      rw [hq] at r1 d1 i1
      rw [hq2]
      simp only [derivative_sub, derivative_mul, derivative_C, derivative_X, zero_mul, zero_add, sub_zero, one_mul] at d1
      simp only [aJ, C_add, C_mul, C_sub, C_neg, C_1, C_pow, C_ofNat, Nat.cast_add, Nat.cast_one, Nat.cast_ofNat] at *
      rw [d1]
      rw [r1]
      have hq0 : prevJ o s a b n = (X - (C o + C (dJ s a b n))) * jac o s a b n - jac o s a b (n + 1) := by
        rw [r0]; ring
      rw [hq0] at i0
      linear_combination (X - C o - C (dJ s a b (n + 1))) * i1 - C (bJ s a b (n + 1)) * i0
        + (X - C o) * jac o s a b (n + 1) * k1 + jac o s a b (n + 1) * k0 + C (bJ s a b (n + 1)) * jac o s a b n * k2

theorem jacL_jac (hlr : l < r) (ha : -1 < a) (hb : -1 < b) (n : ℕ) :
    jacL hlr ha hb (jac ((l + r) / 2) ((r - l) / 2) a b (n + 1)) = 0 := by
  set L := jacL hlr ha hb with hL
  set o := (l + r) / 2 with ho
  set s := (r - l) / 2 with hs
  have key : ∀ n : ℕ, L (jac o s a b (n + 1)) * ((n : ℝ) + a + b + 2) =
      ((n : ℝ) * (eJ s a b n) + s * (b - a) - ((n : ℝ) + a + b + 2) * dJ s a b n) * L (jac o s a b n) + ((n : ℝ) - 1) * L (prevJ o s a b n) := by
    intro n
    have h1 := pearson hlr ha hb (jac o s a b n)
    have h2 := structure_rel (o := o) (s := s) ha hb n
    have hr := jac_succ o s a b n
    have hl' : l = o - s := by rw [ho, hs]; ring
    have hr' : r = o + s := by rw [ho, hs]; ring
    have e : (X - C l) * (C r - X) * derivative (jac o s a b n) + (C (b + 1) * (C r - X) - C (a + 1) * (X - C l)) * jac o s a b n
        = ((n : ℝ) * (eJ s a b n) + s * (b - a) - ((n : ℝ) + a + b + 2) * dJ s a b n) • jac o s a b n + ((n : ℝ) - 1) • prevJ o s a b n
          - ((n : ℝ) + a + b + 2) • jac o s a b (n + 1) := by
      rw [hr, smul_eq_C_mul, smul_eq_C_mul, smul_eq_C_mul, hl', hr']
      simp only [aJ, C_add, C_mul, C_sub, C_1, C_pow, C_ofNat] at h2 ⊢
      linear_combination h2
    rw [e, map_sub, map_add, map_smul, map_smul, map_smul, smul_eq_mul, smul_eq_mul, smul_eq_mul] at h1
    linarith
  induction n using Nat.strong_induction_on with
  | _ n ih =>
    have hn : (0 : ℝ) ≤ n := n.cast_nonneg
    have hc : (n : ℝ) + a + b + 2 ≠ 0 := by intro h; linarith
    have hk := key n
    refine (mul_eq_zero.mp ?_).resolve_right hc
    rw [hk]
    rcases n with _ | _ | n
    · have h1 : a + b + 2 ≠ 0 := by intro h; linarith
      have : s * (b - a) - (a + b + 2) * dJ s a b 0 = 0 := by
        rw [dJ, if_pos rfl]
        field_simp
        ring
      simp only [prevJ, map_zero, CharP.cast_eq_zero, zero_mul, zero_add, this, mul_zero]
    · rw [ih 0 (by omega)]
      simp
    · rw [ih (n + 1) (by omega), show prevJ o s a b (n + 1 + 1) = bJ s a b (n + 2) • jac o s a b (n + 1) from (smul_eq_C_mul _).symm, map_smul, ih n (by omega)]
      simp

end Proofs.JacobiPoly
