import Mathlib.Algebra.BigOperators.Group.List.Basic
import Verif.Proofs.Rounding
import Verif.Spec.FloatSum

/-!
# Rounding errors of sums of products
-/

open Spec Proofs.Rounding

namespace Proofs.FloatSum

/-- The exact sum, and the sum of the absolute values. -/
def val (l : List (ℝ × ℝ)) : ℝ := (l.map fun p => p.1 * p.2).sum
def mag (l : List (ℝ × ℝ)) : ℝ := (l.map fun p => |p.1 * p.2|).sum

theorem mag_nonneg (l : List (ℝ × ℝ)) : 0 ≤ mag l := List.sum_nonneg (by simp only [List.mem_map]; rintro _ ⟨p, -, rfl⟩; exact abs_nonneg _)

theorem val_le_mag (l : List (ℝ × ℝ)) : |val l| ≤ mag l := by
  induction l with
  | nil => simp [val, mag]
  | cons p l ih =>
    simp only [val, mag, List.map_cons, List.sum_cons] at ih ⊢
    exact (abs_add_le _ _).trans (add_le_add le_rfl ih)

/-- The unit roundoff. -/
noncomputable def u : ℝ := 1 / 2 ^ 53

theorem u_pos : 0 < u := by unfold u; positivity

theorem one_le_pow (n : ℕ) : 1 ≤ (1 + u) ^ n := one_le_pow₀ (by linarith [u_pos])

theorem pow_mono {a b : ℕ} (h : a ≤ b) : (1 + u) ^ a ≤ (1 + u) ^ b := pow_le_pow_right₀ (by linarith [u_pos]) h

variable {rd : ℝ → ℝ}

theorem step (h : Rounding rd) {x y m : ℝ} {n : ℕ} (hxy : |x - y| ≤ ((1 + u) ^ n - 1) * m) (hy : |y| ≤ m) :
    |rd x - y| ≤ ((1 + u) ^ (n + 1) - 1) * m := by
  have h1 := error h x
  have h2 : |x| ≤ (1 + u) ^ n * m := by
    have : x = y + (x - y) := by ring
    rw [this]
    refine (abs_add_le _ _).trans ?_
    linarith
  have h3 : |x| / 2 ^ 53 = u * |x| := by unfold u; ring
  rw [h3] at h1
  have e : rd x - y = (rd x - x) + (x - y) := by ring
  rw [e]
  refine (abs_add_le _ _).trans ?_
  have h4 := mul_le_mul_of_nonneg_left h2 u_pos.le
  rw [pow_succ]
  linarith

/-- The error of a sum of `n` products, in any order: relative to the sum of the absolute values at most `(1 + 2^-53)^n - 1`. -/
theorem bound (h : Rounding rd) {l : List (ℝ × ℝ)} {s : ℝ} (hs : FloatSum rd l s) :
    IsDouble s ∧ |s - val l| ≤ ((1 + u) ^ l.length - 1) * mag l := by
  induction hs with
  | nil => exact ⟨isDouble_zero, by simp [val, mag]⟩
  | mul a b =>
    refine ⟨isDouble h _, ?_⟩
    have := step h (x := a * b) (y := a * b) (m := |a * b|) (n := 0) (by simp) le_rfl
    simpa [val, mag] using this
  | @fma a b l s _ ih =>
    refine ⟨isDouble h _, ?_⟩
    refine step h (n := l.length) ?_ (val_le_mag ((a, b) :: l))
    have e : a * b + s - val ((a, b) :: l) = s - val l := by simp [val]
    rw [e]
    refine ih.2.trans (mul_le_mul_of_nonneg_left ?_ (by linarith [one_le_pow l.length]))
    simp only [mag, List.map_cons, List.sum_cons]
    linarith [abs_nonneg (a * b)]
  | @add l l' s t _ _ ih ih' =>
    refine ⟨isDouble h _, ?_⟩
    have ev : val (l ++ l') = val l + val l' := by simp [val]
    have em : mag (l ++ l') = mag l + mag l' := by simp [mag]
    rcases Nat.eq_zero_or_pos l.length with hl | hl
    · have : l = [] := List.length_eq_zero_iff.mp hl
      subst this
      have hs : s = 0 := by simpa [val, mag] using ih.2
      rw [hs, zero_add, exact h ih'.1]
      simpa using ih'.2
    rcases Nat.eq_zero_or_pos l'.length with hl' | hl'
    · have : l' = [] := List.length_eq_zero_iff.mp hl'
      subst this
      have ht : t = 0 := by simpa [val, mag] using ih'.2
      rw [ht, add_zero, exact h ih.1]
      simpa using ih.2
    have hlen : (l ++ l').length = (l.length + l'.length - 1) + 1 := by
      rw [List.length_append]
      omega
    rw [hlen]
    refine step h (n := l.length + l'.length - 1) ?_ (val_le_mag _)
    have e : s + t - val (l ++ l') = (s - val l) + (t - val l') := by rw [ev]; ring
    rw [e, em, mul_add]
    refine (abs_add_le _ _).trans (add_le_add (ih.2.trans ?_) (ih'.2.trans ?_))
    · exact mul_le_mul_of_nonneg_right (by linarith [pow_mono (a := l.length) (b := l.length + l'.length - 1) (by omega)]) (mag_nonneg _)
    · exact mul_le_mul_of_nonneg_right (by linarith [pow_mono (a := l'.length) (b := l.length + l'.length - 1) (by omega)]) (mag_nonneg _)
  | @perm l l' s hp _ ih =>
    have h1 : val l = val l' := (hp.map _).sum_eq
    have h2 : mag l = mag l' := (hp.map _).sum_eq
    rw [← h1, ← h2, ← hp.length_eq]
    exact ih

theorem exists_floatSum (rd : ℝ → ℝ) (l : List (ℝ × ℝ)) : ∃ s, FloatSum rd l s := by
  induction l with
  | nil => exact ⟨0, .nil⟩
  | cons p l ih =>
    obtain ⟨s, hs⟩ := ih
    exact ⟨_, .fma p.1 p.2 hs⟩

/-- The error of an entry of a matrix product. -/
theorem dot_bound (h : Rounding rd) {p n q : ℕ} {A : Matrix (Fin p) (Fin n) ℝ} {B : Matrix (Fin n) (Fin q) ℝ} {C : Matrix (Fin p) (Fin q) ℝ}
    (hC : FloatDot rd A B C) (i : Fin p) (j : Fin q) :
    |C i j - ∑ k, A i k * B k j| ≤ ((1 + u) ^ n - 1) * ∑ k, |A i k * B k j| := by
  have := (bound h (hC i j)).2
  simpa [val, mag, List.map_ofFn, List.sum_ofFn, Function.comp_def] using this

end Proofs.FloatSum
