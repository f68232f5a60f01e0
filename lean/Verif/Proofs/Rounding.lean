import Verif.Proofs.Doubles

/-!
# Rounding functions
-/

open Spec Proofs.Doubles

namespace Proofs.Rounding

theorem isDouble_zero : IsDouble 0 := ⟨0, 0, by norm_num, by simp⟩

theorem isDouble_neg {x : ℝ} (h : IsDouble x) : IsDouble (-x) := by
  obtain ⟨a, e, ha, rfl⟩ := h
  exact ⟨-a, e, by rwa [abs_neg], by push_cast; ring⟩

theorem isDouble_zpow {x : ℝ} (h : IsDouble x) (k : ℤ) : IsDouble (x * (2 : ℝ) ^ k) := by
  obtain ⟨a, e, ha, rfl⟩ := h
  exact ⟨a, e + k, ha, by rw [zpow_add₀ (by norm_num), mul_assoc]⟩

theorem isDouble_two_mul {x : ℝ} (h : IsDouble x) : IsDouble (2 * x) := by
  have := isDouble_zpow h 1
  rwa [zpow_one, mul_comm] at this

theorem isDouble_half {x : ℝ} (h : IsDouble x) : IsDouble (x / 2) := by
  have := isDouble_zpow h (-1)
  rwa [zpow_neg_one, ← div_eq_mul_inv] at this

theorem nearest_neg {x d : ℝ} (h : Nearest x d) : Nearest (-x) (-d) := by
  refine ⟨isDouble_neg h.1, fun d' hd' => ?_⟩
  have := h.2 (-d') (isDouble_neg hd')
  rw [← neg_add', abs_neg, ← sub_eq_add_neg]
  refine this.trans (le_of_eq ?_)
  rw [sub_neg_eq_add, ← abs_neg]
  congr 1
  ring

variable {rd : ℝ → ℝ} (h : Rounding rd)
include h

theorem isDouble (x : ℝ) : IsDouble (rd x) := (h x).1

theorem exact {x : ℝ} (hx : IsDouble x) : rd x = x := nearest_self hx (h x)

theorem zero : rd 0 = 0 := exact h isDouble_zero

theorem error (x : ℝ) : |rd x - x| ≤ |x| / 2 ^ 53 := by
  rcases lt_trichotomy x 0 with hx | rfl | hx
  · have := nearest_error (by linarith : 0 < -x) (nearest_neg (h x))
    rw [abs_of_neg hx, show rd x - x = -x - -rd x by ring]
    exact this
  · rw [zero h]
    simp
  · rw [abs_sub_comm, abs_of_pos hx]
    exact nearest_error hx (h x)

theorem mono {x y : ℝ} (hxy : x ≤ y) : rd x ≤ rd y := by
  rcases hxy.lt_or_eq with hlt | rfl
  · by_contra hc
    push Not at hc
    have h1 := (h x).2 _ (h y).1
    have h2 := (h y).2 _ (h x).1
    rw [← sq_le_sq] at h1 h2
    nlinarith
  · exact le_rfl

theorem le_of_double {x c : ℝ} (hc : IsDouble c) (hx : x ≤ c) : rd x ≤ c := nearest_le (h x) hc hx

theorem ge_of_double {x c : ℝ} (hc : IsDouble c) (hx : c ≤ x) : c ≤ rd x := le_nearest (h x) hc hx

theorem nonneg {x : ℝ} (hx : 0 ≤ x) : 0 ≤ rd x := ge_of_double h isDouble_zero hx

theorem pos {x : ℝ} (hx : 0 < x) : 0 < rd x := by
  have h1 := error h x
  rw [abs_of_pos hx, abs_le] at h1
  have : x / 2 ^ 53 < x := by
    rw [div_lt_iff₀ (by norm_num)]
    nlinarith
  linarith

omit h in
/-- There is such a function. -/
theorem exists_rounding : ∃ rd, Rounding rd := by
  have : ∀ x : ℝ, ∃ d, Nearest x d := fun x => by
    rcases lt_trichotomy x 0 with hx | rfl | hx
    · obtain ⟨d, hd, -⟩ := exists_nearest (by linarith : 0 < -x)
      exact ⟨-d, by simpa using nearest_neg hd⟩
    · exact ⟨0, isDouble_zero, fun d' _ => by simp⟩
    · obtain ⟨d, hd, -⟩ := exists_nearest hx
      exact ⟨d, hd⟩
  choose rd hrd using this
  exact ⟨rd, hrd⟩

end Proofs.Rounding
