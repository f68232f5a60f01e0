import Mathlib.Analysis.SpecialFunctions.Log.Base
import Mathlib.Analysis.Complex.ExponentialBounds
import Verif.Spec.Doubles

/-!
# Rounding to doubles
-/

open Spec

namespace Proofs.Doubles

theorem isDouble_int {z : ℤ} (h : |z| < 2 ^ 53) : IsDouble (z : ℝ) := ⟨z, 0, h, by simp⟩

/-- Numbers with 53 bits, and the next power of two. -/
theorem isDouble_mul {a : ℤ} (h : |a| ≤ 2 ^ 53) (e : ℤ) : IsDouble (a * (2 : ℝ) ^ e) := by
  rcases h.lt_or_eq with h | h
  · exact ⟨a, e, h, rfl⟩
  · rcases abs_eq (by norm_num) |>.mp h with rfl | rfl
    · refine ⟨1, e + 53, by norm_num, ?_⟩
      rw [zpow_add₀ (by norm_num)]
      push_cast
      rw [mul_comm, one_mul]
      norm_cast
    · refine ⟨-1, e + 53, by norm_num, ?_⟩
      rw [zpow_add₀ (by norm_num)]
      push_cast
      rw [neg_mul, neg_one_mul, mul_comm]
      norm_cast

/-- Between two consecutive multiples of `2^e` with 53 bits lies no double. -/
theorem not_between {a e : ℤ} (ha : 2 ^ 52 ≤ a) {d : ℝ} (hd : IsDouble d) (h1 : a * (2 : ℝ) ^ e < d) (h2 : d < (a + 1) * (2 : ℝ) ^ e) : False := by
  obtain ⟨b, f, hb, rfl⟩ := hd
  have he : (0 : ℝ) < (2 : ℝ) ^ e := by positivity
  rcases le_or_gt e f with hef | hef
  · obtain ⟨t, rfl⟩ := Int.le.dest hef
    rw [zpow_add₀ (by norm_num), zpow_natCast, mul_comm ((2 : ℝ) ^ e), ← mul_assoc] at h1 h2
    have h3 := lt_of_mul_lt_mul_right h1 he.le
    have h4 := lt_of_mul_lt_mul_right h2 he.le
    have h5 : a < b * 2 ^ t := by exact_mod_cast h3
    have h6 : b * 2 ^ t < a + 1 := by exact_mod_cast h4
    omega
  · have h3 : (2 : ℝ) ^ f ≤ (2 : ℝ) ^ (e - 1) := zpow_le_zpow_right₀ (by norm_num) (by omega)
    rw [zpow_sub_one₀ (by norm_num)] at h3
    have h4 : (b : ℝ) < 2 ^ 53 := by exact_mod_cast (lt_of_le_of_lt (le_abs_self b) hb)
    have h5 : (2 : ℝ) ^ 52 ≤ a := by exact_mod_cast ha
    have hf : (0 : ℝ) < (2 : ℝ) ^ f := by positivity
    nlinarith

/-- Every positive number lies between two such multiples. -/
theorem exists_bracket {x : ℝ} (hx : 0 < x) : ∃ a e : ℤ, 2 ^ 52 ≤ a ∧ a < 2 ^ 53 ∧ a * (2 : ℝ) ^ e ≤ x ∧ x < (a + 1) * (2 : ℝ) ^ e := by
  obtain ⟨e, h1, h2⟩ := exists_mem_Ico_zpow hx (y := 2) (by norm_num)
  have he : (0 : ℝ) < (2 : ℝ) ^ (e - 52) := by positivity
  have e1 : (2 : ℝ) ^ e = 2 ^ 52 * (2 : ℝ) ^ (e - 52) := by
    rw [← zpow_natCast, ← zpow_add₀ (by norm_num)]
    congr 1
    push_cast
    ring
  have e2 : (2 : ℝ) ^ (e + 1) = 2 ^ 53 * (2 : ℝ) ^ (e - 52) := by
    rw [zpow_add_one₀ (by norm_num), e1]
    ring
  rw [e1] at h1
  rw [e2] at h2
  refine ⟨⌊x / (2 : ℝ) ^ (e - 52)⌋, e - 52, ?_, ?_, ?_, ?_⟩
  · refine Int.le_floor.mpr ?_
    rw [le_div_iff₀ he]
    exact_mod_cast h1
  · refine Int.floor_lt.mpr ?_
    rw [div_lt_iff₀ he]
    exact_mod_cast h2
  · exact (le_div_iff₀ he).mp (Int.floor_le _)
  · exact (div_lt_iff₀ he).mp (Int.lt_floor_add_one _)

theorem exists_nearest {x : ℝ} (hx : 0 < x) : ∃ d, Nearest x d ∧ |x - d| ≤ x / 2 ^ 53 := by
  obtain ⟨a, e, h1, h2, h3, h4⟩ := exists_bracket hx
  have ha : IsDouble (a * (2 : ℝ) ^ e) := isDouble_mul (by rw [abs_of_nonneg (by omega)]; omega) e
  have hb : IsDouble ((a + 1) * (2 : ℝ) ^ e) := by
    have := isDouble_mul (a := a + 1) (by rw [abs_of_nonneg (by omega)]; omega) e
    exact_mod_cast this
  have he : (0 : ℝ) < (2 : ℝ) ^ e := by positivity
  have hx' : (2 : ℝ) ^ 52 * (2 : ℝ) ^ e ≤ x := le_trans (by gcongr; exact_mod_cast h1) h3
  have key : ∀ d', IsDouble d' → d' ≤ a * (2 : ℝ) ^ e ∨ (a + 1) * (2 : ℝ) ^ e ≤ d' := fun d' hd' => by
    by_contra hc
    push Not at hc
    exact not_between h1 hd' hc.1 hc.2
  rcases le_total (x - a * (2 : ℝ) ^ e) ((a + 1) * (2 : ℝ) ^ e - x) with h5 | h5
  · refine ⟨_, ⟨ha, fun d' hd' => ?_⟩, ?_⟩
    · rw [abs_of_nonneg (by linarith)]
      rcases key d' hd' with h | h
      · exact le_trans (by linarith) (le_abs_self _)
      · exact le_trans (by linarith) (neg_le_abs _)
    · rw [abs_of_nonneg (by linarith), le_div_iff₀ (by norm_num)]
      nlinarith
  · refine ⟨_, ⟨hb, fun d' hd' => ?_⟩, ?_⟩
    · rw [abs_of_nonpos (by linarith)]
      rcases key d' hd' with h | h
      · exact le_trans (by linarith) (le_abs_self _)
      · exact le_trans (by linarith) (neg_le_abs _)
    · rw [abs_of_nonpos (by linarith), le_div_iff₀ (by norm_num)]
      nlinarith

theorem nearest_error {x d : ℝ} (hx : 0 < x) (h : Nearest x d) : |x - d| ≤ x / 2 ^ 53 := by
  obtain ⟨d', h1, h2⟩ := exists_nearest hx
  exact (h.2 d' h1.1).trans h2

theorem le_nearest {x d c : ℝ} (h : Nearest x d) (hc : IsDouble c) (hcx : c ≤ x) : c ≤ d := by
  by_contra hd
  push Not at hd
  have := h.2 c hc
  rw [abs_of_nonneg (by linarith), abs_of_nonneg (by linarith)] at this
  linarith

theorem nearest_le {x d c : ℝ} (h : Nearest x d) (hc : IsDouble c) (hcx : x ≤ c) : d ≤ c := by
  by_contra hd
  push Not at hd
  have := h.2 c hc
  rw [abs_of_nonpos (by linarith), abs_of_nonpos (by linarith)] at this
  linarith

/-- Doubles are not rounded. -/
theorem nearest_self {x d : ℝ} (hx : IsDouble x) (h : Nearest x d) : d = x :=
  le_antisymm (nearest_le h hx le_rfl) (le_nearest h hx le_rfl)

end Proofs.Doubles
