import Verif.Proofs.Doubles

/-!
# Roots in double precision
-/

open Spec

namespace Proofs.Doubles

theorem exp_neg_le {t : ℝ} (h0 : 0 ≤ t) (h1 : t ≤ 1) : Real.exp (-t) ≤ 1 - t / 2 := by
  rw [Real.exp_neg]
  have h2 : 1 + t ≤ Real.exp t := by linarith [Real.add_one_le_exp t]
  refine (inv_anti₀ (by linarith) h2).trans ?_
  rw [inv_le_iff_one_le_mul₀ (by linarith)]
  nlinarith

theorem log_le_of_le_two_pow {N : ℝ} (h0 : 1 ≤ N) (h : N ≤ 2 ^ 45) : Real.log N ≤ 32 := by
  have h1 := Real.log_le_log (by linarith) h
  rw [Real.log_pow] at h1
  have := Real.log_two_lt_d9
  push_cast at h1
  linarith

/-- The number computed in double precision is the exact one, or one less. -/
theorem floor_root {N : ℤ} {n k : ℕ} (hn : 1 ≤ n) (hk : 1 ≤ k) (h1 : (k : ℤ) ^ n ≤ N) (h2 : N < ((k : ℤ) + 1) ^ n)
    (hs : (n : ℤ) * ((k : ℤ) + 1) ^ n ≤ 2 ^ 45) {p : ℝ} (hp : DoubleRoot N n p) :
    1 ≤ ⌊p⌋ ∧ (k : ℤ) - 1 ≤ ⌊p⌋ ∧ ⌊p⌋ ≤ k ∧ ((k : ℤ) ^ n ≠ N ∨ IsDouble (1 / (n : ℝ)) → ⌊p⌋ = k) := by
  obtain ⟨r, hr, hp⟩ := hp
  have hnR : (0 : ℝ) < n := by exact_mod_cast hn
  have hn1 : (1 : ℝ) ≤ n := by exact_mod_cast hn
  have hkR : (1 : ℝ) ≤ k := by exact_mod_cast hk
  have hkn : (1 : ℤ) ≤ (k : ℤ) ^ n := one_le_pow₀ (by exact_mod_cast hk)
  have hN1 : (1 : ℝ) ≤ N := by exact_mod_cast hkn.trans h1
  have hM : (1 : ℤ) ≤ ((k : ℤ) + 1) ^ n := one_le_pow₀ (by omega)
  have hM2 : ((k : ℤ) + 1) ^ n ≤ 2 ^ 45 := le_trans (by nlinarith) hs
  have hk2 : (k : ℤ) + 1 ≤ 2 ^ 45 := le_trans (le_self_pow₀ (by omega) (by omega)) hM2
  have hNR : (N : ℝ) ≤ 2 ^ 45 := by exact_mod_cast (h2.trans_le hM2).le
  have hsR : (n : ℝ) * ((k : ℝ) + 1) ^ n ≤ 2 ^ 45 := by exact_mod_cast hs
  have hMR : (0 : ℝ) < ((k : ℝ) + 1) ^ n := by positivity
  have h1R : (k : ℝ) ^ n ≤ N := by exact_mod_cast h1
  have h2R : (N : ℝ) + 1 ≤ ((k : ℝ) + 1) ^ n := by exact_mod_cast h2
  have hL := log_le_of_le_two_pow hN1 hNR
  have hL0 := Real.log_nonneg hN1
  set L := Real.log N with hLdef
  have hx : (N : ℝ) ^ r = Real.exp (L * r) := Real.rpow_def_of_pos (by linarith) r
  have herr := nearest_error (by positivity) hr
  have hxpos : 0 < (N : ℝ) ^ r := Real.rpow_pos_of_pos (by linarith) r
  have herr2 := nearest_error hxpos hp
  rw [abs_le] at herr herr2
  have hr0 : 0 ≤ r := le_nearest hr (by simpa using isDouble_int (z := 0) (by norm_num)) (by positivity)
  have hdk : IsDouble (k : ℝ) := by
    have := isDouble_int (z := (k : ℤ)) (by rw [abs_of_nonneg (by omega)]; omega)
    exact_mod_cast this
  have hdk1 : IsDouble ((k : ℝ) - 1) := by
    have := isDouble_int (z := (k : ℤ) - 1) (by rw [abs_of_nonneg (by omega)]; omega)
    exact_mod_cast this
  -- bounds of the exponent
  have hu : L * r ≤ L / n + 1 / 2 ^ 48 / n := by
    have : L * r ≤ L * (1 / n + 1 / n / 2 ^ 53) := mul_le_mul_of_nonneg_left (by linarith) hL0
    refine this.trans ?_
    rw [mul_add]
    have h3 : L * (1 / n / 2 ^ 53) ≤ 32 * (1 / n / 2 ^ 53) := mul_le_mul_of_nonneg_right hL (by positivity)
    have h4 : (32 : ℝ) * (1 / n / 2 ^ 53) = 1 / 2 ^ 48 / n := by ring
    rw [h4] at h3
    linarith [show L * (1 / n) = L / n by ring]
  have hl : L / n - 1 / 2 ^ 48 / n ≤ L * r := by
    have : L * (1 / n - 1 / n / 2 ^ 53) ≤ L * r := mul_le_mul_of_nonneg_left (by linarith) hL0
    refine le_trans ?_ this
    rw [mul_sub]
    have h3 : L * (1 / n / 2 ^ 53) ≤ 32 * (1 / n / 2 ^ 53) := mul_le_mul_of_nonneg_right hL (by positivity)
    have h4 : (32 : ℝ) * (1 / n / 2 ^ 53) = 1 / 2 ^ 48 / n := by ring
    rw [h4] at h3
    linarith [show L * (1 / n) = L / n by ring]
  -- from above
  have hup : p < k + 1 := by
    have a1 : L ≤ n * Real.log (k + 1) - 1 / ((k : ℝ) + 1) ^ n := by
      have b1 : Real.log (N / ((k : ℝ) + 1) ^ n) ≤ N / ((k : ℝ) + 1) ^ n - 1 := Real.log_le_sub_one_of_pos (by positivity)
      rw [Real.log_div (by linarith) hMR.ne', Real.log_pow] at b1
      have b2 : (N : ℝ) / ((k : ℝ) + 1) ^ n - 1 ≤ -(1 / ((k : ℝ) + 1) ^ n) := by
        rw [div_sub_one hMR.ne', ← neg_div, div_le_div_iff_of_pos_right hMR]
        linarith
      linarith
    have a2 : L / n ≤ Real.log (k + 1) - 1 / (n * ((k : ℝ) + 1) ^ n) := by
      rw [div_le_iff₀ hnR]
      refine a1.trans (le_of_eq ?_)
      field_simp
    have a3 : 1 / (2 : ℝ) ^ 45 ≤ 1 / (n * ((k : ℝ) + 1) ^ n) := one_div_le_one_div_of_le (by positivity) hsR
    have a4 : 1 / (2 : ℝ) ^ 48 / n ≤ 1 / 2 ^ 48 := div_le_self (by positivity) hn1
    have a5 : L * r ≤ Real.log (k + 1) + -(1 / 2 ^ 46) := by
      have : (1 : ℝ) / 2 ^ 48 + 1 / 2 ^ 46 ≤ 1 / 2 ^ 45 := by norm_num
      linarith
    have a6 : (N : ℝ) ^ r ≤ (k + 1) * (1 - 1 / 2 ^ 47) := by
      rw [hx]
      refine (Real.exp_le_exp.mpr a5).trans ?_
      rw [Real.exp_add, Real.exp_log (by linarith)]
      refine mul_le_mul_of_nonneg_left ((exp_neg_le (by positivity) (by norm_num)).trans (by norm_num)) (by linarith)
    have a7 : p ≤ (N : ℝ) ^ r * (1 + 1 / 2 ^ 53) := by
      have := herr2.1
      linarith [show (N : ℝ) ^ r * (1 + 1 / 2 ^ 53) = (N : ℝ) ^ r + (N : ℝ) ^ r / 2 ^ 53 by ring]
    have a8 : (N : ℝ) ^ r * (1 + 1 / 2 ^ 53) ≤ (k + 1) * (1 - 1 / 2 ^ 47) * (1 + 1 / 2 ^ 53) := mul_le_mul_of_nonneg_right a6 (by norm_num)
    have a9 : ((k : ℝ) + 1) * (1 - 1 / 2 ^ 47) * (1 + 1 / 2 ^ 53) < k + 1 := by
      rw [mul_assoc]
      exact mul_lt_of_lt_one_right (by linarith) (by norm_num)
    linarith
  have hle : ⌊p⌋ ≤ k := by
    have : ⌊p⌋ < (k : ℤ) + 1 := Int.floor_lt.mpr (by exact_mod_cast hup)
    omega
  have hkpow : Real.log ((k : ℝ) ^ n) = n * Real.log k := Real.log_pow _ _
  have hklog : Real.log k ≤ L / n := by
    rw [le_div_iff₀ hnR, mul_comm, ← hkpow]
    exact Real.log_le_log (by positivity) h1R
  refine ⟨?_, ?_, hle, fun hc => ?_⟩
  · refine Int.le_floor.mpr (le_nearest hp (by simpa using isDouble_int (z := 1) (by norm_num)) ?_)
    push_cast
    exact Real.one_le_rpow hN1 hr0
  · refine Int.le_floor.mpr ?_
    push_cast
    refine le_nearest hp hdk1 ?_
    have a4 : 1 / (2 : ℝ) ^ 48 / n ≤ 1 / 2 ^ 48 := div_le_self (by positivity) hn1
    have a5 : Real.log k + -(1 / 2 ^ 48) ≤ L * r := by linarith
    rw [hx]
    refine le_trans ?_ (Real.exp_le_exp.mpr a5)
    rw [Real.exp_add, Real.exp_log (by linarith)]
    have a6 := Real.add_one_le_exp (-(1 / (2 : ℝ) ^ 48))
    have a7 : (k : ℝ) * (-(1 / 2 ^ 48) + 1) ≤ k * Real.exp (-(1 / 2 ^ 48)) := mul_le_mul_of_nonneg_left a6 (by linarith)
    have a8 : (k : ℝ) + 1 ≤ 2 ^ 45 := by exact_mod_cast hk2
    have a9 : (k : ℝ) * (1 / 2 ^ 48) ≤ 1 := by
      rw [mul_one_div, div_le_one (by positivity)]
      linarith [show (2 : ℝ) ^ 45 ≤ 2 ^ 48 by norm_num]
    linarith
  · refine le_antisymm hle (Int.le_floor.mpr (le_nearest hp (by exact_mod_cast hdk) ?_))
    push_cast
    rw [hx]
    rcases hc with hc | hc
    · have b0 : (k : ℝ) ^ n + 1 ≤ N := by
        have : (k : ℤ) ^ n < N := lt_of_le_of_ne h1 hc
        exact_mod_cast this
      have b1 : Real.log ((k : ℝ) ^ n / N) ≤ (k : ℝ) ^ n / N - 1 := Real.log_le_sub_one_of_pos (by positivity)
      rw [Real.log_div (by positivity) (by linarith), hkpow] at b1
      have b2 : (k : ℝ) ^ n / N - 1 ≤ -(1 / N) := by
        rw [div_sub_one (by linarith), ← neg_div, div_le_div_iff_of_pos_right (by linarith)]
        linarith
      have b3 : 1 / (2 : ℝ) ^ 48 ≤ 1 / N := one_div_le_one_div_of_le (by linarith) (hNR.trans (by norm_num))
      have b4 : Real.log k + 1 / 2 ^ 48 / n ≤ L / n := by
        rw [le_div_iff₀ hnR, add_mul, div_mul_cancel₀ _ hnR.ne']
        linarith
      calc (k : ℝ) = Real.exp (Real.log k) := (Real.exp_log (by linarith)).symm
        _ ≤ _ := Real.exp_le_exp.mpr (by linarith)
    · obtain rfl := nearest_self hc hr
      calc (k : ℝ) = Real.exp (Real.log k) := (Real.exp_log (by linarith)).symm
        _ ≤ _ := Real.exp_le_exp.mpr (by rw [mul_one_div]; exact hklog)

/-- The double nearest to 1/3. -/
theorem nearest_third {r : ℝ} (h : Nearest (1 / ((3 : ℕ) : ℝ)) r) : r = 6004799503160661 / 2 ^ 54 := by
  have hd : IsDouble (6004799503160661 / 2 ^ 54 : ℝ) := by
    refine ⟨6004799503160661, -54, by norm_num, ?_⟩
    rw [zpow_neg, div_eq_mul_inv]
    norm_cast
  have h1 : (6004799503160661 / 2 ^ 54 : ℝ) ≤ r := le_nearest h hd (by norm_num)
  have h2 := h.2 _ hd
  rw [abs_of_nonneg (by norm_num : (0 : ℝ) ≤ 1 / ((3 : ℕ) : ℝ) - 6004799503160661 / 2 ^ 54)] at h2
  have h3 := (abs_le.mp h2).1
  refine le_antisymm ?_ h1
  by_contra hc
  push Not at hc
  refine not_between (a := 6004799503160661) (e := -54) (by norm_num) h.1 ?_ ?_
  · refine lt_of_eq_of_lt ?_ hc
    rw [zpow_neg, div_eq_mul_inv]
    norm_cast
  · have : ((6004799503160661 : ℤ) + 1 : ℝ) * (2 : ℝ) ^ (-54 : ℤ) = 6004799503160662 / 2 ^ 54 := by
      rw [zpow_neg, div_eq_mul_inv]
      norm_num
    rw [this]
    norm_num at h3 ⊢
    linarith

/-- The third root of 64 is less than 4 in double precision. -/
theorem floor_root_64 {p : ℝ} (h : DoubleRoot 64 3 p) : ⌊p⌋ = 3 := by
  obtain ⟨r, hr, hp⟩ := h
  have hr6 : 6 * r = 2 - 1 / 2 ^ 53 := by
    rw [nearest_third hr]
    norm_num
  clear hr
  set x : ℝ := (((64 : ℤ) : ℝ)) ^ r with hx
  have e1 : x = 4 * Real.exp (-(Real.log 2 / 2 ^ 53)) := by
    rw [hx, Real.rpow_def_of_pos (by norm_num)]
    have h64 : Real.log ((64 : ℤ) : ℝ) = 6 * Real.log 2 := by
      rw [show (((64 : ℤ) : ℝ)) = 2 ^ 6 by norm_num, Real.log_pow]
      norm_num
    have h4 : (4 : ℝ) = Real.exp (2 * Real.log 2) := by
      rw [two_mul, Real.exp_add, Real.exp_log (by norm_num)]
      norm_num
    rw [h64, h4, ← Real.exp_add]
    congr 1
    rw [show 6 * Real.log 2 * r = (6 * r) * Real.log 2 by ring, hr6]
    ring
  have hl1 := Real.log_two_gt_d9
  have hl2 := Real.log_two_lt_d9
  set t : ℝ := Real.log 2 / 2 ^ 53 with ht
  have ht1 : 0.69 / 2 ^ 53 ≤ t := by
    rw [ht]
    gcongr
    linarith
  have ht2 : t ≤ 1 / 2 ^ 53 := by
    rw [ht]
    gcongr
    linarith
  have hx1 : x < 4 - 1 / 2 ^ 52 := by
    have a1 : Real.exp (-t) ≤ 1 / (1 + t) := by
      rw [Real.exp_neg, ← one_div]
      exact one_div_le_one_div_of_le (by linarith [show (0 : ℝ) ≤ 0.69 / 2 ^ 53 by norm_num]) (by linarith [Real.add_one_le_exp t])
    have a2 : 1 / (1 + t) < 1 - 1 / 2 ^ 54 := by
      rw [div_lt_iff₀ (by linarith [show (0 : ℝ) ≤ 0.69 / 2 ^ 53 by norm_num])]
      have : (1 : ℝ) / 2 ^ 54 * t ≤ 1 / 2 ^ 54 * (1 / 2 ^ 53) := mul_le_mul_of_nonneg_left ht2 (by norm_num)
      norm_num at ht1 this ⊢
      linarith
    rw [e1]
    norm_num at a1 a2 ⊢
    linarith
  have hx2 : 3 ≤ x := by
    rw [e1]
    have := Real.add_one_le_exp (-t)
    have : (1 : ℝ) / 2 ^ 53 ≤ 1 / 8 := by norm_num
    linarith
  have hd : IsDouble (4 - 1 / 2 ^ 51 : ℝ) := by
    refine ⟨2 ^ 53 - 1, -51, by norm_num, ?_⟩
    rw [zpow_neg]
    norm_num
  have hp4 : p < 4 := by
    by_contra hc
    push Not at hc
    have := hp.2 _ hd
    rw [abs_of_nonpos (by linarith [show (0 : ℝ) ≤ 1 / 2 ^ 52 by norm_num])] at this
    rcases le_total 0 (x - (4 - 1 / 2 ^ 51)) with h | h
    · rw [abs_of_nonneg h] at this
      norm_num at this hx1 h
      linarith
    · rw [abs_of_nonpos h] at this
      norm_num at this hx1 h
      linarith
  have hp3 : 3 ≤ p := le_nearest hp (by exact_mod_cast isDouble_int (z := 3) (by norm_num)) hx2
  exact Int.floor_eq_iff.mpr ⟨by exact_mod_cast hp3, by push_cast; linarith⟩

theorem exists_doubleRoot {N : ℤ} (hN : 1 ≤ N) {n : ℕ} (hn : 1 ≤ n) : ∃ p, DoubleRoot N n p := by
  obtain ⟨r, hr, -⟩ := exists_nearest (x := 1 / (n : ℝ)) (by have : (0 : ℝ) < n := by exact_mod_cast hn
                                                             positivity)
  have : (0 : ℝ) < N := by exact_mod_cast hN
  obtain ⟨p, hp, -⟩ := exists_nearest (x := (N : ℝ) ^ r) (Real.rpow_pos_of_pos this r)
  exact ⟨p, r, hr, hp⟩

end Proofs.Doubles
