import Verif.Proofs.FloatSum

/-!
# Products, quotients and sums of numbers with relative errors
-/

open Spec Proofs.Rounding Proofs.FloatSum

namespace Proofs.Near

/-- `a` is computed with `n` roundings instead of `b`, where the terms of `b` add up to `m` in absolute value. -/
structure Near (n : ℕ) (a b m : ℝ) : Prop where
  err : |a - b| ≤ ((1 + u) ^ n - 1) * m
  le : |b| ≤ m

variable {rd : ℝ → ℝ} {n p q : ℕ} {a b c d m k : ℝ}

theorem Near.abs_le (h : Near n a b m) : |a| ≤ (1 + u) ^ n * m := by
  have : a = b + (a - b) := by ring
  rw [this]
  refine (abs_add_le _ _).trans ?_
  linarith [h.err, h.le]

theorem Near.nonneg (h : Near n a b m) : 0 ≤ m := (abs_nonneg b).trans h.le

theorem refl (h : |b| ≤ m) : Near 0 b b m := ⟨by simp, h⟩

theorem Near.mono (h : Near n a b m) (hp : n ≤ p) : Near p a b m :=
  ⟨h.err.trans (mul_le_mul_of_nonneg_right (by linarith [pow_mono hp]) h.nonneg), h.le⟩

theorem Near.round (hr : Rounding rd) (h : Near n a b m) : Near (n + 1) (rd a) b m := ⟨step hr h.err h.le, h.le⟩

theorem Near.mul (h : Near p a b m) (h' : Near q c d k) : Near (p + q) (a * c) (b * d) (m * k) := by
  refine ⟨?_, by rw [abs_mul]; exact mul_le_mul h.le h'.le (abs_nonneg _) h.nonneg⟩
  have e : a * c - b * d = (a - b) * c + b * (c - d) := by ring
  rw [e, pow_add]
  refine (abs_add_le _ _).trans ?_
  rw [abs_mul, abs_mul]
  have h1 : |a - b| * |c| ≤ ((1 + u) ^ p - 1) * m * ((1 + u) ^ q * k) :=
    mul_le_mul h.err h'.abs_le (abs_nonneg _) (mul_nonneg (by linarith [one_le_pow p]) h.nonneg)
  have h2 : |b| * |c - d| ≤ m * (((1 + u) ^ q - 1) * k) := mul_le_mul h.le h'.err (abs_nonneg _) h.nonneg
  calc _ ≤ _ := add_le_add h1 h2
    _ = _ := by ring

theorem Near.div (h : Near n a b m) (hc : 0 < c) : Near n (a / c) (b / c) (m / c) := by
  refine ⟨?_, by rw [abs_div, abs_of_pos hc]; exact div_le_div_of_nonneg_right h.le hc.le⟩
  rw [← sub_div, abs_div, abs_of_pos hc, ← mul_div_assoc]
  exact div_le_div_of_nonneg_right h.err hc.le

theorem Near.trans (h : Near p a b m) (hm : m ≤ (1 + u) ^ q * k) (h' : Near q b d k) : Near (p + q) a d k := by
  refine ⟨?_, h'.le⟩
  have e : a - d = (a - b) + (b - d) := by ring
  rw [e, pow_add]
  refine (abs_add_le _ _).trans ?_
  have h1 := mul_le_mul_of_nonneg_left hm (by linarith [one_le_pow p] : 0 ≤ (1 + u) ^ p - 1)
  calc _ ≤ _ := add_le_add (h.err.trans h1) h'.err
    _ = _ := by ring

theorem Near.sqrt (h : Near n a b b) (ha : 0 ≤ a) (hb : 0 ≤ b) : Near n (Real.sqrt a) (Real.sqrt b) (Real.sqrt b) := by
  refine ⟨?_, by rw [abs_of_nonneg (Real.sqrt_nonneg b)]⟩
  rcases hb.eq_or_lt with rfl | hb
  · have : a = 0 := by simpa using h.err
    simp [this]
  have hs := Real.sqrt_pos.mpr hb
  have e : a - b = (Real.sqrt a - Real.sqrt b) * (Real.sqrt a + Real.sqrt b) := by
    have h1 := Real.mul_self_sqrt ha
    have h2 := Real.mul_self_sqrt hb.le
    linear_combination h2 - h1
  have h1 := h.err
  rw [e, abs_mul, abs_of_nonneg (add_nonneg (Real.sqrt_nonneg a) hs.le)] at h1
  have h2 : |Real.sqrt a - Real.sqrt b| * Real.sqrt b ≤ ((1 + u) ^ n - 1) * Real.sqrt b * Real.sqrt b := by
    rw [mul_assoc, Real.mul_self_sqrt hb.le]
    refine le_trans ?_ h1
    exact mul_le_mul_of_nonneg_left (by linarith [Real.sqrt_nonneg a]) (abs_nonneg _)
  exact le_of_mul_le_mul_right h2 hs

theorem near_sum {ι : Type*} (s : Finset ι) {a b m : ι → ℝ} (h : ∀ i ∈ s, Near n (a i) (b i) (m i)) : Near n (∑ i ∈ s, a i) (∑ i ∈ s, b i) (∑ i ∈ s, m i) := by
  refine ⟨?_, (Finset.abs_sum_le_sum_abs _ _).trans (Finset.sum_le_sum fun i hi => (h i hi).le)⟩
  rw [← Finset.sum_sub_distrib, Finset.mul_sum]
  exact (Finset.abs_sum_le_sum_abs _ _).trans (Finset.sum_le_sum fun i hi => (h i hi).err)

/-- A sum of products in floating point, of factors whose products are near. -/
theorem near_dot (hr : Rounding rd) {G : ℕ} {a c b m : Fin G → ℝ} {s : ℝ} (hs : FloatSum rd (List.ofFn fun i => (a i, c i)) s)
    (h : ∀ i, Near n (a i * c i) (b i) (m i)) : Near (G + n) s (∑ i, b i) (∑ i, m i) := by
  have h1 := (bound hr hs).2
  have ev : val (List.ofFn fun i => (a i, c i)) = ∑ i, a i * c i := by
    rw [val, List.map_ofFn, List.sum_ofFn]
    rfl
  have em : mag (List.ofFn fun i => (a i, c i)) = ∑ i, |a i * c i| := by
    rw [mag, List.map_ofFn, List.sum_ofFn]
    rfl
  rw [ev, em, List.length_ofFn] at h1
  refine Near.trans (m := ∑ i, |a i * c i|) ⟨h1, Finset.abs_sum_le_sum_abs _ _⟩ ?_ (near_sum Finset.univ fun i _ => h i)
  rw [Finset.mul_sum]
  exact Finset.sum_le_sum fun i _ => (h i).abs_le

end Proofs.Near
