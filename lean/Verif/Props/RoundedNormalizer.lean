import Mathlib.Tactic.FinCases
import Mathlib.Tactic.NormNum
import Verif.Model.Rounded
import Verif.Proofs.Misc
import Verif.Proofs.Rounding

/-!
# Property C125: `BoundedNormalizer` in double precision
-/

open Py Model.Misc Proofs.Misc Spec Proofs.Doubles

namespace Props

variable {M m : ℕ} {rd : ℝ → ℝ}

namespace Rounded

theorem normalize_of (rd : ℝ → ℝ) (lb ub : Fin m → ℝ) (X : Matrix (Fin M) (Fin m) ℝ) :
    Model.Rounded.normalize rd ⟨rowOf lb, rowOf ub⟩ (.mat (.of X))
      = .ok (.of <| Matrix.of fun i j => rd (rd (rd (2 * rd (X i j - lb j)) / rd (ub j - lb j)) - 1)) := by
  simp only [Model.Rounded.normalize, rowOf, process_inputs]
  simp only [bind, Except.bind, Matrix.of_apply, NpMat.zipB_row_right, NpMat.map_of, pure, Except.pure]

theorem unnormalize_of (rd : ℝ → ℝ) (lb ub : Fin m → ℝ) (X : Matrix (Fin M) (Fin m) ℝ) :
    Model.Rounded.unnormalize rd ⟨rowOf lb, rowOf ub⟩ (.mat (.of X))
      = .ok (.of <| Matrix.of fun i j => rd (rd (rd (rd (ub j - lb j) * rd (X i j + 1)) / 2) + lb j)) := by
  simp only [Model.Rounded.unnormalize, rowOf, process_inputs]
  simp only [bind, Except.bind, Matrix.of_apply, NpMat.zipB_same, NpMat.zipB_row_left, NpMat.zipB_row_right, NpMat.map_of]

open Proofs.Rounding

theorem one : IsDouble 1 := by simpa using isDouble_int (z := 1) (by norm_num)

theorem two : IsDouble 2 := by simpa using isDouble_int (z := 2) (by norm_num)

section
variable (h : Rounding rd) {lb ub : ℝ} (hlt : lb < ub)
include h hlt

theorem width_pos : 0 < rd (ub - lb) := pos h (by linarith)

theorem quot_mem {x : ℝ} (h1 : lb ≤ x) (h2 : x ≤ ub) :
    0 ≤ rd (2 * rd (x - lb)) / rd (ub - lb) ∧ rd (2 * rd (x - lb)) / rd (ub - lb) ≤ 2 := by
  have hw := width_pos h hlt
  rw [exact h (isDouble_two_mul (isDouble h _))]
  have hn := nonneg h (sub_nonneg.mpr h1)
  have hm : rd (x - lb) ≤ rd (ub - lb) := mono h (by linarith)
  exact ⟨by positivity, by rw [div_le_iff₀ hw]; linarith⟩

theorem entry_mem {x : ℝ} (h1 : lb ≤ x) (h2 : x ≤ ub) :
    -1 ≤ rd (rd (rd (2 * rd (x - lb)) / rd (ub - lb)) - 1) ∧ rd (rd (rd (2 * rd (x - lb)) / rd (ub - lb)) - 1) ≤ 1 := by
  obtain ⟨h3, h4⟩ := quot_mem h hlt h1 h2
  exact ⟨ge_of_double h (isDouble_neg one) (by linarith [nonneg h h3]), le_of_double h one (by linarith [le_of_double h two h4])⟩

theorem entry_lb : rd (rd (rd (2 * rd (lb - lb)) / rd (ub - lb)) - 1) = -1 := by
  rw [sub_self, zero h, mul_zero, zero h, zero_div, zero h, zero_sub, exact h (isDouble_neg one)]

theorem entry_ub : rd (rd (rd (2 * rd (ub - lb)) / rd (ub - lb)) - 1) = 1 := by
  rw [exact h (isDouble_two_mul (isDouble h _)), mul_div_assoc, div_self (width_pos h hlt).ne', mul_one, exact h two,
    show (2 : ℝ) - 1 = 1 by norm_num, exact h one]

theorem entry_mono {x y : ℝ} (hxy : x ≤ y) :
    rd (rd (rd (2 * rd (x - lb)) / rd (ub - lb)) - 1) ≤ rd (rd (rd (2 * rd (y - lb)) / rd (ub - lb)) - 1) := by
  have hw := width_pos h hlt
  refine mono h (sub_le_sub_right (mono h ?_) 1)
  gcongr
  refine mono h ?_
  have := mono h (sub_le_sub_right hxy lb)
  linarith

theorem entry_error {x : ℝ} (h1 : lb ≤ x) (h2 : x ≤ ub) :
    |rd (rd (rd (2 * rd (x - lb)) / rd (ub - lb)) - 1) - (2 * (x - lb) / (ub - lb) - 1)| ≤ 1 / 2 ^ 50 := by
  have hw := width_pos h hlt
  obtain ⟨h3, h4⟩ := quot_mem h hlt h1 h2
  have hq := error h (rd (2 * rd (x - lb)) / rd (ub - lb))
  have hq2 := le_of_double h two h4
  have hq0 := nonneg h h3
  have hr := error h (rd (rd (2 * rd (x - lb)) / rd (ub - lb)) - 1)
  have ha := error h (x - lb)
  have hb := error h (ub - lb)
  rw [abs_of_nonneg h3] at hq
  rw [abs_of_nonneg (sub_nonneg.mpr h1)] at ha
  rw [abs_of_pos (sub_pos.mpr hlt)] at hb
  have h5 : |rd (rd (2 * rd (x - lb)) / rd (ub - lb)) - 1| ≤ 1 := abs_le.mpr ⟨by linarith, by linarith⟩
  rw [exact h (isDouble_two_mul (isDouble h _))] at *
  generalize hd : rd (x - lb) = d at *
  generalize hwd : rd (ub - lb) = w at *
  generalize rd (2 * d / w) = q at *
  generalize rd (q - 1) = r at *
  have hbp : 0 < ub - lb := sub_pos.mpr hlt
  generalize hbd : ub - lb = b at *
  have hab : x - lb ≤ b := by linarith
  have ha0 : 0 ≤ x - lb := sub_nonneg.mpr h1
  generalize x - lb = a at *
  have hm : |2 * d / w - 2 * a / b| ≤ 5 / 2 ^ 53 := by
    rw [div_sub_div _ _ hw.ne' hbp.ne', abs_div, abs_of_pos (mul_pos hw hbp), div_le_iff₀ (mul_pos hw hbp)]
    have e : 2 * d * b - w * (2 * a) = 2 * ((d - a) * b - (w - b) * a) := by ring
    rw [e, abs_mul, abs_two]
    have t1 : |(d - a) * b - (w - b) * a| ≤ a / 2 ^ 53 * b + b / 2 ^ 53 * a := by
      refine (abs_sub _ _).trans (add_le_add ?_ ?_)
      · rw [abs_mul, abs_of_pos hbp]
        gcongr
      · rw [abs_mul, abs_of_nonneg ha0]
        gcongr
    have t2 : b * (1 - 1 / 2 ^ 53) ≤ w := by
      have := (abs_le.mp hb).1
      linarith
    have t3 : a * b ≤ b * b := by gcongr
    have t4 : b * (1 - 1 / 2 ^ 53) * b ≤ w * b := by gcongr
    norm_num at *
    nlinarith
  have hr' : |r - (q - 1)| ≤ 1 / 2 ^ 53 := hr.trans (by gcongr)
  have hq' : |q - 2 * d / w| ≤ 2 / 2 ^ 53 := hq.trans (by gcongr)
  have e : r - (2 * a / b - 1) = (r - (q - 1)) + ((q - 2 * d / w) + (2 * d / w - 2 * a / b)) := by ring
  rw [e]
  refine (abs_add_le _ _).trans ((add_le_add hr' ((abs_add_le _ _).trans (add_le_add hq' hm))).trans ?_)
  norm_num

theorem un_ge (hl : IsDouble lb) {z : ℝ} (hz : -1 ≤ z) : lb ≤ rd (rd (rd (rd (ub - lb) * rd (z + 1)) / 2) + lb) := by
  have hw := width_pos h hlt
  have h1 : 0 ≤ rd (z + 1) := nonneg h (by linarith)
  have h2 : 0 ≤ rd (rd (rd (ub - lb) * rd (z + 1)) / 2) := nonneg h (by have := nonneg h (mul_nonneg hw.le h1); positivity)
  exact ge_of_double h hl (by linarith)

theorem un_lb (hl : IsDouble lb) : rd (rd (rd (rd (ub - lb) * rd (-1 + 1)) / 2) + lb) = lb := by
  rw [neg_add_cancel, zero h, mul_zero, zero h, zero_div, zero h, zero_add, exact h hl]

theorem un_one : rd (rd (rd (rd (ub - lb) * rd (1 + 1)) / 2) + lb) = rd (rd (ub - lb) + lb) := by
  rw [one_add_one_eq_two, exact h two, mul_comm, exact h (isDouble_two_mul (isDouble h _)),
    mul_div_cancel_left₀ _ (by norm_num), exact h (isDouble h _)]

theorem un_mono {x y : ℝ} (hxy : x ≤ y) :
    rd (rd (rd (rd (ub - lb) * rd (x + 1)) / 2) + lb) ≤ rd (rd (rd (rd (ub - lb) * rd (y + 1)) / 2) + lb) := by
  have hw := width_pos h hlt
  refine mono h (add_le_add_left (mono h ?_) lb)
  have : rd (rd (ub - lb) * rd (x + 1)) ≤ rd (rd (ub - lb) * rd (y + 1)) :=
    mono h (mul_le_mul_of_nonneg_left (mono h (by linarith)) hw.le)
  linarith

theorem un_error {z : ℝ} (h1 : -1 ≤ z) (h2 : z ≤ 1) :
    |rd (rd (rd (rd (ub - lb) * rd (z + 1)) / 2) + lb) - ((ub - lb) * (z + 1) / 2 + lb)|
      ≤ (5 * (ub - lb) + max |lb| |ub|) / 2 ^ 53 := by
  have hw := width_pos h hlt
  have hs0 : 0 ≤ rd (z + 1) := nonneg h (by linarith)
  have hs2 : rd (z + 1) ≤ 2 := le_of_double h two (by linarith)
  have hb := error h (ub - lb)
  have hs := error h (z + 1)
  have hp := error h (rd (ub - lb) * rd (z + 1))
  rw [exact h (isDouble_half (isDouble h (rd (ub - lb) * rd (z + 1))))]
  have hr := error h (rd (rd (ub - lb) * rd (z + 1)) / 2 + lb)
  rw [abs_of_pos (sub_pos.mpr hlt)] at hb
  rw [abs_of_nonneg (by linarith : 0 ≤ z + 1)] at hs
  rw [abs_of_nonneg (mul_nonneg hw.le hs0)] at hp
  have hmax : |(ub - lb) * (z + 1) / 2 + lb| ≤ max |lb| |ub| := by
    have l1 := le_max_left |lb| |ub|
    have l2 := le_max_right |lb| |ub|
    have l3 := neg_abs_le lb
    have l4 := le_abs_self ub
    rw [abs_le]
    constructor <;> nlinarith
  generalize rd (rd (rd (ub - lb) * rd (z + 1)) / 2 + lb) = r at *
  generalize rd (rd (ub - lb) * rd (z + 1)) = p at *
  generalize rd (ub - lb) = w at *
  generalize rd (z + 1) = s at *
  have hbp : 0 < ub - lb := sub_pos.mpr hlt
  generalize ub - lb = b at *
  generalize max |lb| |ub| = mx at *
  have t1 : |w * s - b * (z + 1)| ≤ 4 * b / 2 ^ 53 := by
    have e : w * s - b * (z + 1) = (w - b) * s + b * (s - (z + 1)) := by ring
    rw [e]
    refine (abs_add_le _ _).trans ?_
    rw [abs_mul, abs_mul, abs_of_nonneg hs0, abs_of_pos hbp]
    have k1 : |w - b| * s ≤ b / 2 ^ 53 * 2 := by gcongr
    have k2 : b * |s - (z + 1)| ≤ b * (2 / 2 ^ 53) := by
      gcongr
      exact hs.trans (by gcongr; linarith)
    linarith
  have t2 : w * s ≤ 2 * b * (1 + 1 / 2 ^ 53) := by
    have := (abs_le.mp hb).2
    nlinarith
  have t3 : |p / 2 - b * (z + 1) / 2| ≤ 4 * b / 2 ^ 53 := by
    rw [abs_le] at *
    norm_num at *
    constructor <;> linarith
  have t4 : |p / 2 + lb| ≤ mx + 4 * b / 2 ^ 53 := by
    have e : p / 2 + lb = (b * (z + 1) / 2 + lb) + (p / 2 - b * (z + 1) / 2) := by ring
    rw [e]
    exact (abs_add_le _ _).trans (add_le_add hmax t3)
  have e : r - (b * (z + 1) / 2 + lb) = (r - (p / 2 + lb)) + (p / 2 - b * (z + 1) / 2) := by ring
  rw [e]
  refine (abs_add_le _ _).trans ((add_le_add hr t3).trans ?_)
  have : |p / 2 + lb| / 2 ^ 53 ≤ (mx + 4 * b / 2 ^ 53) / 2 ^ 53 := by gcongr
  norm_num at *
  linarith

end
end Rounded

/-- C125: without rounding the two definitions are those of C01 and C02, for every array, also one that is rejected. -/
theorem C125_exact (s : BoundedNormalizer) (X : Arr) :
    Model.Rounded.normalize id s X = s.normalize X ∧ Model.Rounded.unnormalize id s X = s.unnormalize X := ⟨rfl, rfl⟩

/-- C125: in double precision, whatever the rule for ties, points of the box are sent into the cube, never outside; the
bounds are sent to -1 and 1 exactly; the order of the points is kept; and the result is within 2^-50 of the value of
the affine map, however large or small the box. -/
theorem C125_normalize (h : Rounding rd) (lb ub : Fin m → ℝ) (hlt : ∀ j, lb j < ub j) (X : Matrix (Fin M) (Fin m) ℝ)
    (hX : ∀ i j, lb j ≤ X i j ∧ X i j ≤ ub j) :
    ∃ s, BoundedNormalizer.init (List.ofFn lb) (List.ofFn ub) = .ok s ∧
      ∃ Z : Matrix (Fin M) (Fin m) ℝ, Model.Rounded.normalize rd s (.mat (.of X)) = .ok (.of Z) ∧
        (∀ i j, IsDouble (Z i j) ∧ -1 ≤ Z i j ∧ Z i j ≤ 1) ∧
        (∀ i j, X i j = lb j → Z i j = -1) ∧ (∀ i j, X i j = ub j → Z i j = 1) ∧
        (∀ i k j, X i j ≤ X k j → Z i j ≤ Z k j) ∧
        ∀ i j, |Z i j - (2 * (X i j - lb j) / (ub j - lb j) - 1)| ≤ 1 / 2 ^ 50 := by
  refine ⟨_, init_ofFn lb ub, _, Rounded.normalize_of rd lb ub X, fun i j => ⟨Proofs.Rounding.isDouble h _, ?_⟩,
    fun i j hx => ?_, fun i j hx => ?_, fun i k j hx => ?_, fun i j => ?_⟩
  · exact Rounded.entry_mem h (hlt j) (hX i j).1 (hX i j).2
  · simp only [Matrix.of_apply, hx]
    exact Rounded.entry_lb h (hlt j)
  · simp only [Matrix.of_apply, hx]
    exact Rounded.entry_ub h (hlt j)
  · exact Rounded.entry_mono h (hlt j) hx
  · exact Rounded.entry_error h (hlt j) (hX i j).1 (hX i j).2

/-- C125, what holds of `unnormalize` in double precision: no point of the cube is sent below the lower bound, -1 is
sent to the lower bound exactly, the order is kept, and the result is within the stated distance of the value of the
affine map.  It is at most the upper bound when `ub - lb` is a double; that it always is, is false, see
`C125_above_upper_bound`. -/
theorem C125_unnormalize_partial (h : Rounding rd) (lb ub : Fin m → ℝ) (hlt : ∀ j, lb j < ub j) (hl : ∀ j, IsDouble (lb j))
    (hu : ∀ j, IsDouble (ub j)) (Z : Matrix (Fin M) (Fin m) ℝ) (hZ : ∀ i j, -1 ≤ Z i j ∧ Z i j ≤ 1) :
    ∃ s, BoundedNormalizer.init (List.ofFn lb) (List.ofFn ub) = .ok s ∧
      ∃ X : Matrix (Fin M) (Fin m) ℝ, Model.Rounded.unnormalize rd s (.mat (.of Z)) = .ok (.of X) ∧
        (∀ i j, lb j ≤ X i j) ∧ (∀ i j, Z i j = -1 → X i j = lb j) ∧
        (∀ i k j, Z i j ≤ Z k j → X i j ≤ X k j) ∧
        (∀ j, IsDouble (ub j - lb j) → (∀ i, X i j ≤ ub j) ∧ ∀ i, Z i j = 1 → X i j = ub j) ∧
        ∀ i j, |X i j - ((ub j - lb j) * (Z i j + 1) / 2 + lb j)| ≤ (5 * (ub j - lb j) + max |lb j| |ub j|) / 2 ^ 53 := by
  refine ⟨_, init_ofFn lb ub, _, Rounded.unnormalize_of rd lb ub Z, fun i j => ?_, fun i j hz => ?_, fun i k j hz => ?_,
    fun j hd => ?_, fun i j => ?_⟩
  · exact Rounded.un_ge h (hlt j) (hl j) (hZ i j).1
  · simp only [Matrix.of_apply, hz]
    exact Rounded.un_lb h (hlt j) (hl j)
  · exact Rounded.un_mono h (hlt j) hz
  · have h1 : rd (rd (rd (rd (ub j - lb j) * rd (1 + 1)) / 2) + lb j) = ub j := by
      rw [Rounded.un_one h (hlt j), Proofs.Rounding.exact h hd, sub_add_cancel, Proofs.Rounding.exact h (hu j)]
    refine ⟨fun i => ?_, fun i hz => ?_⟩
    · exact (Rounded.un_mono h (hlt j) (hZ i j).2).trans h1.le
    · simp only [Matrix.of_apply, hz]
      exact h1
  · exact Rounded.un_error h (hlt j) (hZ i j).1 (hZ i j).2

/-- C125: `unnormalize(normalize(X))` in double precision is near `X`. -/
theorem C125_round_trip (h : Rounding rd) (lb ub : Fin m → ℝ) (hlt : ∀ j, lb j < ub j) (X : Matrix (Fin M) (Fin m) ℝ)
    (hX : ∀ i j, lb j ≤ X i j ∧ X i j ≤ ub j) :
    ∃ s, BoundedNormalizer.init (List.ofFn lb) (List.ofFn ub) = .ok s ∧
      ∃ Z : Matrix (Fin M) (Fin m) ℝ, Model.Rounded.normalize rd s (.mat (.of X)) = .ok (.of Z) ∧
        ∃ Y : Matrix (Fin M) (Fin m) ℝ, Model.Rounded.unnormalize rd s (.mat (.of Z)) = .ok (.of Y) ∧
          ∀ i j, |Y i j - X i j| ≤ (9 * (ub j - lb j) + max |lb j| |ub j|) / 2 ^ 53 := by
  refine ⟨_, init_ofFn lb ub, _, Rounded.normalize_of rd lb ub X, _, Rounded.unnormalize_of rd lb ub _, fun i j => ?_⟩
  simp only [Matrix.of_apply]
  obtain ⟨h1, h2⟩ := Rounded.entry_mem h (hlt j) (hX i j).1 (hX i j).2
  have h3 := Rounded.entry_error h (hlt j) (hX i j).1 (hX i j).2
  have h4 := Rounded.un_error h (hlt j) h1 h2
  have hb : 0 < ub j - lb j := sub_pos.mpr (hlt j)
  generalize rd (rd (rd (2 * rd (X i j - lb j)) / rd (ub j - lb j)) - 1) = z at *
  have e : (ub j - lb j) * (z + 1) / 2 + lb j - X i j = (ub j - lb j) / 2 * (z - (2 * (X i j - lb j) / (ub j - lb j) - 1)) := by
    field_simp
    ring
  have h5 : |(ub j - lb j) * (z + 1) / 2 + lb j - X i j| ≤ (ub j - lb j) / 2 * (1 / 2 ^ 50) := by
    rw [e, abs_mul, abs_of_pos (by positivity)]
    gcongr
  refine (abs_sub_le _ ((ub j - lb j) * (z + 1) / 2 + lb j) _).trans ((add_le_add h4 h5).trans (le_of_eq ?_))
  ring

/-- 0.1 as Python reads it. -/
noncomputable def tenth : ℝ := 3602879701896397 / 2 ^ 55

/-- C125, the deviation: with the bounds -1 and 0.1 the point 1 of the cube is sent above the upper bound, whatever the
rule for ties. -/
theorem C125_above_upper_bound : ∃ lb ub : ℝ, IsDouble lb ∧ IsDouble ub ∧ lb < ub ∧ |ub - 1 / 10| ≤ 1 / 2 ^ 57 ∧
    ∀ rd, Rounding rd → ∃ s, BoundedNormalizer.init [lb] [ub] = .ok s ∧
      ∃ X : Matrix (Fin 1) (Fin 1) ℝ,
        Model.Rounded.unnormalize rd s (.mat (.of (Matrix.of fun (_ : Fin 1) (_ : Fin 1) => 1))) = .ok (.of X) ∧ ub < X 0 0 := by
  have hu : IsDouble tenth := ⟨3602879701896397, -55, by norm_num, by norm_num [tenth]⟩
  have hlt : (-1 : ℝ) < tenth := by norm_num [tenth]
  refine ⟨-1, tenth, Proofs.Rounding.isDouble_neg Rounded.one, hu, hlt, by norm_num [tenth, abs_le], fun rd h => ?_⟩
  have hi := init_ofFn (m := 1) (fun _ => -1) (fun _ => tenth)
  simp only [List.ofFn_succ, List.ofFn_zero] at hi
  refine ⟨_, hi, _, Rounded.unnormalize_of rd _ _ _, ?_⟩
  simp only [Matrix.of_apply]
  rw [Rounded.un_one h hlt]
  have hc : IsDouble (4953959590107546 / 2 ^ 52 : ℝ) := ⟨4953959590107546, -52, by norm_num, by norm_num⟩
  have hw : (4953959590107546 / 2 ^ 52 : ℝ) ≤ rd (tenth - -1) := by
    by_contra hn
    push Not at hn
    have h1 := (h (tenth - -1)).2 _ hc
    rw [abs_le] at h1
    have e : |tenth - -1 - 4953959590107546 / 2 ^ 52| = 3 / 2 ^ 55 := by
      rw [abs_of_nonpos (by norm_num [tenth])]
      norm_num [tenth]
    rw [e] at h1
    have h2 := h1.2
    refine not_between (a := 4953959590107545) (e := -52) (by norm_num) (h (tenth - -1)).1 ?_ ?_
    · norm_num [tenth] at h2 ⊢
      linarith
    · norm_num at hn ⊢
      linarith
  have h2 : IsDouble (450359962737050 / 2 ^ 52 : ℝ) := ⟨450359962737050, -52, by norm_num, by norm_num⟩
  refine lt_of_lt_of_le ?_ (Proofs.Rounding.ge_of_double h h2 (?_ : _ ≤ rd (tenth - -1) + -1))
  · norm_num [tenth]
  · norm_num at hw ⊢
    linarith

/-- There is a rounding function; a box and a point that meet the hypotheses. -/
example : ∃ rd, Rounding rd := Proofs.Rounding.exists_rounding

example : (∀ j : Fin 2, (![0, -3] : Fin 2 → ℝ) j < (![1, 5] : Fin 2 → ℝ) j)
    ∧ (∀ j : Fin 2, IsDouble ((![0, -3] : Fin 2 → ℝ) j)) ∧ (∀ j : Fin 2, IsDouble ((![1, 5] : Fin 2 → ℝ) j))
    ∧ (∀ j : Fin 2, IsDouble ((![1, 5] : Fin 2 → ℝ) j - (![0, -3] : Fin 2 → ℝ) j))
    ∧ ∀ (i : Fin 1) (j : Fin 2), (![0, -3] : Fin 2 → ℝ) j ≤ (!![1 / 3, 2] : Matrix (Fin 1) (Fin 2) ℝ) i j
      ∧ (!![1 / 3, 2] : Matrix (Fin 1) (Fin 2) ℝ) i j ≤ (![1, 5] : Fin 2 → ℝ) j := by
  refine ⟨?_, ?_, ?_, ?_, ?_⟩
  · intro j; fin_cases j <;> norm_num
  · intro j
    fin_cases j
    · exact Proofs.Rounding.isDouble_zero
    · exact ⟨-3, 0, by norm_num, by norm_num⟩
  · intro j
    fin_cases j
    · exact Rounded.one
    · exact ⟨5, 0, by norm_num, by norm_num⟩
  · intro j
    fin_cases j
    · exact ⟨1, 0, by norm_num, by norm_num⟩
    · exact ⟨8, 0, by norm_num, by norm_num⟩
  · intro i j; fin_cases i; fin_cases j <;> norm_num

end Props
