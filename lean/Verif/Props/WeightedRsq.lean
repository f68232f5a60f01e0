import Verif.Props.PolyApprox

/-!
# Property C93: R-squared of a weighted fit
-/

open Py Model.Misc Model.ResponseSurfaces MvPolynomial Proofs.PolyApprox

namespace Props

variable {M m : ℕ}

/-- C93, the part that holds: the R-squared of a fit with nonzero weights is at most 1, and equals 1 iff the surface interpolates the data; if
all weights are equal it is at least 0. -/
theorem C93_bound_partial (lib : Lib) (hl : LstsqOK lib) (w : PolyApprox) (hm : 1 ≤ m) (hN : 1 ≤ w.N) (X : Matrix (Fin M) (Fin m) ℝ)
    (f v : Fin M → ℝ) (hM : (w.N + m).choose m ≤ M) (hv : ∀ i, v i ≠ 0) (hf : ∃ i j, v i * f i ≠ v j * f j) :
    ∃ (w' : PolyApprox) (r : ℝ), (fit lib X f (some v)).run w = (.ok (), w') ∧ w'.Rsqr = some r ∧ r ≤ 1 ∧
      (r = 1 ↔ w'.predict (.mat (NpMat.of X)) false = .ok (NpVec.of f, none)) ∧ ((∀ i j, v i = v j) → 0 ≤ r) := by
  obtain ⟨w', P, hrun, hdeg, -, -, -, hpred, -, -, hmin, hR⟩ := fit_ok lib hl w hm hN X f (some v) hM
  simp only [Option.getD_some] at hmin hR
  set F : Fin M → ℝ := fun i => v i * f i with hF
  have hM0 : (M : ℝ) ≠ 0 := by
    obtain ⟨i, -⟩ := hf
    have := i.pos
    exact_mod_cast this.ne'
  have hvar : M * npVar F = ∑ i, (F i - (∑ j, F j) / M) ^ 2 := by
    rw [npVar, mul_div_cancel₀ _ hM0]
  have hpos : 0 < ∑ i, (F i - (∑ j, F j) / M) ^ 2 := by
    refine lt_of_le_of_ne (Finset.sum_nonneg fun i _ => sq_nonneg _) fun h => ?_
    obtain ⟨i, j, hij⟩ := hf
    have h1 := fun i => (Finset.sum_eq_zero_iff_of_nonneg fun i _ => sq_nonneg _).mp h.symm i (Finset.mem_univ i)
    have h2 : ∀ i, F i = (∑ j, F j) / M := fun i => sub_eq_zero.mp (pow_eq_zero_iff two_ne_zero |>.mp (h1 i))
    exact hij ((h2 i).trans (h2 j).symm)
  have h0 : 0 ≤ ∑ i, (v i * (eval (X i) P - f i)) ^ 2 := Finset.sum_nonneg fun i _ => sq_nonneg _
  refine ⟨w', _, hrun, hR, ?_, ?_, fun he => ?_⟩
  · rw [hvar]
    have := div_nonneg h0 hpos.le
    linarith
  · rw [hvar, sub_eq_self, div_eq_zero_iff, or_iff_left hpos.ne', (hpred M X).1]
    constructor
    · intro h
      have h1 := fun i => (Finset.sum_eq_zero_iff_of_nonneg fun i _ => sq_nonneg _).mp h i (Finset.mem_univ i)
      have h2 : (fun i => eval (X i) P) = f := funext fun i =>
        sub_eq_zero.mp ((mul_eq_zero.mp (pow_eq_zero_iff two_ne_zero |>.mp (h1 i))).resolve_left (hv i))
      rw [h2]
    · intro h
      have h2 : (fun i => eval (X i) P) = f := eq_of_heq (NpVec.mk.inj (congrArg Prod.fst (Except.ok.inj h))).2
      refine Finset.sum_eq_zero fun i _ => ?_
      rw [congrFun h2 i, sub_self]
      norm_num
  · rw [hvar, sub_nonneg, div_le_one hpos]
    obtain ⟨i0, -⟩ := hf
    have := hmin (C ((∑ j, f j) / M)) (by rw [totalDegree_C]; omega)
    simp only [eval_C] at this
    refine this.trans (le_of_eq (Finset.sum_congr rfl fun i _ => ?_))
    have h3 : ∑ j, F j = v i * ∑ j, f j := by
      rw [Finset.mul_sum]
      exact Finset.sum_congr rfl fun j _ => by simp only [hF]; rw [he j i]
    rw [h3]
    ring

/-- A line through three values, two of them at the same point, with weights 2, 1 and 1. -/
theorem C93_value (lib : Lib) (hl : LstsqOK lib) {δ : ℝ} (hδ : δ ≠ 0) : ∃ w' : PolyApprox,
    (fit lib (Matrix.of ![![0], ![0], ![1]]) ![1, 2, 2 + δ] (some ![2, 1, 1])).run { N := 1 } = (.ok (), w') ∧ w'.Rsqr = some (1 - 6 / (5 * δ ^ 2)) := by
  obtain ⟨w', P, hrun, hdeg, -, -, -, -, -, -, hmin, hR⟩ := fit_ok lib hl { N := 1 } le_rfl le_rfl
    (Matrix.of ![![0], ![0], ![1]] : Matrix (Fin 3) (Fin 1) ℝ) ![1, 2, 2 + δ] (some ![2, 1, 1]) (by decide)
  refine ⟨w', hrun, ?_⟩
  have hq : (C (6 / 5) + C (4 / 5 + δ) * X 0 : MvPolynomial (Fin 1) ℝ).totalDegree ≤ 1 := by
    refine (totalDegree_add _ _).trans (max_le (by rw [totalDegree_C]; omega) ?_)
    refine (totalDegree_mul _ _).trans ?_
    rw [totalDegree_C, totalDegree_X]
  have h1 := hmin _ hq
  have e0 : (Matrix.of ![![0], ![0], ![1]] : Matrix (Fin 3) (Fin 1) ℝ) 0 = ![0] := rfl
  have e1 : (Matrix.of ![![0], ![0], ![1]] : Matrix (Fin 3) (Fin 1) ℝ) 1 = ![0] := rfl
  have e2 : (Matrix.of ![![0], ![0], ![1]] : Matrix (Fin 3) (Fin 1) ℝ) 2 = ![1] := rfl
  simp only [Option.getD_some, Fin.sum_univ_three, map_add, map_mul, eval_C, eval_X, e0, e1, e2, Matrix.cons_val_zero, Matrix.cons_val_one,
    Matrix.cons_val, npVar] at h1 hR
  set a := eval ![0] P with ha
  set b := eval ![1] P with hb
  have h2 : 5 * (a - 6 / 5) ^ 2 + (b - (2 + δ)) ^ 2 ≤ 0 := by nlinarith [h1]
  have ha' : a = 6 / 5 := by
    have : (a - 6 / 5) ^ 2 = 0 := by nlinarith [sq_nonneg (a - 6 / 5), sq_nonneg (b - (2 + δ))]
    have := pow_eq_zero_iff two_ne_zero |>.mp this
    linarith
  have hb' : b = 2 + δ := by
    have : (b - (2 + δ)) ^ 2 = 0 := by nlinarith [sq_nonneg (a - 6 / 5), sq_nonneg (b - (2 + δ))]
    have := pow_eq_zero_iff two_ne_zero |>.mp this
    linarith
  rw [hR, ha', hb']
  congr 2
  push_cast
  rw [div_eq_div_iff]
  · ring
  · have : 0 < δ ^ 2 := by positivity
    intro h
    ring_nf at h
    nlinarith
  · positivity

/-- C93 is false: a weighted fit whose R-squared is -1/5; with other data it lies below any bound. -/
theorem C93_refuted (lib : Lib) (hl : LstsqOK lib) :
    (∃ w' : PolyApprox, (fit lib (Matrix.of ![![0], ![0], ![1]]) ![1, 2, 3] (some ![2, 1, 1])).run { N := 1 } = (.ok (), w') ∧ w'.Rsqr = some (-1 / 5)) ∧
    ∀ B : ℝ, ∃ (f : Fin 3 → ℝ) (w' : PolyApprox) (r : ℝ),
      (fit lib (Matrix.of ![![0], ![0], ![1]] : Matrix (Fin 3) (Fin 1) ℝ) f (some ![2, 1, 1])).run { N := 1 } = (.ok (), w') ∧ w'.Rsqr = some r ∧ r < B := by
  constructor
  · obtain ⟨w', h1, h2⟩ := C93_value lib hl (δ := 1) one_ne_zero
    refine ⟨w', ?_, h2.trans (by norm_num)⟩
    rw [← h1]
    norm_num
  · intro B
    have hB : 0 < |B| + 1 := by positivity
    obtain ⟨w', h1, h2⟩ := C93_value lib hl (δ := 1 / (|B| + 1)) (by positivity)
    refine ⟨_, w', _, h1, h2, ?_⟩
    have e : 6 / (5 * (1 / (|B| + 1)) ^ 2) = 6 / 5 * (|B| + 1) ^ 2 := by
      field_simp
    rw [e]
    nlinarith [neg_abs_le B, abs_nonneg B]

/-- The hypotheses of the bound are met. -/
example (lib : Lib) (hl : LstsqOK lib) : ∃ (w' : PolyApprox) (r : ℝ),
    (fit lib (Matrix.of ![![0], ![0], ![1]] : Matrix (Fin 3) (Fin 1) ℝ) ![1, 2, 3] (some ![2, 1, 1])).run { N := 1 } = (.ok (), w') ∧ w'.Rsqr = some r ∧ r ≤ 1 := by
  obtain ⟨w', r, h1, h2, h3, -⟩ := C93_bound_partial lib hl { N := 1 } le_rfl le_rfl (Matrix.of ![![0], ![0], ![1]] : Matrix (Fin 3) (Fin 1) ℝ)
    ![1, 2, 3] ![2, 1, 1] (by decide) (by intro i; fin_cases i <;> norm_num) ⟨0, 2, by simp⟩
  exact ⟨w', r, h1, h2, h3⟩

end Props
