import Mathlib.LinearAlgebra.Matrix.Block
import Mathlib.Tactic.FinCases
import Mathlib.Tactic.NormNum
import Verif.Proofs.Misc
import Verif.Spec.Stats

/-!
# Properties C01-C06: `utils/misc.py`
-/

open Py Model.Misc Proofs.Misc

namespace Props

variable {M m : ℕ}

/-! ## C01 -/

/-- C01: `unnormalize(normalize(X)) == X`, and the intermediate result has the shape of `X`. -/
theorem C01_unnormalize_normalize (lb ub : Fin m → ℝ) (h : ∀ j, lb j ≠ ub j)
    (X : Matrix (Fin M) (Fin m) ℝ) :
    ∃ s, BoundedNormalizer.init (List.ofFn lb) (List.ofFn ub) = .ok s ∧
      ∃ Z : Matrix (Fin M) (Fin m) ℝ, s.normalize (.mat (.of X)) = .ok (.of Z) ∧
        s.unnormalize (.mat (.of Z)) = .ok (.of X) := by
  refine ⟨_, init_ofFn lb ub, _, normalize_of lb ub X, ?_⟩
  rw [unnormalize_of]
  congr 2
  ext i j
  have hj : ub j - lb j ≠ 0 := sub_ne_zero.mpr (h j).symm
  simp only [Matrix.of_apply]
  field_simp
  ring

/-- C01: `normalize(unnormalize(Z)) == Z`. -/
theorem C01_normalize_unnormalize (lb ub : Fin m → ℝ) (h : ∀ j, lb j ≠ ub j)
    (Z : Matrix (Fin M) (Fin m) ℝ) :
    ∃ s, BoundedNormalizer.init (List.ofFn lb) (List.ofFn ub) = .ok s ∧
      ∃ X : Matrix (Fin M) (Fin m) ℝ, s.unnormalize (.mat (.of Z)) = .ok (.of X) ∧
        s.normalize (.mat (.of X)) = .ok (.of Z) := by
  refine ⟨_, init_ofFn lb ub, _, unnormalize_of lb ub Z, ?_⟩
  rw [normalize_of]
  congr 2
  ext i j
  have hj : ub j - lb j ≠ 0 := sub_ne_zero.mpr (h j).symm
  simp only [Matrix.of_apply]
  field_simp
  ring

/-- C01: anything but a two-dimensional array is rejected with `ValueError`, whatever the bounds. -/
theorem C01_rejects_non_2d (s : BoundedNormalizer) (X : Arr) (h : X.ndim ≠ 2) :
    s.normalize X = .error .valueError ∧ s.unnormalize X = .error .valueError := by
  simp only [BoundedNormalizer.normalize, BoundedNormalizer.unnormalize, process_inputs_error h]
  exact ⟨rfl, rfl⟩

/-- C01: bounds of different length are rejected with `ValueError`; equal lengths always succeed. -/
theorem C01_init (lb ub : List ℝ) :
    (ub.length ≠ lb.length → BoundedNormalizer.init lb ub = .error .valueError) ∧
    (ub.length = lb.length → ∃ s, BoundedNormalizer.init lb ub = .ok s) := by
  constructor
  · intro h; simp [BoundedNormalizer.init, h]
  · intro h; exact ⟨_, if_pos h⟩

example : ∀ j : Fin 2, (![0, -3] : Fin 2 → ℝ) j ≠ (![1, 5] : Fin 2 → ℝ) j := by
  intro j; fin_cases j <;> norm_num

example : (Arr.vec 3 ![1, 2, 3]).ndim ≠ 2 := by simp [Arr.ndim, Arr.shape]

/-! ## C02 -/

/-- C02: a row lies in the box `[lb, ub]` exactly when its normalized row lies in `[-1, 1]^m`. -/
theorem C02_box_iff_cube (lb ub : Fin m → ℝ) (h : ∀ j, lb j < ub j) (X : Matrix (Fin M) (Fin m) ℝ) :
    ∃ s, BoundedNormalizer.init (List.ofFn lb) (List.ofFn ub) = .ok s ∧
      ∃ Z : Matrix (Fin M) (Fin m) ℝ, s.normalize (.mat (.of X)) = .ok (.of Z) ∧
        ∀ i, (∀ j, lb j ≤ X i j ∧ X i j ≤ ub j) ↔ (∀ j, -1 ≤ Z i j ∧ Z i j ≤ 1) := by
  refine ⟨_, init_ofFn lb ub, _, normalize_of lb ub X, fun i => forall_congr' fun j => ?_⟩
  have hj : 0 < ub j - lb j := sub_pos.mpr (h j)
  simp only [Matrix.of_apply]
  constructor
  · rintro ⟨h1, h2⟩
    constructor
    · have : 0 ≤ 2 * (X i j - lb j) / (ub j - lb j) := by apply div_nonneg <;> linarith
      linarith
    · have : 2 * (X i j - lb j) / (ub j - lb j) ≤ 2 := by rw [div_le_iff₀ hj]; linarith
      linarith
  · rintro ⟨h1, h2⟩
    have h1' : 0 ≤ 2 * (X i j - lb j) / (ub j - lb j) := by linarith
    have h2' : 2 * (X i j - lb j) / (ub j - lb j) ≤ 2 := by linarith
    rw [le_div_iff₀ hj] at h1'
    rw [div_le_iff₀ hj] at h2'
    constructor <;> linarith

/-- C02: `unnormalize` maps the cube onto the box: a point is in the cube iff its image is in the box. -/
theorem C02_cube_iff_box (lb ub : Fin m → ℝ) (h : ∀ j, lb j < ub j) (Z : Matrix (Fin M) (Fin m) ℝ) :
    ∃ s, BoundedNormalizer.init (List.ofFn lb) (List.ofFn ub) = .ok s ∧
      ∃ X : Matrix (Fin M) (Fin m) ℝ, s.unnormalize (.mat (.of Z)) = .ok (.of X) ∧
        ∀ i, (∀ j, -1 ≤ Z i j ∧ Z i j ≤ 1) ↔ (∀ j, lb j ≤ X i j ∧ X i j ≤ ub j) := by
  refine ⟨_, init_ofFn lb ub, _, unnormalize_of lb ub Z, fun i => forall_congr' fun j => ?_⟩
  have hj : 0 < ub j - lb j := sub_pos.mpr (h j)
  simp only [Matrix.of_apply]
  constructor
  · rintro ⟨h1, h2⟩
    constructor <;> nlinarith
  · rintro ⟨h1, h2⟩
    constructor
    · by_contra hc
      push Not at hc
      nlinarith
    · by_contra hc
      push Not at hc
      nlinarith

/-- C02: the end points go to -1 and 1. -/
theorem C02_endpoints (lb ub : Fin m → ℝ) (h : ∀ j, lb j < ub j) :
    ∃ s, BoundedNormalizer.init (List.ofFn lb) (List.ofFn ub) = .ok s ∧
      s.normalize (.mat (.of (Matrix.of ![lb, ub]))) = .ok (.of (Matrix.of ![fun _ : Fin m => -1, fun _ => 1])) := by
  refine ⟨_, init_ofFn lb ub, ?_⟩
  rw [normalize_of]
  congr 2
  ext i j
  have hj : ub j - lb j ≠ 0 := (sub_pos.mpr (h j)).ne'
  fin_cases i
  · simp
  · simp; field_simp; ring

/-- C02: every component is strictly increasing. -/
theorem C02_strictMono (lb ub : Fin m → ℝ) (h : ∀ j, lb j < ub j) (X : Matrix (Fin M) (Fin m) ℝ) :
    ∃ s, BoundedNormalizer.init (List.ofFn lb) (List.ofFn ub) = .ok s ∧
      ∃ Z : Matrix (Fin M) (Fin m) ℝ, s.normalize (.mat (.of X)) = .ok (.of Z) ∧
        ∀ i i' j, X i j < X i' j ↔ Z i j < Z i' j := by
  refine ⟨_, init_ofFn lb ub, _, normalize_of lb ub X, fun i i' j => ?_⟩
  have hj : 0 < ub j - lb j := sub_pos.mpr (h j)
  simp only [Matrix.of_apply, sub_lt_sub_iff_right]
  rw [div_lt_div_iff_of_pos_right hj]
  constructor <;> intro h <;> linarith

example : ∀ j : Fin 2, (![0, -3] : Fin 2 → ℝ) j < (![1, 5] : Fin 2 → ℝ) j := by
  intro j; fin_cases j <;> norm_num

/-! ## C03 -/

theorem isUnit_det_of_isCholesky {C L : Matrix (Fin m) (Fin m) ℝ} (h : Spec.IsCholesky C L) :
    IsUnit L.det := by
  have hL : L.BlockTriangular OrderDual.toDual := by
    intro i j hij
    exact h.lower i j (OrderDual.toDual_lt_toDual.mp hij)
  rw [Matrix.det_of_isLowerTriangular L hL]
  exact (Finset.prod_pos fun i _ => h.diag_pos i).ne'.isUnit

/-- C03: with a Cholesky factor, `normalize` always succeeds and the two maps are inverse to each other. -/
theorem C03_round_trip (chol : Matrix (Fin m) (Fin m) ℝ → Except Err (Matrix (Fin m) (Fin m) ℝ))
    (mu : Fin m → ℝ) (C L : Matrix (Fin m) (Fin m) ℝ) (hc : chol C = .ok L) (hL : Spec.IsCholesky C L)
    (X : Matrix (Fin M) (Fin m) ℝ) :
    ∃ s, UnboundedNormalizer.init chol mu C = .ok s ∧
      (∃ Z : Matrix (Fin M) (Fin m) ℝ, s.normalize (.mat (.of X)) = .ok (.of Z) ∧
        s.unnormalize (.mat (.of Z)) = .ok (.of X)) ∧
      (∃ Y : Matrix (Fin M) (Fin m) ℝ, s.unnormalize (.mat (.of X)) = .ok (.of Y) ∧
        s.normalize (.mat (.of Y)) = .ok (.of X)) := by
  have hu := isUnit_det_of_isCholesky hL
  refine ⟨⟨mu, L⟩, by simp [UnboundedNormalizer.init, hc], ?_, ?_⟩
  · refine ⟨_, unormalize_of ⟨mu, L⟩ hu X, ?_⟩
    rw [uunnormalize_of]
    congr 2
    ext i j
    rw [← Matrix.transpose_mul, ← Matrix.mul_assoc, Matrix.mul_nonsing_inv _ hu, Matrix.one_mul,
      Matrix.transpose_transpose]
    simp
  · refine ⟨_, uunnormalize_of ⟨mu, L⟩ X, ?_⟩
    rw [unormalize_of _ hu]
    congr 2
    have : (Matrix.of fun i j => (Matrix.of fun i j => (X * L.transpose) i j + mu j) i j - mu j)
        = X * L.transpose := by
      ext i j; simp
    rw [this, Matrix.transpose_mul, Matrix.transpose_transpose, Matrix.mul_assoc, ← Matrix.transpose_mul,
      Matrix.nonsing_inv_mul _ hu, Matrix.transpose_one, Matrix.mul_one]

/-- C03: a sample with mean 0 and second moment `I` is mapped to one with mean `mu` and covariance `C`. -/
theorem C03_moments (chol : Matrix (Fin m) (Fin m) ℝ → Except Err (Matrix (Fin m) (Fin m) ℝ))
    (mu : Fin m → ℝ) (C L : Matrix (Fin m) (Fin m) ℝ) (hc : chol C = .ok L) (hL : Spec.IsCholesky C L)
    (w : Fin M → ℝ) (Z : Matrix (Fin M) (Fin m) ℝ) (hmean : Spec.HasMean w Z 0) (hcov : Spec.HasCov w Z 0 1) :
    ∃ s, UnboundedNormalizer.init chol mu C = .ok s ∧
      ∃ X : Matrix (Fin M) (Fin m) ℝ, s.unnormalize (.mat (.of Z)) = .ok (.of X) ∧
        Spec.HasMean w X mu ∧ Spec.HasCov w X mu C := by
  refine ⟨⟨mu, L⟩, by simp [UnboundedNormalizer.init, hc],
    _, uunnormalize_of ⟨mu, L⟩ Z, ⟨hmean.1, fun j => ?_⟩, fun j k => ?_⟩
  · simp only [Matrix.of_apply, Matrix.mul_apply, Matrix.transpose_apply, mul_add, Finset.sum_add_distrib,
      ← Finset.sum_mul, hmean.1, one_mul, add_eq_right, Finset.mul_sum]
    rw [Finset.sum_comm]
    apply Finset.sum_eq_zero
    intro a _
    have := hmean.2 a
    simp only [← mul_assoc, ← Finset.sum_mul, this, Pi.zero_apply, zero_mul]
  · have h1 : ∀ i, (Matrix.of (fun i j => (Z * L.transpose) i j + mu j) i j - mu j) *
        (Matrix.of (fun i j => (Z * L.transpose) i j + mu j) i k - mu k)
        = ∑ a, ∑ b, L j a * L k b * (Z i a * Z i b) := by
      intro i
      simp only [Matrix.of_apply, add_sub_cancel_right, Matrix.mul_apply, Matrix.transpose_apply,
        Finset.sum_mul_sum]
      refine Finset.sum_congr rfl fun a _ => Finset.sum_congr rfl fun b _ => by ring
    simp only [h1, Finset.mul_sum]
    rw [Finset.sum_comm]
    have h2 : ∀ a, ∑ i, ∑ b, w i * (L j a * L k b * (Z i a * Z i b)) = L j a * L k a := by
      intro a
      rw [Finset.sum_comm]
      have h3 : ∀ b, ∑ i, w i * (L j a * L k b * (Z i a * Z i b))
          = L j a * L k b * (1 : Matrix (Fin m) (Fin m) ℝ) a b := by
        intro b
        rw [← hcov a b, Finset.mul_sum]
        refine Finset.sum_congr rfl fun i _ => by simp only [Pi.zero_apply, sub_zero]; ring
      simp only [h3, Matrix.one_apply, mul_ite, mul_one, mul_zero, Finset.sum_ite_eq, Finset.mem_univ, if_true]
    simp only [h2]
    rw [← hL.mul, Matrix.mul_apply]
    rfl

example : Spec.IsCholesky (m := 2) !![4, 2; 2, 5] !![2, 0; 1, 2] where
  lower := by intro i j h; fin_cases i <;> fin_cases j <;> simp_all
  diag_pos := by intro i; fin_cases i <;> simp
  mul := by
    ext i j
    fin_cases i <;> fin_cases j <;> simp [Matrix.mul_apply, Fin.sum_univ_two] <;> norm_num

example : Spec.HasMean (M := 2) (m := 1) ![1/2, 1/2] !![1; -1] 0 ∧
    Spec.HasCov (M := 2) (m := 1) ![1/2, 1/2] !![1; -1] 0 1 := by
  refine ⟨⟨?_, ?_⟩, ?_⟩
  · simp [Fin.sum_univ_two]; norm_num
  · intro j; fin_cases j; simp [Fin.sum_univ_two]
  · intro j k; fin_cases j; fin_cases k; simp [Fin.sum_univ_two]; norm_num

/-! ## C04 -/

/-- C04: `process_inputs` succeeds exactly on two-dimensional arrays and returns them unchanged. -/
theorem C04_process_inputs (X : Arr) :
    (X.ndim = 2 → ∃ A, process_inputs X = .ok A ∧ X = .mat A ∧ X.shape = [A.rows, A.cols]) ∧
    (X.ndim ≠ 2 → process_inputs X = .error .valueError) := by
  refine ⟨fun h => ?_, process_inputs_error⟩
  rcases arr_cases_mat X with ⟨A, rfl⟩ | h'
  · exact ⟨A, rfl, rfl, rfl⟩
  · exact absurd h h'

/-- C04: the complete decision table of `process_inputs_outputs`, with the precedence of the errors. -/
theorem C04_process_inputs_outputs (X f : Arr) :
    (X.ndim ≠ 2 → process_inputs_outputs X f = .error .valueError) ∧
    (X.ndim = 2 → f.ndim ≠ 2 → process_inputs_outputs X f = .error .valueError) ∧
    (∀ M m M' m', X.shape = [M, m] → f.shape = [M', m'] →
      (M' ≠ M → process_inputs_outputs X f = .error .exception) ∧
      (M' = M → m' ≠ 1 → process_inputs_outputs X f = .error .exception) ∧
      (M' = M → m' = 1 → ∃ A B, process_inputs_outputs X f = .ok ⟨A, B⟩ ∧ X = .mat A ∧ f = .mat B)) := by
  refine ⟨fun h => ?_, fun h h' => ?_, fun M m M' m' hX hf => ?_⟩
  · simp [process_inputs_outputs, process_inputs_error h]
  · rcases arr_cases_mat X with ⟨A, rfl⟩ | h''
    · cases f <;> simp_all [process_inputs_outputs, process_inputs, Arr.ndim, Arr.shape]
    · exact absurd h h''
  · cases X <;> simp [Arr.shape] at hX
    cases f <;> simp [Arr.shape] at hf
    rename_i A B
    obtain ⟨rfl, rfl⟩ := hX
    obtain ⟨rfl, rfl⟩ := hf
    refine ⟨fun h => ?_, fun h h' => ?_, fun h h' => ⟨A, B, ?_, rfl, rfl⟩⟩ <;>
      simp_all [process_inputs_outputs, process_inputs]

example : (Arr.mat (.of (Matrix.of ![![1, 2], ![3, 4]] : Matrix (Fin 2) (Fin 2) ℝ))).shape = [2, 2] := rfl

/-! ## C05 -/

theorem select_eq (f : Fin M → ℝ) (ind : Fin M → ℤ) (i : ℤ) :
    (select f ind i).length = (Finset.univ.filter fun j => ind j = i).card ∧
    ∀ g : ℝ → ℝ, ((select f ind i).map g).sum = ∑ j with ind j = i, g (f j) := by
  have hf : (Finset.univ.filter fun j => ind j = i)
      = ((List.finRange M).filter fun j => decide (ind j = i)).toFinset := by
    ext j; simp
  have hnd : ((List.finRange M).filter fun j => decide (ind j = i)).Nodup :=
    (List.nodup_finRange M).filter _
  constructor
  · rw [hf, List.toFinset_card_of_nodup hnd]; simp [select]
  · intro g
    rw [hf, List.sum_toFinset _ hnd]
    simp only [select, List.map_map]
    rfl

theorem mean_eq (f : Fin M → ℝ) (ind : Fin M → ℤ) (i : ℤ) (h : ∃ j, ind j = i) :
    mean (select f ind i) = some (Spec.meanOn (Finset.univ.filter fun j => ind j = i) f) ∧
    var (select f ind i) = some (Spec.varOn (Finset.univ.filter fun j => ind j = i) f) := by
  obtain ⟨hl, hs⟩ := select_eq f ind i
  have hne : (select f ind i).length ≠ 0 := by
    rw [hl]
    obtain ⟨j, hj⟩ := h
    exact Finset.card_ne_zero_of_mem (Finset.mem_filter.mpr ⟨Finset.mem_univ j, hj⟩)
  have h1 : mean (select f ind i) = some (Spec.meanOn (Finset.univ.filter fun j => ind j = i) f) := by
    have := hs id
    simp only [List.map_id, id] at this
    rw [mean, if_neg hne, this, hl, Spec.meanOn]
  refine ⟨h1, ?_⟩
  rw [var, h1]
  simp only [mean, List.length_map]
  rw [if_neg hne, hs (fun x => (x - _) ^ 2), hl, Spec.varOn]

/-- C05: row `i` of the result holds the mean and the variance of exactly the entries with index `i`,
for every index that occurs; an index below the maximum that does not occur gives nan. -/
theorem C05_group_means (hM : 0 < M) (f : Fin M → ℝ) (ind : Fin M → ℤ) (h0 : ∀ j, 0 ≤ ind j) :
    ∃ r, conditional_expectations f ind = .ok r ∧
      (∀ j, ind j < r.n) ∧ (∃ j, ind j + 1 = r.n) ∧
      ∀ i : Fin r.n,
        ((∃ j, ind j = (i : ℕ)) →
          r.Ef i = some (Spec.meanOn (Finset.univ.filter fun j => ind j = (i : ℕ)) f) ∧
          r.Vf i = some (Spec.varOn (Finset.univ.filter fun j => ind j = (i : ℕ)) f)) ∧
        ((∀ j, ind j ≠ (i : ℕ)) → r.Ef i = none ∧ r.Vf i = none) := by
  have hne : (Finset.univ : Finset (Fin M)).Nonempty := ⟨⟨0, hM⟩, Finset.mem_univ _⟩
  have hle : ∀ j, ind j ≤ Finset.univ.sup' hne ind := fun j => Finset.le_sup' _ (Finset.mem_univ j)
  have hn : ¬ (Finset.univ.sup' hne ind + 1 < 0) := by
    have h1 := hle ⟨0, hM⟩
    have h2 := h0 ⟨0, hM⟩
    omega
  have hnn : 0 ≤ Finset.univ.sup' hne ind + 1 := not_lt.mp hn
  refine ⟨_, by rw [conditional_expectations, dif_pos hM, if_neg hn], fun j => ?_, ?_, fun i => ⟨fun h => ?_, fun h => ?_⟩⟩
  · have := hle j
    simp only [Int.toNat_of_nonneg hnn]
    omega
  · obtain ⟨j, -, hj⟩ := Finset.exists_mem_eq_sup' hne ind
    exact ⟨j, by simp only [Int.toNat_of_nonneg hnn]; omega⟩
  · exact mean_eq f ind _ h
  · have hs : select f ind (i : ℕ) = [] := by
      simp [select, List.filter_eq_nil_iff, h]
    simp [hs, mean, var]

/-- C05: with every index 0..max present, all rows are numbers, variances are non-negative, and the group
means weighted with the group sizes add up to the total sum. -/
theorem C05_total (hM : 0 < M) (f : Fin M → ℝ) (ind : Fin M → ℤ) (h0 : ∀ j, 0 ≤ ind j)
    (hall : ∀ i : ℤ, 0 ≤ i → (∃ j, i ≤ ind j) → ∃ j, ind j = i) :
    ∃ r, conditional_expectations f ind = .ok r ∧
      ∃ E V : Fin r.n → ℝ, (∀ i, r.Ef i = some (E i)) ∧ (∀ i, r.Vf i = some (V i)) ∧ (∀ i, 0 ≤ V i) ∧
        ∑ i : Fin r.n, ((Finset.univ.filter fun j => ind j = (i : ℕ)).card : ℝ) * E i = ∑ j, f j := by
  obtain ⟨r, hr, hlt, ⟨jm, hjm⟩, hrow⟩ := C05_group_means hM f ind h0
  have hex : ∀ i : Fin r.n, ∃ j, ind j = (i : ℕ) := fun i =>
    hall _ (by positivity) ⟨jm, by have := i.2; omega⟩
  refine ⟨r, hr, _, _, fun i => ((hrow i).1 (hex i)).1, fun i => ((hrow i).1 (hex i)).2, fun i => ?_, ?_⟩
  · unfold Spec.varOn
    apply div_nonneg
    · exact Finset.sum_nonneg fun _ _ => sq_nonneg _
    · positivity
  · have hcard : ∀ i : Fin r.n, ((Finset.univ.filter fun j => ind j = (i : ℕ)).card : ℝ) ≠ 0 := by
      intro i
      obtain ⟨j, hj⟩ := hex i
      exact_mod_cast Finset.card_ne_zero_of_mem (Finset.mem_filter.mpr ⟨Finset.mem_univ j, hj⟩)
    have : ∀ i : Fin r.n, ((Finset.univ.filter fun j => ind j = (i : ℕ)).card : ℝ)
        * Spec.meanOn (Finset.univ.filter fun j => ind j = (i : ℕ)) f = ∑ j with ind j = (i : ℕ), f j := by
      intro i
      unfold Spec.meanOn
      field_simp [hcard i]
    simp only [this]
    have hfib : ∀ i : Fin r.n, ∑ j with ind j = (i : ℕ), f j
        = ∑ j with (⟨(ind j).toNat, by have := hlt j; have := h0 j; omega⟩ : Fin r.n) = i, f j := by
      intro i
      congr 1
      ext j
      simp only [Finset.mem_filter, Finset.mem_univ, true_and, Fin.ext_iff]
      have := h0 j
      omega
    simp only [hfib]
    rw [Finset.sum_fiberwise]

/-- C05: permuting data and indices together does not change the result. -/
theorem C05_perm (f : Fin M → ℝ) (ind : Fin M → ℤ) (σ : Equiv.Perm (Fin M)) :
    conditional_expectations (f ∘ σ) (ind ∘ σ) = conditional_expectations f ind := by
  unfold conditional_expectations
  split_ifs with hM
  · have hne : (Finset.univ : Finset (Fin M)).Nonempty := ⟨⟨0, hM⟩, Finset.mem_univ _⟩
    have hsup : Finset.univ.sup' hne (ind ∘ σ) = Finset.univ.sup' hne ind := by
      apply le_antisymm
      · exact Finset.sup'_le _ _ fun j _ => Finset.le_sup' ind (Finset.mem_univ (σ j))
      · refine Finset.sup'_le _ _ fun j _ => ?_
        have := Finset.le_sup' (ind ∘ σ) (Finset.mem_univ (σ.symm j))
        simp only [Function.comp_apply, Equiv.apply_symm_apply] at this
        exact this
    have hperm : ∀ i, (select (f ∘ σ) (ind ∘ σ) i).Perm (select f ind i) := by
      intro i
      have h1 : (List.finRange M).Perm ((List.finRange M).map σ) :=
        (Equiv.Perm.map_finRange_perm σ).symm
      have h2 := (h1.filter fun j => decide (ind j = i)).map f
      rw [List.filter_map, List.map_map] at h2
      exact h2.symm
    have hmean : ∀ l l' : List ℝ, l.Perm l' → mean l = mean l' := by
      intro l l' h
      simp only [mean, h.length_eq, h.sum_eq]
    have hvar : ∀ l l' : List ℝ, l.Perm l' → var l = var l' := by
      intro l l' h
      simp only [var, hmean l l' h]
      cases mean l' with
      | none => rfl
      | some mu => exact hmean _ _ (h.map _)
    simp only [fun i => hmean _ _ (hperm i), fun i => hvar _ _ (hperm i)]
    rw [hsup]
  · rfl

/-- C05: no data is a `ValueError`. -/
theorem C05_empty (f : Fin 0 → ℝ) (ind : Fin 0 → ℤ) :
    conditional_expectations f ind = .error .valueError := by
  simp [conditional_expectations]

example : (∀ j : Fin 3, 0 ≤ (![0, 1, 0] : Fin 3 → ℤ) j) ∧
    (∀ i : ℤ, 0 ≤ i → (∃ j : Fin 3, i ≤ (![0, 1, 0] : Fin 3 → ℤ) j) → ∃ j, (![0, 1, 0] : Fin 3 → ℤ) j = i) := by
  refine ⟨by decide, fun i hi ⟨j, hj⟩ => ?_⟩
  have : i ≤ 1 := le_trans hj (by fin_cases j <;> decide)
  rcases (by omega : i = 0 ∨ i = 1) with rfl | rfl
  · exact ⟨0, rfl⟩
  · exact ⟨1, rfl⟩

/-! ## C06 -/

/-- C06: an array of rank two or more is returned unchanged, whatever `oned_as` is. -/
theorem C06_high_rank (A : Obj) (s : String) (h : 2 ≤ A.toArr.ndim) :
    atleast_2d A s = .ok A.toArr := by
  unfold atleast_2d
  cases hA : A.toArr <;> simp_all [Arr.ndim, Arr.shape]

/-- C06: one-dimensional data become one row or one column with the entries in order; any other
`oned_as` is an error. -/
theorem C06_rank_one (A : Obj) (n : ℕ) (x : Fin n → ℝ) (h : A.toArr = .vec n x) :
    (∃ B : Matrix (Fin 1) (Fin n) ℝ, atleast_2d_row A = .ok (.mat (.of B)) ∧ ∀ j, B 0 j = x j) ∧
    (∃ B : Matrix (Fin n) (Fin 1) ℝ, atleast_2d_col A = .ok (.mat (.of B)) ∧ ∀ i, B i 0 = x i) ∧
    (∀ s, s ≠ "row" → s ≠ "col" → atleast_2d A s = .error .exception) := by
  refine ⟨⟨Matrix.of fun _ j => x j, ?_, fun _ => rfl⟩, ⟨Matrix.of fun i _ => x i, ?_, fun _ => rfl⟩, ?_⟩
  · simp [atleast_2d_row, atleast_2d, h]; rfl
  · simp [atleast_2d_col, atleast_2d, h]; rfl
  · intro s h1 h2
    simp [atleast_2d, h, h1, h2]

/-- C06: a number becomes a 1-by-1 array. -/
theorem C06_number (x : ℝ) (s : String) (hs : s = "row" ∨ s = "col") :
    ∃ B : Matrix (Fin 1) (Fin 1) ℝ, atleast_2d (.other x) s = .ok (.mat (.of B)) ∧ B 0 0 = x := by
  refine ⟨Matrix.of fun _ _ => x, ?_, rfl⟩
  rcases hs with rfl | rfl <;> simp [atleast_2d, Obj.toArr] <;> rfl

/-- C06: whenever `atleast_2d` returns, the result has rank at least two; it raises only for rank below
two, and for a zero-dimensional ndarray it always raises. -/
theorem C06_result_rank (A : Obj) (s : String) :
    (∀ B, atleast_2d A s = .ok B → 2 ≤ B.ndim) ∧
    (∀ e, atleast_2d A s = .error e → A.toArr.ndim < 2) ∧
    (A.toArr.ndim = 0 → ∃ e, atleast_2d A s = .error e) := by
  unfold atleast_2d
  cases hA : A.toArr with
  | scalar x => split_ifs <;> simp_all [Arr.ndim, Arr.shape]
  | vec n x =>
    split_ifs
    · refine ⟨fun B hB => ?_, by simp, by simp [Arr.ndim, Arr.shape]⟩
      cases hB; simp [Arr.ndim, Arr.shape]
    · refine ⟨fun B hB => ?_, by simp, by simp [Arr.ndim, Arr.shape]⟩
      cases hB; simp [Arr.ndim, Arr.shape]
    · simp [Arr.ndim, Arr.shape]
  | mat A => refine ⟨fun B hB => ?_, by simp, by simp [Arr.ndim, Arr.shape]⟩; cases hB; simp [Arr.ndim, Arr.shape]
  | nd a b c r d => refine ⟨fun B hB => ?_, by simp, by simp [Arr.ndim, Arr.shape]⟩; cases hB; simp [Arr.ndim, Arr.shape]

example : 2 ≤ (Obj.arr (.nd 2 3 4 [] [])).toArr.ndim := by simp [Obj.toArr, Arr.ndim, Arr.shape]
example : (Obj.other 5).toArr = .vec 1 (fun _ => 5) := rfl

end Props
