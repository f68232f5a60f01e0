import Mathlib.Analysis.Calculus.MeanValue
import Mathlib.Analysis.Calculus.Deriv.MeanValue
import Mathlib.Analysis.Calculus.Deriv.Pow
import Mathlib.Analysis.Calculus.Deriv.Add
import Mathlib.Analysis.Calculus.Deriv.Mul
import Mathlib.Tactic.NormNum
import Verif.Proofs.Gradients
import Verif.Props.SimRunners

/-!
# Properties C10, C11: `finite_difference_gradients`
-/

open Py Model.SimRunners Model.Gradients Proofs.Gradients Proofs.SimRunners

namespace Props

variable {W : Type} {M m : ℕ}

theorem perturb_eq (X : Matrix (Fin M) (Fin m) ℝ) (h : ℝ) (k : Fin m) (i : Fin M) :
    fdDesign X h (finProdFinEquiv (k.succ, i)) = X i + h • Pi.single k 1 := by
  funext j
  rw [fdDesign_apply, dir_succ]
  simp [Pi.single_apply, eq_comm]

theorem base_eq (X : Matrix (Fin M) (Fin m) ℝ) (h : ℝ) (i : Fin M) :
    fdDesign X h (finProdFinEquiv (0, i)) = X i := by
  funext j
  rw [fdDesign_apply, dir_zero]
  simp

/-- C10: entry `(i, k)` of the result is `(fun(x_i + h e_k) - fun(x_i)) / h`, for every pure function. -/
theorem C10_formula (g : (m : ℕ) → (Fin m → ℝ) → ℝ) (X : Matrix (Fin M) (Fin m) ℝ) (h : ℝ) (w : W) :
    ∃ D : Matrix (Fin M) (Fin m) ℝ,
      (finite_difference_gradients (.mat (.of X)) (fun m x => pure (g m x)) h).run w = (.ok (.of D), w) ∧
        ∀ i k, D i k = (g m (X i + h • Pi.single k 1) - g m (X i)) / h := by
  refine ⟨fdQuotient (Matrix.of fun i _ => g m (fdDesign X h i)) h, ?_, fun i k => ?_⟩
  · simp only [finite_difference_gradients, Model.Misc.process_inputs, PyM.run_bind,
      finite_difference_gradientsMat]
    erw [runMat_pure (g m) (fdDesign X h) w]
    rfl
  · rw [fdQuotient_apply]
    simp only [Matrix.of_apply]
    rw [perturb_eq, base_eq]

/-- C10: for an affine function and any step the result is the exact gradient. -/
theorem C10_affine (a : ℝ) (s : (m : ℕ) → Fin m → ℝ) (X : Matrix (Fin M) (Fin m) ℝ) (h : ℝ) (hh : h ≠ 0) (w : W) :
    (finite_difference_gradients (.mat (.of X)) (fun m x => pure (a + ∑ j, s m j * x j)) h).run w
      = (.ok (.of (Matrix.of fun (_ : Fin M) k => s m k)), w) := by
  obtain ⟨D, hD, hf⟩ := C10_formula (W := W) (fun m x => a + ∑ j, s m j * x j) X h w
  rw [hD]
  congr 3
  ext i k
  rw [hf]
  simp only [Pi.add_apply, Pi.smul_apply, smul_eq_mul, Matrix.of_apply, mul_add, Finset.sum_add_distrib]
  have : ∑ j, s m j * (h * (Pi.single k 1 : Fin m → ℝ) j) = s m k * h := by
    simp [Pi.single_apply]
  rw [this]
  field_simp
  ring

/-- C10: if along `e_k` the function has a derivative that is `L`-Lipschitz about the base point, the result
is within `L*h/2` of the partial derivative. -/
theorem C10_error_bound (g : (m : ℕ) → (Fin m → ℝ) → ℝ) (X : Matrix (Fin M) (Fin m) ℝ) (h : ℝ) (hh : 0 < h)
    (w : W) (i : Fin M) (k : Fin m) (d : ℝ → ℝ) (L : ℝ)
    (hd : ∀ t ∈ Set.Icc 0 h, HasDerivAt (fun t : ℝ => g m (X i + t • Pi.single k 1)) (d t) t)
    (hL : ∀ t ∈ Set.Icc 0 h, |d t - d 0| ≤ L * t) :
    ∃ D : Matrix (Fin M) (Fin m) ℝ,
      (finite_difference_gradients (.mat (.of X)) (fun m x => pure (g m x)) h).run w = (.ok (.of D), w) ∧
        |D i k - d 0| ≤ L * h / 2 := by
  obtain ⟨D, hD, hf⟩ := C10_formula (W := W) g X h w
  refine ⟨D, hD, ?_⟩
  rw [hf]
  set φ : ℝ → ℝ := fun t => g m (X i + t • Pi.single k 1) with hφ
  have h0 : φ 0 = g m (X i) := by simp [hφ]
  have h1 : φ h = g m (X i + h • Pi.single k 1) := rfl
  rw [← h0, ← h1]
  -- upper and lower comparison functions
  have hup : φ h - φ 0 - d 0 * h ≤ L * h ^ 2 / 2 := by
    have hmono : AntitoneOn (fun t => φ t - d 0 * t - L * t ^ 2 / 2) (Set.Icc 0 h) := by
      have hder : ∀ t ∈ Set.Icc 0 h,
          HasDerivAt (fun t => φ t - d 0 * t - L * t ^ 2 / 2) (d t - d 0 - L * t) t := by
        intro t ht
        have h2 := ((hd t ht).sub ((hasDerivAt_id t).const_mul (d 0))).sub
          ((((hasDerivAt_id t).pow 2).const_mul L).div_const 2)
        exact h2.congr_deriv (by simp; ring)
      apply antitoneOn_of_deriv_nonpos (convex_Icc 0 h)
      · exact fun t ht => (hder t ht).continuousAt.continuousWithinAt
      · exact fun t ht => (hder t (interior_subset ht)).differentiableAt.differentiableWithinAt
      · intro t ht
        rw [(hder t (interior_subset ht)).deriv]
        have := (abs_le.mp (hL t (interior_subset ht))).2
        linarith
    have := hmono (Set.left_mem_Icc.mpr hh.le) (Set.right_mem_Icc.mpr hh.le) hh.le
    simp at this
    linarith
  have hlo : -(L * h ^ 2 / 2) ≤ φ h - φ 0 - d 0 * h := by
    have hmono : MonotoneOn (fun t => φ t - d 0 * t + L * t ^ 2 / 2) (Set.Icc 0 h) := by
      have hder : ∀ t ∈ Set.Icc 0 h,
          HasDerivAt (fun t => φ t - d 0 * t + L * t ^ 2 / 2) (d t - d 0 + L * t) t := by
        intro t ht
        have h2 := ((hd t ht).sub ((hasDerivAt_id t).const_mul (d 0))).add
          ((((hasDerivAt_id t).pow 2).const_mul L).div_const 2)
        exact h2.congr_deriv (by simp; ring)
      apply monotoneOn_of_deriv_nonneg (convex_Icc 0 h)
      · exact fun t ht => (hder t ht).continuousAt.continuousWithinAt
      · exact fun t ht => (hder t (interior_subset ht)).differentiableAt.differentiableWithinAt
      · intro t ht
        rw [(hder t (interior_subset ht)).deriv]
        have := (abs_le.mp (hL t (interior_subset ht))).1
        linarith
    have := hmono (Set.left_mem_Icc.mpr hh.le) (Set.right_mem_Icc.mpr hh.le) hh.le
    simp at this
    linarith
  have heq : (φ h - φ 0) / h - d 0 = (φ h - φ 0 - d 0 * h) / h := by field_simp
  rw [heq, abs_div, abs_of_pos hh, div_le_iff₀ hh, abs_le]
  constructor <;> nlinarith

/-- The error bound is met by `x ↦ x^2` with `L = 2`. -/
example : ∃ D : Matrix (Fin 1) (Fin 1) ℝ,
    (finite_difference_gradients (W := Unit) (.mat (.of !![3])) (fun _ x => pure (∑ j, x j ^ 2)) 0.5).run ()
      = (.ok (.of D), ()) ∧ |D 0 0 - 6| ≤ 2 * 0.5 / 2 := by
  have := C10_error_bound (W := Unit) (fun _ x => ∑ j, x j ^ 2) (!![3] : Matrix (Fin 1) (Fin 1) ℝ) 0.5
    (by norm_num) () 0 0 (fun t => 2 * (3 + t)) 2 ?_ ?_
  · obtain ⟨D, hD, hb⟩ := this
    exact ⟨D, hD, by simpa [show (2 : ℝ) * 3 = 6 by norm_num] using hb⟩
  · intro t _
    have : (fun t : ℝ => ∑ j : Fin 1, (((!![3] : Matrix (Fin 1) (Fin 1) ℝ) 0 : Fin 1 → ℝ) + t • (Pi.single (0 : Fin 1) 1 : Fin 1 → ℝ)) j ^ 2)
        = fun t => (3 + t) ^ 2 := by
      funext t; simp
    rw [this]
    have h2 := ((hasDerivAt_id t).const_add 3).pow 2
    exact h2.congr_deriv (by simp)
  · intro t ht
    rw [show (2 * (3 + t) - 2 * (3 + 0) : ℝ) = 2 * t by ring, abs_of_nonneg (by linarith [ht.1])]

/-! ## C11 -/

/-- The points the documentation promises: the M base points, then for each coordinate the M points
perturbed along it. -/
def fdPoints (X : Matrix (Fin M) (Fin m) ℝ) (h : ℝ) : List (Fin m → ℝ) :=
  Np.rows X ++ (List.finRange m).flatMap fun k =>
    (List.finRange M).map fun i => X i + h • Pi.single k 1

theorem rows_fdDesign (X : Matrix (Fin M) (Fin m) ℝ) (h : ℝ) : Np.rows (fdDesign X h) = fdPoints X h := by
  rw [rows_prod, List.finRange_succ, List.flatMap_cons, fdPoints]
  congr 1
  · simp only [base_eq]; rfl
  · rw [List.flatMap_map]
    simp only [perturb_eq]

/-- C11: a successful call evaluates the simulation at exactly these points, in this order. -/
theorem C11_calls (sim : Sim W m) (X : Matrix (Fin M) (Fin m) ℝ) (h : ℝ) (w : W)
    {D : Matrix (Fin M) (Fin m) ℝ} {w' : W × List (Fin m → ℝ)}
    (hrun : (finite_difference_gradientsMat X (Spec.logged sim) h).run (w, []) = (.ok D, w')) :
    w'.2 = fdPoints X h := by
  rw [finite_difference_gradientsMat, PyM.run_bind] at hrun
  rcases hr : (runMat (Spec.logged sim) (fdDesign X h)).run (w, []) with ⟨_ | F, w₁⟩
  · rw [hr] at hrun; cases hrun
  · rw [hr] at hrun
    cases hrun
    rw [C07_calls_each_row_once sim _ w hr, rows_fdDesign]

/-- C11: there are `M*(m+1)` of them. -/
theorem C11_count (X : Matrix (Fin M) (Fin m) ℝ) (h : ℝ) : (fdPoints X h).length = M * (m + 1) := by
  rw [← rows_fdDesign]
  simp [mul_comm]

/-- C11: if the simulation raises, the exception passes through and the evaluated points are an initial
segment of the list. -/
theorem C11_failure (sim : Sim W m) (X : Matrix (Fin M) (Fin m) ℝ) (h : ℝ) (w : W)
    {e : Err} {w' : W × List (Fin m → ℝ)}
    (hrun : (finite_difference_gradientsMat X (Spec.logged sim) h).run (w, []) = (.error e, w')) :
    ∃ k, k < M * (m + 1) ∧ w'.2 = (fdPoints X h).take (k + 1) ∧
      Spec.CallsFail (Spec.logged sim) (fdPoints X h) (w, []) k e w' := by
  rw [finite_difference_gradientsMat, PyM.run_bind] at hrun
  rcases hr : (runMat (Spec.logged sim) (fdDesign X h)).run (w, []) with ⟨e' | F, w₁⟩
  · rw [hr] at hrun
    cases hrun
    obtain ⟨k, hk, hl, hf⟩ := C08_calls_until_failure sim _ w hr
    rw [rows_fdDesign] at hl hf
    exact ⟨k, by rw [mul_comm]; exact hk, hl, hf⟩
  · rw [hr] at hrun; cases hrun

example : fdPoints (!![5, 6] : Matrix (Fin 1) (Fin 2) ℝ) 1 = [![5, 6], ![6, 6], ![5, 7]] := by
  have h1 : (![5, 6] : Fin 2 → ℝ) + Pi.single 0 1 = ![6, 6] := by
    funext j; fin_cases j <;> simp <;> norm_num
  have h2 : (![5, 6] : Fin 2 → ℝ) + Pi.single 1 1 = ![5, 7] := by
    funext j; fin_cases j <;> simp <;> norm_num
  simp [fdPoints, Np.rows, List.finRange_succ, h1, h2]
  exact ⟨rfl, h1, h2⟩

end Props
