import Verif.Model.Rounded
import Verif.Proofs.Rounding
import Verif.Props.FiniteDiff

/-!
# Property C126: `finite_difference_gradients` in double precision
-/

open Py Model.SimRunners Proofs.Gradients Proofs.SimRunners Spec Proofs.Doubles

namespace Props

variable {W : Type} {M m : ℕ} {rd : ℝ → ℝ}

namespace Rounded

open Proofs.Rounding

theorem oneD : IsDouble 1 := by simpa using isDouble_int (z := 1) (by norm_num)

theorem fdDesign_eq (hr : Rounding rd) {X : Matrix (Fin M) (Fin m) ℝ} (hX : ∀ i j, IsDouble (X i j)) {h : ℝ} (hh : IsDouble h) :
    Model.Rounded.fdDesign rd X h = (Model.Gradients.fdDesign X h).map rd := by
  unfold Model.Rounded.fdDesign Model.Gradients.fdDesign
  ext a j
  simp only [Matrix.map_apply, Matrix.add_apply, Matrix.smul_apply, Matrix.submatrix_apply, smul_eq_mul]
  have h1 : rd (Np.kron (Np.ones (m + 1) 1) X (id a) (Fin.cast (one_mul m).symm j))
      = Np.kron (Np.ones (m + 1) 1) X (id a) (Fin.cast (one_mul m).symm j) := by
    simp only [Np.kron, Np.ones, Matrix.of_apply, one_mul]
    exact exact hr (hX _ _)
  have h2 : ∀ b c, Np.kron (Np.vstack (Np.zeros 1 m) (1 : Matrix (Fin m) (Fin m) ℝ)) (Np.ones M 1) b c = 0
      ∨ Np.kron (Np.vstack (Np.zeros 1 m) (1 : Matrix (Fin m) (Fin m) ℝ)) (Np.ones M 1) b c = 1 := by
    intro b c
    simp only [Np.kron, Np.ones, Matrix.of_apply, mul_one]
    generalize b.divNat = b'
    induction b' using Fin.addCases with
    | left k => rw [Np.vstack_castAdd]; exact .inl rfl
    | right k =>
      rw [Np.vstack_natAdd, Matrix.one_apply]
      split_ifs
      · exact .inr rfl
      · exact .inl rfl
  rw [h1]
  congr 2
  rcases h2 (Fin.cast (by rw [Nat.add_comm]) a) (Fin.cast (mul_one m).symm j) with e | e
  · rw [e, zero hr, mul_zero, zero hr]
  · rw [e, exact hr oneD, mul_one, exact hr hh]

theorem fdQuotient_eq (rd : ℝ → ℝ) (F : Matrix (Fin ((m + 1) * M)) (Fin 1) ℝ) (h : ℝ) (i : Fin M) (k : Fin m) :
    Model.Rounded.fdQuotient rd F h i k = rd (rd (F (finProdFinEquiv (k.succ, i)) 0 - F (finProdFinEquiv (0, i)) 0) / h) := by
  have h1 := Proofs.Gradients.fdQuotient_apply F 1 i k
  simp only [Model.Gradients.fdQuotient, div_one, Matrix.of_apply] at h1
  simp only [Model.Rounded.fdQuotient, Matrix.of_apply]
  rw [h1]

/-- The step actually taken. -/
theorem row_eq (hr : Rounding rd) {X : Matrix (Fin M) (Fin m) ℝ} (hX : ∀ i j, IsDouble (X i j)) {h : ℝ} (i : Fin M) (k : Fin m) :
    (Model.Gradients.fdDesign X h).map rd (finProdFinEquiv (k.succ, i)) = X i + (rd (X i k + h) - X i k) • Pi.single k 1 := by
  funext j
  rw [Matrix.map_apply, perturb_eq]
  by_cases hj : j = k
  · subst hj
    simp
  · simp [Pi.single_apply, hj, exact hr (hX i j)]

theorem base_row (hr : Rounding rd) {X : Matrix (Fin M) (Fin m) ℝ} (hX : ∀ i j, IsDouble (X i j)) {h : ℝ} (i : Fin M) :
    (Model.Gradients.fdDesign X h).map rd (finProdFinEquiv (0, i)) = X i := by
  funext j
  rw [Matrix.map_apply, base_eq, exact hr (hX i j)]

/-- A double plus less than half the distance to the next one. -/
theorem absorbed (hr : Rounding rd) {x h : ℝ} (hx : IsDouble x) (hh : 0 < h) (hlt : h < x / 2 ^ 54) : rd (x + h) = x := by
  have hx0 : 0 < x := by
    by_contra hn
    push Not at hn
    have : x / 2 ^ 54 ≤ 0 := div_nonpos_of_nonpos_of_nonneg hn (by norm_num)
    linarith
  obtain ⟨a, e, h1, h2, h3, h4⟩ := exists_bracket hx0
  have he : (0 : ℝ) < (2 : ℝ) ^ e := by positivity
  have hxa : (a : ℝ) * 2 ^ e = x := by
    rcases h3.lt_or_eq with h5 | h5
    · exact (not_between h1 hx h5 h4).elim
    · exact h5
  have ha : (a : ℝ) < 2 ^ 53 := by exact_mod_cast h2
  have hge : x ≤ rd (x + h) := ge_of_double hr hx (by linarith)
  rcases hge.lt_or_eq with h5 | h5
  · exfalso
    have h6 : ((a : ℝ) + 1) * 2 ^ e ≤ rd (x + h) := by
      by_contra hn
      push Not at hn
      exact not_between h1 (isDouble hr _) (by rw [hxa]; exact h5) hn
    have h7 := (hr (x + h)).2 x hx
    rw [add_sub_cancel_left, abs_of_pos hh, abs_le] at h7
    have h8 := h7.1
    have h9 : x / 2 ^ 54 < (2 : ℝ) ^ e / 2 := by
      rw [← hxa, div_lt_iff₀ (by norm_num)]
      nlinarith
    nlinarith
  · exact h5.symm

end Rounded

/-- C126: without rounding the definition is that of C10. -/
theorem C126_exact (X : Arr) (sim : (m : ℕ) → Sim W m) (h : ℝ) :
    Model.Rounded.finite_difference_gradients id X sim h = Model.Gradients.finite_difference_gradients X sim h := by
  cases X with
  | mat A =>
    funext w
    simp only [Model.Rounded.finite_difference_gradients, Model.Gradients.finite_difference_gradients,
      Model.Gradients.finite_difference_gradientsMat, Model.Misc.process_inputs]
    have e : Model.Rounded.fdDesign id A.val h = Model.Gradients.fdDesign A.val h := rfl
    rw [e]
    change (PyM.run _ w) = (PyM.run _ w)
    simp only [PyM.run_bind]
    generalize (runMat (sim A.cols) (Model.Gradients.fdDesign A.val h)).run w = r
    rcases r with ⟨_ | F, w'⟩ <;> rfl
  | _ => rfl

/-- C126: in double precision entry `(i, k)` is `(fun(x) - fun(x_i)) / h` with two roundings, where `x` is `x_i` with
coordinate `k` replaced by the double nearest `x_ik + h`. -/
theorem C126_formula (hr : Rounding rd) (g : (m : ℕ) → (Fin m → ℝ) → ℝ) (X : Matrix (Fin M) (Fin m) ℝ)
    (hX : ∀ i j, IsDouble (X i j)) (h : ℝ) (hh : IsDouble h) (w : W) :
    ∃ D : Matrix (Fin M) (Fin m) ℝ,
      (Model.Rounded.finite_difference_gradients rd (.mat (.of X)) (fun m x => pure (g m x)) h).run w = (.ok (.of D), w) ∧
        ∀ i k, D i k = rd (rd (g m (Function.update (X i) k (rd (X i k + h))) - g m (X i)) / h) := by
  refine ⟨Model.Rounded.fdQuotient rd (Matrix.of fun i _ => g m (Model.Rounded.fdDesign rd X h i)) h, ?_, fun i k => ?_⟩
  · simp only [Model.Rounded.finite_difference_gradients, Model.Misc.process_inputs, PyM.run_bind]
    erw [runMat_pure (g m) (Model.Rounded.fdDesign rd X h) w]
    rfl
  · rw [Rounded.fdQuotient_eq]
    simp only [Matrix.of_apply]
    rw [Rounded.fdDesign_eq hr hX hh, Rounded.row_eq hr hX, Rounded.base_row hr hX]
    congr 5
    funext j
    by_cases hj : j = k
    · subst hj
      simp
    · simp [hj]

/-- The difference of a function with a derivative that is `L`-Lipschitz about the base point. -/
theorem difference_bound (f : (Fin m → ℝ) → ℝ) (x : Fin m → ℝ) (k : Fin m) (t : ℝ) (ht : 0 ≤ t) (d : ℝ → ℝ) (L : ℝ)
    (hd : ∀ s ∈ Set.Icc 0 t, HasDerivAt (fun s : ℝ => f (x + s • Pi.single k 1)) (d s) s)
    (hL : ∀ s ∈ Set.Icc 0 t, |d s - d 0| ≤ L * s) :
    |f (x + t • Pi.single k 1) - f x - d 0 * t| ≤ L * t ^ 2 / 2 := by
  rcases ht.lt_or_eq with ht | rfl
  · obtain ⟨D, hD, hb⟩ := C10_error_bound (W := Unit) (fun (n : ℕ) (y : Fin n → ℝ) => if h : n = m then f (h ▸ y) else 0)
      (Matrix.of fun (_ : Fin 1) => x) t ht () 0 k d L
      (fun s hs => by simp only [dif_pos]; exact hd s hs) hL
    obtain ⟨D', hD', hf⟩ := C10_formula (W := Unit) (fun (n : ℕ) (y : Fin n → ℝ) => if h : n = m then f (h ▸ y) else 0)
      (Matrix.of fun (_ : Fin 1) => x) t ()
    rw [hD] at hD'
    have e : D = D' := eq_of_heq (NpMat.mk.inj (Except.ok.inj (Prod.mk.inj hD').1)).2.2
    rw [e, hf] at hb
    simp only [dif_pos] at hb
    change |(f (x + t • Pi.single k 1) - f x) / t - d 0| ≤ _ at hb
    have e2 : f (x + t • Pi.single k 1) - f x - d 0 * t = ((f (x + t • Pi.single k 1) - f x) / t - d 0) * t := by
      field_simp
    rw [e2, abs_mul, abs_of_pos ht]
    nlinarith
  · simp

/-- C126: the error in double precision.  `f` is the function, `g` what the simulation computes for it, within `ε` at the
two points that are used.  If along coordinate `k` the derivative of `f` exists and is `L`-Lipschitz about the base
point, the result is within `B + 3 (|d 0| + B) 2^-53` of the partial derivative, `B = (L (h + ρ)^2 / 2 + 2 ε + |d 0| ρ) / h`
and `ρ = |x_ik + h| 2^-53`, the rounding of the step. -/
theorem C126_error (hr : Rounding rd) (g f : (m : ℕ) → (Fin m → ℝ) → ℝ) (X : Matrix (Fin M) (Fin m) ℝ)
    (hX : ∀ i j, IsDouble (X i j)) (h : ℝ) (hh : IsDouble h) (hpos : 0 < h) (w : W) (i : Fin M) (k : Fin m) (d : ℝ → ℝ)
    (L ε ρ B : ℝ) (hL0 : 0 ≤ L) (hρ : ρ = |X i k + h| / 2 ^ 53) (hB : B = (L * (h + ρ) ^ 2 / 2 + 2 * ε + |d 0| * ρ) / h)
    (hd : ∀ t ∈ Set.Icc 0 (h + ρ), HasDerivAt (fun t : ℝ => f m (X i + t • Pi.single k 1)) (d t) t)
    (hL : ∀ t ∈ Set.Icc 0 (h + ρ), |d t - d 0| ≤ L * t)
    (hg0 : |g m (X i) - f m (X i)| ≤ ε)
    (hg1 : |g m (Function.update (X i) k (rd (X i k + h))) - f m (Function.update (X i) k (rd (X i k + h)))| ≤ ε) :
    ∃ D : Matrix (Fin M) (Fin m) ℝ,
      (Model.Rounded.finite_difference_gradients rd (.mat (.of X)) (fun m x => pure (g m x)) h).run w = (.ok (.of D), w) ∧
        |D i k - d 0| ≤ B + 3 * (|d 0| + B) / 2 ^ 53 := by
  obtain ⟨D, hD, hf⟩ := C126_formula (W := W) hr g X hX h hh w
  refine ⟨D, hD, ?_⟩
  rw [hf]
  have hs := Proofs.Rounding.error hr (X i k + h)
  rw [← hρ] at hs
  have hs0 : X i k ≤ rd (X i k + h) := Proofs.Rounding.ge_of_double hr (hX i k) (by linarith)
  have hup : Function.update (X i) k (rd (X i k + h)) = X i + (rd (X i k + h) - X i k) • Pi.single k 1 := by
    funext j
    by_cases hj : j = k
    · subst hj
      simp
    · simp [hj]
  rw [hup] at hg1 ⊢
  obtain ⟨s, hsd⟩ : ∃ s, s = rd (X i k + h) - X i k := ⟨_, rfl⟩
  rw [← hsd] at hg1 ⊢
  have hs1 : 0 ≤ s := by linarith
  have hs2 : |s - h| ≤ ρ := by
    rw [hsd, show rd (X i k + h) - X i k - h = rd (X i k + h) - (X i k + h) by ring]
    exact hs
  have hs3 : s ≤ h + ρ := by linarith [(abs_le.mp hs2).2]
  have hdiff := difference_bound (f m) (X i) k s hs1 d L (fun t ht => hd t ⟨ht.1, ht.2.trans hs3⟩)
    (fun t ht => hL t ⟨ht.1, ht.2.trans hs3⟩)
  generalize g m (X i + s • Pi.single k 1) = g1 at *
  generalize f m (X i + s • Pi.single k 1) = f1 at *
  generalize g m (X i) = g0 at *
  generalize f m (X i) = f0 at *
  have k1 : |(g1 - g0) / h - d 0| ≤ B := by
    have e : (g1 - g0) / h - d 0 = ((f1 - f0 - d 0 * s) + (g1 - f1) - (g0 - f0) + d 0 * (s - h)) / h := by
      field_simp
      ring
    rw [e, abs_div, abs_of_pos hpos, hB]
    gcongr
    have l1 : |f1 - f0 - d 0 * s| ≤ L * (h + ρ) ^ 2 / 2 := hdiff.trans (by gcongr)
    have l2 : |d 0 * (s - h)| ≤ |d 0| * ρ := by
      rw [abs_mul]
      gcongr
    calc |f1 - f0 - d 0 * s + (g1 - f1) - (g0 - f0) + d 0 * (s - h)|
        ≤ |f1 - f0 - d 0 * s + (g1 - f1) - (g0 - f0)| + |d 0 * (s - h)| := abs_add_le _ _
      _ ≤ |f1 - f0 - d 0 * s + (g1 - f1)| + |g0 - f0| + |d 0 * (s - h)| := by gcongr; exact abs_sub _ _
      _ ≤ |f1 - f0 - d 0 * s| + |g1 - f1| + |g0 - f0| + |d 0 * (s - h)| := by gcongr; exact abs_add_le _ _
      _ ≤ L * (h + ρ) ^ 2 / 2 + 2 * ε + |d 0| * ρ := by linarith
  have k2 : |(g1 - g0) / h| ≤ |d 0| + B := by
    have : (g1 - g0) / h = d 0 + ((g1 - g0) / h - d 0) := by ring
    rw [this]
    exact (abs_add_le _ _).trans (by linarith)
  have k3 : |rd (g1 - g0) / h - (g1 - g0) / h| ≤ |(g1 - g0) / h| / 2 ^ 53 := by
    rw [← sub_div, abs_div, abs_div]
    have := Proofs.Rounding.error hr (g1 - g0)
    calc |rd (g1 - g0) - (g1 - g0)| / |h| ≤ |g1 - g0| / 2 ^ 53 / |h| := by gcongr
      _ = |g1 - g0| / |h| / 2 ^ 53 := by ring
  have k4 := Proofs.Rounding.error hr (rd (g1 - g0) / h)
  have k5 : |rd (g1 - g0) / h| ≤ 2 * |(g1 - g0) / h| := by
    have : rd (g1 - g0) / h = (g1 - g0) / h + (rd (g1 - g0) / h - (g1 - g0) / h) := by ring
    rw [this]
    refine (abs_add_le _ _).trans ?_
    have : |(g1 - g0) / h| / 2 ^ 53 ≤ |(g1 - g0) / h| := div_le_self (abs_nonneg _) (by norm_num)
    linarith
  have e : rd (rd (g1 - g0) / h) - d 0 = (rd (rd (g1 - g0) / h) - rd (g1 - g0) / h)
      + ((rd (g1 - g0) / h - (g1 - g0) / h) + ((g1 - g0) / h - d 0)) := by ring
  rw [e]
  refine (abs_add_le _ _).trans ((add_le_add k4 ((abs_add_le _ _).trans (add_le_add k3 k1))).trans ?_)
  have k6 : |rd (g1 - g0) / h| / 2 ^ 53 ≤ 2 * (|d 0| + B) / 2 ^ 53 := by
    gcongr
    exact k5.trans (by linarith)
  have k7 : |(g1 - g0) / h| / 2 ^ 53 ≤ (|d 0| + B) / 2 ^ 53 := by gcongr
  calc |rd (g1 - g0) / h| / 2 ^ 53 + (|(g1 - g0) / h| / 2 ^ 53 + B)
      ≤ 2 * (|d 0| + B) / 2 ^ 53 + ((|d 0| + B) / 2 ^ 53 + B) := by gcongr
    _ = B + 3 * (|d 0| + B) / 2 ^ 53 := by ring

/-- C126, a limitation: where the coordinate is more than 2^54 steps the perturbed point is the base point, and the result
is 0 for every function.  With the default step this happens from about 1.8e10 on. -/
theorem C126_absorbed (hr : Rounding rd) (g : (m : ℕ) → (Fin m → ℝ) → ℝ) (X : Matrix (Fin M) (Fin m) ℝ)
    (hX : ∀ i j, IsDouble (X i j)) (h : ℝ) (hh : IsDouble h) (hpos : 0 < h) (w : W) :
    ∃ D : Matrix (Fin M) (Fin m) ℝ,
      (Model.Rounded.finite_difference_gradients rd (.mat (.of X)) (fun m x => pure (g m x)) h).run w = (.ok (.of D), w) ∧
        ∀ i k, h < X i k / 2 ^ 54 → D i k = 0 := by
  obtain ⟨D, hD, hf⟩ := C126_formula (W := W) hr g X hX h hh w
  refine ⟨D, hD, fun i k hk => ?_⟩
  rw [hf, Rounded.absorbed hr (hX i k) hpos hk, Function.update_eq_self, sub_self, Proofs.Rounding.zero hr, zero_div,
    Proofs.Rounding.zero hr]

/-- `1e-6`, the default step, as Python reads it. -/
noncomputable def defaultStep : ℝ := 4722366482869645 / 2 ^ 72

theorem defaultStep_double : IsDouble defaultStep := ⟨4722366482869645, -72, by norm_num, by norm_num [defaultStep]⟩

/-- C126: with the default step and coordinates in [-1, 1], in numbers. -/
theorem C126_default (hr : Rounding rd) (g f : (m : ℕ) → (Fin m → ℝ) → ℝ) (X : Matrix (Fin M) (Fin m) ℝ)
    (hX : ∀ i j, IsDouble (X i j)) (w : W) (i : Fin M) (k : Fin m) (hx : |X i k| ≤ 1) (d : ℝ → ℝ) (L ε : ℝ) (hL0 : 0 ≤ L)
    (hd : ∀ t ∈ Set.Icc 0 (2 / 10 ^ 6), HasDerivAt (fun t : ℝ => f m (X i + t • Pi.single k 1)) (d t) t)
    (hL : ∀ t ∈ Set.Icc 0 (2 / 10 ^ 6), |d t - d 0| ≤ L * t) (hg : ∀ y, |g m y - f m y| ≤ ε) :
    ∃ D : Matrix (Fin M) (Fin m) ℝ,
      (Model.Rounded.finite_difference_gradients rd (.mat (.of X)) (fun m x => pure (g m x)) defaultStep).run w = (.ok (.of D), w) ∧
        |D i k - d 0| ≤ L * (6 / 10 ^ 7) + ε * (21 * 10 ^ 5) + |d 0| * (2 / 10 ^ 10) := by
  have h1 : defaultStep ≤ 101 / 10 ^ 8 := by norm_num [defaultStep]
  have h2 : 99 / 10 ^ 8 ≤ defaultStep := by norm_num [defaultStep]
  have hpos : 0 < defaultStep := by norm_num [defaultStep]
  obtain ⟨ρ, hρ⟩ : ∃ ρ, ρ = |X i k + defaultStep| / 2 ^ 53 := ⟨_, rfl⟩
  obtain ⟨B, hB⟩ : ∃ B, B = (L * (defaultStep + ρ) ^ 2 / 2 + 2 * ε + |d 0| * ρ) / defaultStep := ⟨_, rfl⟩
  have hρ0 : 0 ≤ ρ := by rw [hρ]; positivity
  have hρ1 : ρ ≤ 12 / 10 ^ 17 := by
    have : |X i k + defaultStep| ≤ 1 + 101 / 10 ^ 8 := (abs_add_le _ _).trans (by rw [abs_of_pos hpos]; linarith)
    rw [hρ, div_le_iff₀ (by norm_num)]
    norm_num at this ⊢
    linarith
  have hle : defaultStep + ρ ≤ 2 / 10 ^ 6 := by
    norm_num at *
    linarith
  have hε : 0 ≤ ε := (abs_nonneg _).trans (hg (X i))
  obtain ⟨D, hD, hb⟩ := C126_error (W := W) hr g f X hX defaultStep defaultStep_double hpos w i k d L ε ρ B hL0 hρ hB
    (fun t ht => hd t ⟨ht.1, ht.2.trans hle⟩) (fun t ht => hL t ⟨ht.1, ht.2.trans hle⟩) (hg _) (hg _)
  refine ⟨D, hD, hb.trans ?_⟩
  have hB1 : B ≤ L * (55 / 10 ^ 8) + ε * (205 * 10 ^ 4) + |d 0| * (13 / 10 ^ 11) := by
    have c1 : (defaultStep + ρ) ^ 2 ≤ (102 / 10 ^ 8) ^ 2 := by
      gcongr
      norm_num at *
      linarith
    have c2 : (defaultStep + ρ) ^ 2 / 2 ≤ 55 / 10 ^ 8 * defaultStep := by
      norm_num at *
      linarith
    have c3 := mul_le_mul_of_nonneg_left c2 hL0
    have c4 : (2 : ℝ) ≤ 205 * 10 ^ 4 * defaultStep := by
      norm_num at *
      linarith
    have c5 := mul_le_mul_of_nonneg_left c4 hε
    have c6 : ρ ≤ 13 / 10 ^ 11 * defaultStep := by
      norm_num at *
      linarith
    have c7 := mul_le_mul_of_nonneg_left c6 (abs_nonneg (d 0))
    rw [hB, div_le_iff₀ hpos]
    linarith
  have hd0 := abs_nonneg (d 0)
  have hB2 : 3 * (|d 0| + B) / 2 ^ 53 ≤ (|d 0| + (L * (55 / 10 ^ 8) + ε * (205 * 10 ^ 4) + |d 0| * (13 / 10 ^ 11))) / 10 ^ 15 := by
    rw [div_le_div_iff₀ (by norm_num) (by norm_num)]
    have : 0 ≤ L * (55 / 10 ^ 8) + ε * (205 * 10 ^ 4) + |d 0| * (13 / 10 ^ 11) := by positivity
    nlinarith
  norm_num at *
  linarith

/-- The hypotheses of C126_error are met by `x ↦ x^2` at 1, computed exactly, with a step of 2^-20. -/
example (hr : Rounding rd) : ∃ D : Matrix (Fin 1) (Fin 1) ℝ,
    (Model.Rounded.finite_difference_gradients rd (W := Unit) (.mat (.of !![1])) (fun _ x => pure (∑ j, x j ^ 2)) (1 / 2 ^ 20)).run ()
      = (.ok (.of D), ()) ∧ |D 0 0 - 2| ≤ 1 / 2 ^ 19 := by
  have h1 : ∀ i j : Fin 1, IsDouble ((!![1] : Matrix (Fin 1) (Fin 1) ℝ) i j) := by
    intro i j
    fin_cases i; fin_cases j
    exact Rounded.oneD
  have := C126_error (W := Unit) hr (fun _ x => ∑ j, x j ^ 2) (fun _ x => ∑ j, x j ^ 2) (!![1] : Matrix (Fin 1) (Fin 1) ℝ) h1 (1 / 2 ^ 20)
    ⟨1, -20, by norm_num, by norm_num⟩ (by norm_num) () 0 0 (fun t => 2 * (1 + t)) 2 0 _ _ (by norm_num) rfl rfl ?_ ?_ (by simp) (by simp)
  · obtain ⟨D, hD, hb⟩ := this
    refine ⟨D, hD, ?_⟩
    simp only [add_zero, mul_one, Matrix.of_apply, Matrix.cons_val', Matrix.cons_val_zero, Matrix.cons_val_fin_one] at hb
    refine hb.trans ?_
    norm_num [abs_of_pos]
  · intro t _
    have : (fun t : ℝ => ∑ j : Fin 1, (((!![1] : Matrix (Fin 1) (Fin 1) ℝ) 0 : Fin 1 → ℝ) + t • (Pi.single (0 : Fin 1) 1 : Fin 1 → ℝ)) j ^ 2)
        = fun t => (1 + t) ^ 2 := by
      funext t; simp
    rw [this]
    have h2 := ((hasDerivAt_id t).const_add 1).pow 2
    exact h2.congr_deriv (by simp)
  · intro t ht
    rw [show (2 * (1 + t) - 2 * (1 + 0) : ℝ) = 2 * t by ring, abs_of_nonneg (by linarith [ht.1])]

/-- The double 2e10 is more than 2^54 default steps, and the identity has derivative 1 there: the result is 0. -/
example (hr : Rounding rd) : ∃ D : Matrix (Fin 1) (Fin 1) ℝ,
    (Model.Rounded.finite_difference_gradients rd (W := Unit) (.mat (.of !![2 * 10 ^ 10])) (fun _ x => pure (∑ j, x j)) defaultStep).run ()
      = (.ok (.of D), ()) ∧ D 0 0 = 0 := by
  have h1 : ∀ i j : Fin 1, IsDouble ((!![2 * 10 ^ 10] : Matrix (Fin 1) (Fin 1) ℝ) i j) := by
    intro i j
    fin_cases i; fin_cases j
    exact ⟨2 * 10 ^ 10, 0, by norm_num, by norm_num⟩
  obtain ⟨D, hD, h⟩ := C126_absorbed (W := Unit) hr (fun _ x => ∑ j, x j) (!![2 * 10 ^ 10] : Matrix (Fin 1) (Fin 1) ℝ) h1 defaultStep
    defaultStep_double (by norm_num [defaultStep]) ()
  exact ⟨D, hD, h 0 0 (by norm_num [defaultStep])⟩

end Props
