import Verif.Props.MonteCarlo
import Verif.Props.Regression
import Verif.Props.TensorExact
import Verif.Proofs.LsqLaw
import Verif.Proofs.Rotation

/-!
# Property C121: what `ols_subspace` estimates

For many samples the direction is that of the best linear approximation in the mean square.  For functions of one linear form
of Gaussian inputs this is the direction of the form; for uniform inputs it is not in general.
-/

open Py Model.Subspaces Model.Misc Spec Matrix Proofs.LsqLaw Proofs.Rotation MeasureTheory ProbabilityTheory Filter
open scoped Topology

namespace Props

variable {Ω : Type} [MeasurableSpace Ω] {μ : Measure Ω} {M m : ℕ}

/-- The values of `1, x_1, …, x_m`. -/
theorem affine_features (u : Fin (1 + m) → ℝ) (y : Fin m → ℝ) :
    ∑ j, u j * Fin.append (fun _ : Fin 1 => (1 : ℝ)) y j = u (Fin.castAdd m 0) + ∑ k, y k * u (Fin.natAdd 1 k) := by
  rw [Fin.sum_univ_add, Fin.sum_univ_one]
  simp only [Fin.append_left, Fin.append_right, mul_one]
  congr 1
  exact Finset.sum_congr rfl fun k _ => mul_comm _ _

theorem affine_param (u : Fin (1 + m) → ℝ) : u = Fin.append (fun _ : Fin 1 => u (Fin.castAdd m 0)) fun k => u (Fin.natAdd 1 k) := by
  funext j
  refine Fin.addCases (fun i => ?_) (fun i => ?_) j
  · rw [Fin.append_left, Subsingleton.elim i 0]
  · rw [Fin.append_right]

/-- C121: for independent inputs with distribution `ν` and outputs `F` of finite second moments, where no affine function vanishes almost surely, the first
eigenvalue of `ols_subspace` converges almost surely to the squared length of the slope `s` of the best affine approximation in the mean square, the others
are zero, and the first eigenvector converges up to sign to the direction of `s`. -/
theorem C121_limit (lib : Model.Subspaces.Lib) (hl : SubLibOK lib) (hm : 0 < m) {ν : Measure (Fin m → ℝ)} {x : ℕ → Ω → Fin m → ℝ} (hx : ∀ i, MeasurePreserving (x i) μ ν)
    (hind : Pairwise fun i j => IndepFun (x i) (x j) μ) [IsFiniteMeasure ν] {F : (Fin m → ℝ) → ℝ} (hFm : Measurable F) (hsq : ∀ k, MemLp (fun y : Fin m → ℝ => y k) 2 ν)
    (hF : MemLp F 2 ν) (hdet : ∀ (a : ℝ) (s : Fin m → ℝ), ∫ y, (a + ∑ k, y k * s k) ^ 2 ∂ν = 0 → a = 0 ∧ s = 0) {a : ℝ} {s : Fin m → ℝ}
    (hs : ∀ (a' : ℝ) (s' : Fin m → ℝ), ∫ y, (a + ∑ k, y k * s k - F y) ^ 2 ∂ν ≤ ∫ y, (a' + ∑ k, y k * s' k - F y) ^ 2 ∂ν) :
    ∀ᵐ ω ∂μ, ∃ (e : ℕ → Fin m → ℝ) (V : ℕ → Matrix (Fin m) (Fin m) ℝ),
      (∀ M : ℕ, ols_subspace lib (.mat (NpMat.of (rowsOf x M ω))) (.mat (wcol fun i : Fin M => F (x i ω))) (wcol fun _ : Fin M => 1 / (M : ℝ)) = .ok ⟨m, e M, V M⟩) ∧
      (∀ M, ∀ j : Fin m, (j : ℕ) ≠ 0 → e M j = 0) ∧ Tendsto (fun M => e M ⟨0, hm⟩) atTop (𝓝 (∑ k, s k ^ 2)) ∧
      (s ≠ 0 → ∀ k l, Tendsto (fun M => V M k ⟨0, hm⟩ * V M l ⟨0, hm⟩) atTop (𝓝 (s k * s l / ∑ i, s i ^ 2))) := by
  have h1 := lsq_law_of (p := 1 + m) (φ := fun j y => Fin.append (fun _ : Fin 1 => (1 : ℝ)) y j) (F := F) (u := Fin.append (fun _ : Fin 1 => a) s) hx hind
    (fun j => ?_) hFm (fun j => ?_) hF (fun v hv => ?_) (fun v => ?_)
  rotate_left
  · refine Fin.addCases (fun i => ?_) (fun i => ?_) j
    · simp only [Fin.append_left]
      exact measurable_const
    · simp only [Fin.append_right]
      exact measurable_pi_apply i
  · refine Fin.addCases (fun i => ?_) (fun i => ?_) j
    · simp only [Fin.append_left]
      exact memLp_const 1
    · simp only [Fin.append_right]
      exact hsq i
  · simp only [affine_features] at hv
    obtain ⟨h1, h2⟩ := hdet _ _ hv
    rw [affine_param v, h1]
    funext j
    refine Fin.addCases (fun i => ?_) (fun i => ?_) j
    · rw [Fin.append_left]
      rfl
    · rw [Fin.append_right]
      exact congrFun h2 i
  · simp only [affine_features, Fin.append_left, Fin.append_right]
    exact hs _ _
  filter_upwards [h1] with ω hω
  have h2 := fun M : ℕ => C36_ols lib hl hm (rowsOf x M ω) (fun i => F (x i ω)) (fun _ => 1 / (M : ℝ)) fun _ => by positivity
  choose e V a' s' h3 h4 h5 h6 h7 h8 h9 using h2
  have h10 := hω (fun M => Fin.append (fun _ : Fin 1 => a' M) (s' M)) (by
    filter_upwards [eventually_gt_atTop 0] with M hM v
    have hM' : (0 : ℝ) < 1 / (M : ℝ) := by positivity
    have h := h4 M (v (Fin.castAdd m 0)) fun k => v (Fin.natAdd 1 k)
    rw [← Finset.mul_sum, ← Finset.mul_sum] at h
    have h := le_of_mul_le_mul_left h hM'
    simp only [affine_features, Fin.append_left, Fin.append_right]
    exact h)
  have h11 : ∀ k, Tendsto (fun M => s' M k) atTop (𝓝 (s k)) := fun k => by
    have := h10 (Fin.natAdd 1 k)
    simpa only [Fin.append_right] using this
  have h12 : Tendsto (fun M => e M ⟨0, hm⟩) atTop (𝓝 (∑ k, s k ^ 2)) := by
    simp only [h5]
    exact tendsto_finsetSum _ fun k _ => (h11 k).pow 2
  refine ⟨e, V, h3, h6, h12, fun hs0 k l => ?_⟩
  have hpos : ∑ i, s i ^ 2 ≠ 0 := fun h => hs0 (funext fun i => by
    have := (Finset.sum_eq_zero_iff_of_nonneg fun i _ => sq_nonneg (s i)).mp h i (Finset.mem_univ i)
    exact pow_eq_zero_iff (by norm_num) |>.mp this)
  refine (((h11 k).mul (h11 l)).div h12 hpos).congr' ?_
  filter_upwards [h12.eventually_ne hpos] with M hM
  obtain ⟨c, hc, hsv⟩ := h7 M
  change s' M k * s' M l / e M ⟨0, hm⟩ = _
  rw [hsv k, hsv l, div_eq_iff hM, h5 M, ← hc]
  ring

/-- C121: `compute` with `sstype='OLS'` and the default weights: if the best affine approximation is not constant, almost surely for all large samples one
active direction is chosen, and it converges up to sign to the direction of the slope. -/
theorem C121_compute {S : Type} (lib : Model.Subspaces.Lib) (hl : SubLibOK lib) (rng : Rng S) (w : S × Subspaces) (hm : 2 ≤ m) {ν : Measure (Fin m → ℝ)} {x : ℕ → Ω → Fin m → ℝ}
    (hx : ∀ i, MeasurePreserving (x i) μ ν) (hind : Pairwise fun i j => IndepFun (x i) (x j) μ) [IsFiniteMeasure ν] {F : (Fin m → ℝ) → ℝ} (hFm : Measurable F)
    (hsq : ∀ k, MemLp (fun y : Fin m → ℝ => y k) 2 ν) (hF : MemLp F 2 ν)
    (hdet : ∀ (a : ℝ) (s : Fin m → ℝ), ∫ y, (a + ∑ k, y k * s k) ^ 2 ∂ν = 0 → a = 0 ∧ s = 0) {a : ℝ} {s : Fin m → ℝ}
    (hs : ∀ (a' : ℝ) (s' : Fin m → ℝ), ∫ y, (a + ∑ k, y k * s k - F y) ^ 2 ∂ν ≤ ∫ y, (a' + ∑ k, y k * s' k - F y) ^ 2 ∂ν) (hs0 : s ≠ 0) :
    ∀ᵐ ω ∂μ, ∃ (V1 : ℕ → Matrix (Fin m) (Fin 1) ℝ) (w' : ℕ → S × Subspaces),
      (∀ᶠ M : ℕ in atTop, (compute lib rng (some (.mat (NpMat.of (rowsOf x M ω)))) (some (.mat (wcol fun i : Fin M => F (x i ω)))) none none "OLS" "EVG" 0).run w
        = (.ok (), w' M) ∧ (w' M).2.W1 = some (NpMat.of (V1 M))) ∧
      ∀ k l, Tendsto (fun M => V1 M k 0 * V1 M l 0) atTop (𝓝 (s k * s l / ∑ i, s i ^ 2)) := by
  have hm0 : 0 < m := by omega
  have hpos : 0 < ∑ i, s i ^ 2 := by
    obtain ⟨i, hi⟩ := Function.ne_iff.mp hs0
    have hi' : s i ≠ 0 := hi
    exact Finset.sum_pos' (fun i _ => sq_nonneg _) ⟨i, Finset.mem_univ i, by positivity⟩
  filter_upwards [C121_limit lib hl hm0 hx hind hFm hsq hF hdet hs] with ω ⟨e, V, h1, h2, h3, h4⟩
  have hlim : ∀ j, Tendsto (fun M => e M j) atTop (𝓝 ((fun j : Fin m => if (j : ℕ) = 0 then ∑ i, s i ^ 2 else 0) j)) := fun j => by
    by_cases hj : (j : ℕ) = 0
    · simp only [if_pos hj]
      rw [show j = ⟨0, hm0⟩ from Fin.ext hj]
      exact h3
    · simp only [if_neg hj, fun M => h2 M j hj]
      exact tendsto_const_nhds
  have hgap := gap_tendsto hlim le_rfl (by omega : 1 < m) fun k hk1 hk hkn => by
    have e1 : ¬ k = 0 := by omega
    have e2 : ¬ k - 1 = 0 := by omega
    simp only [if_neg e1, if_neg e2, sub_zero, abs_zero, Nat.sub_self, if_true, one_ne_zero, if_false]
    exact abs_pos.mpr hpos.ne'
  have hrun : ∀ M, ∃ (V1 : Matrix (Fin m) (Fin 1) ℝ) (w' : S × Subspaces), 0 < M → (∃ d, eig_partition (e M) = .ok (1, d)) →
      (compute lib rng (some (.mat (NpMat.of (rowsOf x M ω)))) (some (.mat (wcol fun i : Fin M => F (x i ω)))) none none "OLS" "EVG" 0).run w = (.ok (), w') ∧
        w'.2.W1 = some (NpMat.of V1) ∧ ∀ k j, V1 k j = V M k (Fin.castLE (by omega) j) := by
    intro M
    by_cases hM : 0 < M ∧ ∃ d, eig_partition (e M) = .ok (1, d)
    swap
    · exact ⟨0, w, fun h1 h2 => absurd ⟨h1, h2⟩ hM⟩
    obtain ⟨hM, d, hd⟩ := hM
    obtain ⟨e', V', w', hp, hc, hsplit, he', hV', -, -, hev⟩ := compute_ok hl rng hm hM (some (rowsOf x M ω)) (some fun i => F (x i ω)) none none
      (.inl (by simp)) "OLS" "EVG" .OLS rfl 0 w w ⟨m, e M, V M⟩ (by
        change (ols_subspace lib (.mat (NpMat.of (rowsOf x M ω))) (.mat (wcol fun i : Fin M => F (x i ω))) (wcol fun _ : Fin M => 1 / (M : ℝ)), w) = _
        rw [h1]) (fun h => absurd h (lt_irrefl _)) (.inl rfl)
    cases hp
    obtain ⟨n', d', V1, hd', hW1⟩ := hev rfl
    rw [hd] at hd'
    cases hd'
    refine ⟨V1, w', fun _ _ => ⟨hc, hW1, fun k j => ?_⟩⟩
    obtain ⟨m'', n'', V'', V1'', V2'', q1, q2, q3, q4, q5, q6, q7⟩ := hsplit
    rw [hV'] at q1
    rw [hW1] at q2
    cases q1
    cases q2
    exact q6 k (Fin.castLE (by omega) j) j rfl
  choose V1 w' hr using hrun
  have hev : ∀ᶠ M : ℕ in atTop, 0 < M ∧ ∃ d, eig_partition (e M) = .ok (1, d) := (eventually_gt_atTop 0).and hgap
  refine ⟨V1, w', ?_, fun k l => ?_⟩
  · filter_upwards [hev] with M hM
    obtain ⟨q1, q2, -⟩ := hr M hM.1 hM.2
    exact ⟨q1, q2⟩
  · refine (h4 hs0 k l).congr' ?_
    filter_upwards [hev] with M hM
    obtain ⟨-, -, q⟩ := hr M hM.1 hM.2
    rw [q, q]
    rfl

/-! ## Uncorrelated inputs -/

/-- Centred uncorrelated inputs of equal variance `v`. -/
structure White (ν : Measure (Fin m → ℝ)) (v : ℝ) : Prop where
  pos : 0 < v
  sq : ∀ k, MemLp (fun y : Fin m → ℝ => y k) 2 ν
  mean : ∀ k, ∫ y, y k ∂ν = 0
  cov : ∀ k l, ∫ y, y k * y l ∂ν = if k = l then v else 0

variable {ν : Measure (Fin m → ℝ)} [IsProbabilityMeasure ν] {v : ℝ}

theorem White.affine (h : White ν v) (a : ℝ) (s : Fin m → ℝ) : MemLp (fun y : Fin m → ℝ => a + ∑ k, y k * s k) 2 ν :=
  (memLp_const a).add (memLp_finsetSum _ fun k _ => (h.sq k).mul_const (s k))

theorem White.integrable (h : White ν v) (k : Fin m) : Integrable (fun y : Fin m → ℝ => y k) ν := (h.sq k).integrable (by norm_num)

theorem White.affine_sq (h : White ν v) (a : ℝ) (s : Fin m → ℝ) : ∫ y, (a + ∑ k, y k * s k) ^ 2 ∂ν = a ^ 2 + v * ∑ k, s k ^ 2 := by
  have hi : ∀ k l, Integrable (fun y : Fin m → ℝ => y k * y l * (s k * s l)) ν := fun k l => ((h.sq k).integrable_mul (h.sq l)).mul_const _
  have e : ∀ y : Fin m → ℝ, (a + ∑ k, y k * s k) ^ 2 = a ^ 2 + (∑ k, y k * (2 * a * s k) + ∑ k, ∑ l, y k * y l * (s k * s l)) := fun y => by
    have h1 : (∑ k, y k * s k) ^ 2 = ∑ k, ∑ l, y k * y l * (s k * s l) := by
      rw [_root_.sq, Finset.sum_mul_sum]
      exact Finset.sum_congr rfl fun k _ => Finset.sum_congr rfl fun l _ => by ring
    have h2 : ∑ k, y k * (2 * a * s k) = 2 * a * ∑ k, y k * s k := by
      rw [Finset.mul_sum]
      exact Finset.sum_congr rfl fun k _ => by ring
    rw [← h1, h2]
    ring
  have i1 : Integrable (fun y : Fin m → ℝ => ∑ k, y k * (2 * a * s k)) ν := integrable_finsetSum _ fun k _ => (h.integrable k).mul_const _
  have i2 : Integrable (fun y : Fin m → ℝ => ∑ k, ∑ l, y k * y l * (s k * s l)) ν := integrable_finsetSum _ fun k _ => integrable_finsetSum _ fun l _ => hi k l
  have i3 : Integrable (fun y : Fin m → ℝ => ∑ k, y k * (2 * a * s k) + ∑ k, ∑ l, y k * y l * (s k * s l)) ν := i1.add i2
  simp only [e]
  rw [integral_add (integrable_const _) i3, integral_add i1 i2, integral_finsetSum _ fun k _ => (h.integrable k).mul_const _,
    integral_finsetSum _ fun k _ => integrable_finsetSum _ fun l _ => hi k l]
  simp only [integral_finsetSum _ fun l _ => hi _ l, integral_mul_const, h.mean, h.cov, integral_const, probReal_univ, one_smul, zero_mul,
    Finset.sum_const_zero, zero_add, ite_mul, Finset.sum_ite_eq, Finset.mem_univ, if_true]
  congr 1
  rw [Finset.mul_sum]
  exact Finset.sum_congr rfl fun k _ => by ring

theorem White.det (h : White ν v) (a : ℝ) (s : Fin m → ℝ) (h0 : ∫ y, (a + ∑ k, y k * s k) ^ 2 ∂ν = 0) : a = 0 ∧ s = 0 := by
  rw [h.affine_sq] at h0
  have h1 : 0 ≤ v * ∑ k, s k ^ 2 := mul_nonneg h.pos.le (Finset.sum_nonneg fun k _ => sq_nonneg _)
  have h2 : a ^ 2 = 0 := by nlinarith [sq_nonneg a]
  have h3 : ∑ k, s k ^ 2 = 0 := by
    have : v * ∑ k, s k ^ 2 = 0 := by linarith
    exact (mul_eq_zero.mp this).resolve_left h.pos.ne'
  refine ⟨pow_eq_zero_iff (by norm_num) |>.mp h2, funext fun i => ?_⟩
  have := (Finset.sum_eq_zero_iff_of_nonneg fun i _ => sq_nonneg (s i)).mp h3 i (Finset.mem_univ i)
  exact pow_eq_zero_iff (by norm_num) |>.mp this

/-- The slope of the best affine approximation is the vector of covariances divided by the variance. -/
theorem White.best (h : White ν v) {F : (Fin m → ℝ) → ℝ} (hF : MemLp F 2 ν) (a' : ℝ) (s' : Fin m → ℝ) :
    ∫ y, ((∫ z, F z ∂ν) + ∑ k, y k * ((∫ z, z k * F z ∂ν) / v) - F y) ^ 2 ∂ν ≤ ∫ y, (a' + ∑ k, y k * s' k - F y) ^ 2 ∂ν := by
  set a := ∫ z, F z ∂ν
  set s : Fin m → ℝ := fun k => (∫ z, z k * F z ∂ν) / v with hs
  set r : (Fin m → ℝ) → ℝ := fun y => a + ∑ k, y k * s k - F y with hr
  have hrL : MemLp r 2 ν := (h.affine a s).sub hF
  have hFi : Integrable F ν := hF.integrable (by norm_num)
  have i1 : Integrable (fun y : Fin m → ℝ => ∑ k, y k * s k) ν := integrable_finsetSum _ fun k _ => (h.integrable k).mul_const _
  have i0 : Integrable (fun y : Fin m → ℝ => a + ∑ k, y k * s k) ν := (integrable_const a).add i1
  have hr0 : ∫ y, r y ∂ν = 0 := by
    rw [hr]
    beta_reduce
    rw [integral_sub i0 hFi, integral_add (integrable_const a) i1, integral_finsetSum _ fun k _ => (h.integrable k).mul_const _]
    simp only [integral_mul_const, h.mean, integral_const, probReal_univ, one_smul, zero_mul, Finset.sum_const_zero, add_zero]
    exact sub_self a
  have hrk : ∀ k, ∫ y, y k * r y ∂ν = 0 := fun k => by
    have e : ∀ y : Fin m → ℝ, y k * r y = (y k * a + ∑ l, y k * y l * s l) - y k * F y := fun y => by
      have h1 : ∑ l, y k * y l * s l = y k * ∑ l, y l * s l := by
        rw [Finset.mul_sum]
        exact Finset.sum_congr rfl fun l _ => by ring
      rw [h1, hr]
      ring
    have i2 : ∀ l, Integrable (fun y : Fin m → ℝ => y k * y l * s l) ν := fun l => ((h.sq k).integrable_mul (h.sq l)).mul_const _
    have i3 : Integrable (fun y : Fin m → ℝ => ∑ l, y k * y l * s l) ν := integrable_finsetSum _ fun l _ => i2 l
    have i4 : Integrable (fun y : Fin m → ℝ => y k * F y) ν := (h.sq k).integrable_mul hF
    have i5 : Integrable (fun y : Fin m → ℝ => y k * a + ∑ l, y k * y l * s l) ν := ((h.integrable k).mul_const a).add i3
    simp only [e]
    rw [integral_sub i5 i4, integral_add ((h.integrable k).mul_const a) i3, integral_finsetSum _ fun l _ => i2 l]
    simp only [integral_mul_const, h.mean, h.cov, zero_mul, zero_add, ite_mul, Finset.sum_ite_eq, Finset.mem_univ, if_true, hs]
    rw [mul_div_cancel₀ _ h.pos.ne', sub_self]
  have e2 : ∀ y : Fin m → ℝ, (a' + ∑ k, y k * s' k - F y) ^ 2
      = r y ^ 2 + (2 * ((a' - a) * r y + ∑ k, (s' k - s k) * (y k * r y)) + ((a' - a) + ∑ k, y k * (s' k - s k)) ^ 2) := fun y => by
    have h1 : ∑ k, (s' k - s k) * (y k * r y) = (∑ k, y k * s' k - ∑ k, y k * s k) * r y := by
      rw [← Finset.sum_sub_distrib, Finset.sum_mul]
      exact Finset.sum_congr rfl fun l _ => by ring
    have h2 : ∑ k, y k * (s' k - s k) = ∑ k, y k * s' k - ∑ k, y k * s k := by
      rw [← Finset.sum_sub_distrib]
      exact Finset.sum_congr rfl fun l _ => by ring
    rw [h1, h2, hr]
    ring
  have hri : Integrable r ν := hrL.integrable (by norm_num)
  have i5 : ∀ k, Integrable (fun y : Fin m → ℝ => (s' k - s k) * (y k * r y)) ν := fun k => ((h.sq k).integrable_mul hrL).const_mul _
  have i6 : Integrable (fun y : Fin m → ℝ => ∑ k, (s' k - s k) * (y k * r y)) ν := integrable_finsetSum _ fun k _ => i5 k
  have i7 : Integrable (fun y : Fin m → ℝ => (a' - a) * r y + ∑ k, (s' k - s k) * (y k * r y)) ν := (hri.const_mul _).add i6
  have i8 : Integrable (fun y : Fin m → ℝ => ((a' - a) + ∑ k, y k * (s' k - s k)) ^ 2) ν := (h.affine (a' - a) fun k => s' k - s k).integrable_sq
  have i9 : Integrable (fun y : Fin m → ℝ => 2 * ((a' - a) * r y + ∑ k, (s' k - s k) * (y k * r y)) + ((a' - a) + ∑ k, y k * (s' k - s k)) ^ 2) ν :=
    (i7.const_mul 2).add i8
  simp only [e2]
  rw [integral_add hrL.integrable_sq i9, integral_add (i7.const_mul 2) i8, integral_const_mul, integral_add (hri.const_mul _) i6, integral_const_mul,
    integral_finsetSum _ fun k _ => i5 k, hr0]
  simp only [integral_const_mul, hrk, mul_zero, Finset.sum_const_zero, add_zero, zero_add]
  exact le_add_of_nonneg_right (integral_nonneg fun y => sq_nonneg _)

/-- Independent components of the same centred distribution. -/
theorem uncorrelated_pi {ρ : Measure ℝ} [IsProbabilityMeasure ρ] (h2 : MemLp (fun t : ℝ => t) 2 ρ) (h0 : ∫ t, t ∂ρ = 0) (hv : 0 < ∫ t, t ^ 2 ∂ρ) :
    White (Measure.pi fun _ : Fin m => ρ) (∫ t, t ^ 2 ∂ρ) := by
  have hp := fun k : Fin m => measurePreserving_eval (fun _ : Fin m => ρ) k
  have e : ∀ (g : ℝ → ℝ) (k : Fin m), Measurable g → ∫ y : Fin m → ℝ, g (y k) ∂(Measure.pi fun _ : Fin m => ρ) = ∫ t, g t ∂ρ := fun g k hg => by
    conv_rhs => rw [← (hp k).map_eq, integral_map (hp k).measurable.aemeasurable hg.aestronglyMeasurable]
  refine ⟨hv, fun k => h2.comp_measurePreserving (hp k), fun k => (e (fun t => t) k measurable_id).trans h0, fun k l => ?_⟩
  split
  · next h =>
    subst h
    rw [← e (fun t => t ^ 2) k (measurable_id.pow_const 2)]
    exact integral_congr_ae (Eventually.of_forall fun y => (_root_.sq (y k)).symm)
  · next h =>
    have hi := (iIndepFun_pi (μ := fun _ : Fin m => ρ) (X := fun _ t => t) fun _ => aemeasurable_id).indepFun h
    have := hi.integral_fun_mul_eq_mul_integral (measurable_pi_apply k).aestronglyMeasurable (measurable_pi_apply l).aestronglyMeasurable
    rw [this, e (fun t => t) k measurable_id, h0, zero_mul]

theorem white_normal : White (normal m) 1 := by
  have h1 : ∫ t, t ^ 2 ∂(gaussianReal 0 1) = 1 := by
    have := variance_fun_id_gaussianReal (μ := 0) (v := 1)
    rw [variance_eq_integral (by fun_prop), integral_id_gaussianReal] at this
    simpa using this
  have := uncorrelated_pi (m := m) (ρ := gaussianReal 0 1) (memLp_id_gaussianReal' 2 (by simp)) (by simp) (by rw [h1]; norm_num)
  rwa [h1] at this

/-! ## Gaussian inputs -/

/-- A linear form orthogonal to `w` is uncorrelated with every function of `w · y`. -/
theorem normal_orthogonal {w u : Fin m → ℝ} (h : ∑ k, w k * u k = 0) {g : ℝ → ℝ} (hg : Measurable g) :
    ∫ y, (∑ k, u k * y k) * g (∑ k, w k * y k) ∂(normal m) = 0 := by
  let R : EuclideanSpace ℝ (Fin m) ≃ₗᵢ[ℝ] EuclideanSpace ℝ (Fin m) := (Submodule.span ℝ {(WithLp.toLp 2 u : EuclideanSpace ℝ (Fin m))})ᗮ.reflection
  have hR : (stdGaussian (EuclideanSpace ℝ (Fin m))).map R = stdGaussian (EuclideanSpace ℝ (Fin m)) := stdGaussian_map R
  have hn : (normal m).map (WithLp.toLp 2) = stdGaussian (EuclideanSpace ℝ (Fin m)) := map_pi_eq_stdGaussian
  have hin : ∀ (a : Fin m → ℝ) (z : EuclideanSpace ℝ (Fin m)), ∑ k, a k * z k = inner ℝ (WithLp.toLp 2 a : EuclideanSpace ℝ (Fin m)) z := fun a z => by
    simp only [PiLp.inner_apply, RCLike.inner_apply, conj_trivial]
    exact Finset.sum_congr rfl fun k _ => mul_comm _ _
  have hRR : ∀ a z : EuclideanSpace ℝ (Fin m), inner ℝ a (R z) = inner ℝ (R a) z := fun a z => by
    rw [← R.inner_map_map a (R z)]
    congr 1
    exact Submodule.reflection_reflection _ z
  have hu : R (WithLp.toLp 2 u) = -(WithLp.toLp 2 u) := Submodule.reflection_orthogonalComplement_singleton_eq_neg _
  have hw : R (WithLp.toLp 2 w) = WithLp.toLp 2 w := by
    refine Submodule.reflection_mem_subspace_eq_self ?_
    rw [Submodule.mem_orthogonal_singleton_iff_inner_left, ← hin]
    exact h
  set G : EuclideanSpace ℝ (Fin m) → ℝ := fun z => (∑ k, u k * z k) * g (∑ k, w k * z k) with hG
  have hGm : Measurable G := by fun_prop
  have e1 : ∫ y, (∑ k, u k * y k) * g (∑ k, w k * y k) ∂(normal m) = ∫ z, G z ∂(stdGaussian (EuclideanSpace ℝ (Fin m))) := by
    rw [← hn, integral_map (by fun_prop) hGm.aestronglyMeasurable]
  have e2 : ∫ z, G z ∂(stdGaussian (EuclideanSpace ℝ (Fin m))) = ∫ z, G (R z) ∂(stdGaussian (EuclideanSpace ℝ (Fin m))) := by
    conv_lhs => rw [← hR]
    rw [integral_map R.continuous.measurable.aemeasurable hGm.aestronglyMeasurable]
  have e3 : ∀ z, G (R z) = -G z := fun z => by
    simp only [hG, hin, hRR, hu, hw, inner_neg_left, neg_mul]
  rw [e1]
  simp only [e3, integral_neg] at e2
  linarith

/-- The covariances with a function of `w · y` are proportional to `w`. -/
theorem normal_ridge {w : Fin m → ℝ} (hw : w ≠ 0) {g : ℝ → ℝ} (hg : Measurable g) (hL : MemLp (fun y : Fin m → ℝ => g (∑ k, w k * y k)) 2 (normal m)) (k : Fin m) :
    ∫ y, y k * g (∑ l, w l * y l) ∂(normal m) = (∫ y, (∑ l, w l * y l) * g (∑ l, w l * y l) ∂(normal m)) / (∑ l, w l ^ 2) * w k := by
  have hq : ∑ l, w l ^ 2 ≠ 0 := fun h => hw (funext fun i => by
    have := (Finset.sum_eq_zero_iff_of_nonneg fun i _ => sq_nonneg (w i)).mp h i (Finset.mem_univ i)
    exact pow_eq_zero_iff (by norm_num) |>.mp this)
  set q := ∑ l, w l ^ 2 with hqd
  have h0 := normal_orthogonal (w := w) (u := fun l => (if l = k then 1 else 0) - w k / q * w l) (by
    simp only [mul_sub, mul_ite, mul_one, mul_zero, Finset.sum_sub_distrib, Finset.sum_ite_eq', Finset.mem_univ, if_true]
    have : ∑ l, w l * (w k / q * w l) = w k / q * q := by
      rw [hqd, Finset.mul_sum]
      exact Finset.sum_congr rfl fun l _ => by ring
    rw [this, div_mul_cancel₀ _ hq, sub_self]) hg
  have e : ∀ y : Fin m → ℝ, (∑ l, ((if l = k then 1 else 0) - w k / q * w l) * y l) * g (∑ l, w l * y l)
      = y k * g (∑ l, w l * y l) - w k / q * ((∑ l, w l * y l) * g (∑ l, w l * y l)) := fun y => by
    have : ∑ l, ((if l = k then 1 else 0) - w k / q * w l) * y l = y k - w k / q * ∑ l, w l * y l := by
      simp only [sub_mul, ite_mul, one_mul, zero_mul, Finset.sum_sub_distrib, Finset.sum_ite_eq', Finset.mem_univ, if_true, Finset.mul_sum, mul_assoc]
    rw [this]
    ring
  have i1 : Integrable (fun y : Fin m → ℝ => y k * g (∑ l, w l * y l)) (normal m) := (white_normal.sq k).integrable_mul hL
  have i2 : Integrable (fun y : Fin m → ℝ => (∑ l, w l * y l) * g (∑ l, w l * y l)) (normal m) :=
    (memLp_finsetSum (f := fun l (y : Fin m → ℝ) => w l * y l) _ fun l _ => (white_normal.sq l).const_mul (w l)).integrable_mul hL
  simp only [e] at h0
  rw [integral_sub i1 (i2.const_mul _), integral_const_mul] at h0
  rw [sub_eq_zero.mp h0]
  ring

/-- C121: standard normal inputs and an output that depends on one linear form `w · x` and is correlated with it: the first eigenvector converges almost
surely up to sign to the direction of `w`. -/
theorem C121_ridge (lib : Model.Subspaces.Lib) (hl : SubLibOK lib) (hm : 0 < m) {x : ℕ → Ω → Fin m → ℝ} (hx : ∀ i, MeasurePreserving (x i) μ (normal m))
    (hind : Pairwise fun i j => IndepFun (x i) (x j) μ) {w : Fin m → ℝ} {g : ℝ → ℝ} (hg : Measurable g)
    (hL : MemLp (fun y : Fin m → ℝ => g (∑ k, w k * y k)) 2 (normal m)) (hc : ∫ y, (∑ k, w k * y k) * g (∑ k, w k * y k) ∂(normal m) ≠ 0) :
    ∀ᵐ ω ∂μ, ∃ (e : ℕ → Fin m → ℝ) (V : ℕ → Matrix (Fin m) (Fin m) ℝ),
      (∀ M : ℕ, ols_subspace lib (.mat (NpMat.of (rowsOf x M ω))) (.mat (wcol fun i : Fin M => g (∑ k, w k * x i ω k))) (wcol fun _ : Fin M => 1 / (M : ℝ))
        = .ok ⟨m, e M, V M⟩) ∧
      Tendsto (fun M => e M ⟨0, hm⟩) atTop (𝓝 ((∫ y, (∑ k, w k * y k) * g (∑ k, w k * y k) ∂(normal m)) ^ 2 / ∑ k, w k ^ 2)) ∧
      ∀ k l, Tendsto (fun M => V M k ⟨0, hm⟩ * V M l ⟨0, hm⟩) atTop (𝓝 (w k * w l / ∑ i, w i ^ 2)) := by
  have hw : w ≠ 0 := by
    rintro rfl
    simp at hc
  have hq : ∑ l, w l ^ 2 ≠ 0 := fun h => hw (funext fun i => by
    have := (Finset.sum_eq_zero_iff_of_nonneg fun i _ => sq_nonneg (w i)).mp h i (Finset.mem_univ i)
    exact pow_eq_zero_iff (by norm_num) |>.mp this)
  have h := C121_limit lib hl hm hx hind (F := fun y => g (∑ k, w k * y k)) (by fun_prop) white_normal.sq hL white_normal.det
    (a := ∫ y, g (∑ k, w k * y k) ∂(normal m)) (s := fun k => (∫ y, y k * g (∑ l, w l * y l) ∂(normal m)) / 1) (white_normal.best hL)
  simp only [div_one, normal_ridge hw hg hL] at h
  set c := (∫ y, (∑ l, w l * y l) * g (∑ l, w l * y l) ∂(normal m)) with hcd
  set q := ∑ l, w l ^ 2 with hqd
  have hsum : ∑ k, (c / q * w k) ^ 2 = c ^ 2 / q := by
    simp only [mul_pow, ← Finset.mul_sum]
    rw [← hqd]
    field_simp
  filter_upwards [h] with ω hω
  obtain ⟨e, V, h1, -, h3, h4⟩ := hω
  refine ⟨e, V, h1, by rwa [hsum] at h3, fun k l => ?_⟩
  have := h4 (fun h0 => by
    obtain ⟨i, hi⟩ := Function.ne_iff.mp hw
    have := congrFun h0 i
    simp only [Pi.zero_apply, mul_eq_zero, div_eq_zero_iff] at this
    rcases this with (h | h) | h
    · exact hc h
    · exact hq h
    · exact hi h) k l
  rw [hsum] at this
  convert this using 2
  field_simp

/-- Increasing functions of `w · x` are correlated with it. -/
theorem strictMono_corr {w : Fin m → ℝ} (hw : w ≠ 0) {g : ℝ → ℝ} (hg : StrictMono g) (hL : MemLp (fun y : Fin m → ℝ => g (∑ k, w k * y k)) 2 (normal m)) :
    0 < ∫ y, (∑ k, w k * y k) * g (∑ k, w k * y k) ∂(normal m) := by
  have hw2 : MemLp (fun y : Fin m → ℝ => ∑ l, w l * y l) 2 (normal m) := memLp_finsetSum _ fun l _ => (white_normal.sq l).const_mul (w l)
  have hgm := hg.monotone.measurable
  have i1 : Integrable (fun y : Fin m → ℝ => (∑ l, w l * y l) * g (∑ l, w l * y l)) (normal m) := hw2.integrable_mul hL
  have i2 : Integrable (fun y : Fin m → ℝ => (∑ l, w l * y l)) (normal m) := hw2.integrable (by norm_num)
  have h0 : ∫ y : Fin m → ℝ, (∑ l, w l * y l) ∂(normal m) = 0 := by
    rw [integral_finsetSum _ fun l _ => (white_normal.integrable l).const_mul (w l)]
    simp [integral_const_mul, white_normal.mean]
  have h1 : ∫ y, (∑ k, w k * y k) * g (∑ k, w k * y k) ∂(normal m) = ∫ y, (∑ k, w k * y k) * (g (∑ k, w k * y k) - g 0) ∂(normal m) := by
    simp only [mul_sub]
    rw [integral_sub i1 (i2.mul_const _), integral_mul_const, h0, zero_mul, sub_zero]
  have i3 : Integrable (fun y : Fin m → ℝ => (∑ l, w l * y l) * (g (∑ l, w l * y l) - g 0)) (normal m) := by
    simp only [mul_sub]
    exact i1.sub (i2.mul_const _)
  have hnn : ∀ t : ℝ, 0 ≤ t * (g t - g 0) := fun t => by
    rcases le_total 0 t with h | h
    · exact mul_nonneg h (sub_nonneg.mpr (hg.monotone h))
    · exact mul_nonneg_of_nonpos_of_nonpos h (sub_nonpos.mpr (hg.monotone h))
  rw [h1]
  refine lt_of_le_of_ne (integral_nonneg fun y => hnn _) fun h => hw ?_
  have h2 := (integral_eq_zero_iff_of_nonneg (fun y => hnn _) i3).mp h.symm
  have h3 : ∫ y : Fin m → ℝ, (0 + ∑ k, y k * w k) ^ 2 ∂(normal m) = 0 := by
    refine integral_eq_zero_of_ae ?_
    filter_upwards [h2] with y hy
    have hy' : (∑ k, w k * y k) * (g (∑ k, w k * y k) - g 0) = 0 := hy
    have : ∑ k, w k * y k = 0 := by
      rcases mul_eq_zero.mp hy' with h | h
      · exact h
      · exact hg.injective (sub_eq_zero.mp h)
    simp only [zero_add, Pi.zero_apply]
    rw [show ∑ k, y k * w k = ∑ k, w k * y k from Finset.sum_congr rfl fun k _ => mul_comm _ _, this]
    norm_num
  exact (white_normal.det 0 w h3).2

/-- C121: in particular for every increasing function of `w · x`. -/
theorem C121_increasing (lib : Model.Subspaces.Lib) (hl : SubLibOK lib) (hm : 0 < m) {x : ℕ → Ω → Fin m → ℝ} (hx : ∀ i, MeasurePreserving (x i) μ (normal m))
    (hind : Pairwise fun i j => IndepFun (x i) (x j) μ) {w : Fin m → ℝ} (hw : w ≠ 0) {g : ℝ → ℝ} (hg : StrictMono g)
    (hL : MemLp (fun y : Fin m → ℝ => g (∑ k, w k * y k)) 2 (normal m)) :
    ∀ᵐ ω ∂μ, ∃ (e : ℕ → Fin m → ℝ) (V : ℕ → Matrix (Fin m) (Fin m) ℝ),
      (∀ M : ℕ, ols_subspace lib (.mat (NpMat.of (rowsOf x M ω))) (.mat (wcol fun i : Fin M => g (∑ k, w k * x i ω k))) (wcol fun _ : Fin M => 1 / (M : ℝ))
        = .ok ⟨m, e M, V M⟩) ∧ ∀ k l, Tendsto (fun M => V M k ⟨0, hm⟩ * V M l ⟨0, hm⟩) atTop (𝓝 (w k * w l / ∑ i, w i ^ 2)) := by
  filter_upwards [C121_ridge lib hl hm hx hind hg.monotone.measurable hL (strictMono_corr hw hg hL).ne'] with ω hω
  obtain ⟨e, V, h1, -, h3⟩ := hω
  exact ⟨e, V, h1, h3⟩

/-! ## Uniform inputs -/

theorem unif_moment (k : ℕ) : ∫ t, t ^ k ∂unifMeasure = (1 - (-1) ^ (k + 1)) / (k + 1) / 2 := by
  rw [(unifMeasure_pow k).2, integral_pow, one_pow]

theorem white_unif : White (Measure.pi fun _ : Fin m => unifMeasure) (1 / 3) := by
  have h1 : ∫ t, t ^ 2 ∂unifMeasure = 1 / 3 := by
    rw [unif_moment]
    norm_num
  have h2 : MemLp (fun t : ℝ => t) 2 unifMeasure := by
    refine (memLp_two_iff_integrable_sq (by fun_prop)).mpr ?_
    exact (unifMeasure_pow 2).1
  have := uncorrelated_pi (m := m) (ρ := unifMeasure) h2 (by simpa using unif_moment 1) (by rw [h1]; norm_num)
  rwa [h1] at this

theorem unif_two (a b : ℕ) : Integrable (fun y : Fin 2 → ℝ => y 0 ^ a * y 1 ^ b) (Measure.pi fun _ : Fin 2 => unifMeasure) ∧
    ∫ y : Fin 2 → ℝ, y 0 ^ a * y 1 ^ b ∂(Measure.pi fun _ : Fin 2 => unifMeasure) = (1 - (-1) ^ (a + 1)) / (a + 1) / 2 * ((1 - (-1) ^ (b + 1)) / (b + 1) / 2) := by
  have h1 := integral_fintype_prod_eq_prod (𝕜 := ℝ) (μ := fun _ : Fin 2 => unifMeasure) (fun (i : Fin 2) (t : ℝ) => t ^ (![a, b] i))
  have h2 : Integrable (fun y : Fin 2 → ℝ => ∏ i, y i ^ (![a, b] i)) (Measure.pi fun _ : Fin 2 => unifMeasure) :=
    Integrable.fintype_prod (f := fun (i : Fin 2) (t : ℝ) => t ^ (![a, b] i)) fun i => (unifMeasure_pow _).1
  simp only [Fin.prod_univ_two, unif_moment] at h1 h2
  exact ⟨h2, h1⟩

/-- C121: for uniform inputs the direction of `w` is not found in general: for `(x_1 + 2 x_2)³`, an increasing function of `x_1 + 2 x_2`, the first eigenvector
converges to the direction of `(23, 34)`. -/
theorem C121_uniform (lib : Model.Subspaces.Lib) (hl : SubLibOK lib) {x : ℕ → Ω → Fin 2 → ℝ} (hx : ∀ i, MeasurePreserving (x i) μ (Measure.pi fun _ => unifMeasure))
    (hind : Pairwise fun i j => IndepFun (x i) (x j) μ) :
    ∀ᵐ ω ∂μ, ∃ (e : ℕ → Fin 2 → ℝ) (V : ℕ → Matrix (Fin 2) (Fin 2) ℝ),
      (∀ M : ℕ, ols_subspace lib (.mat (NpMat.of (rowsOf x M ω))) (.mat (wcol fun i : Fin M => (x i ω 0 + 2 * x i ω 1) ^ 3)) (wcol fun _ : Fin M => 1 / (M : ℝ))
        = .ok ⟨2, e M, V M⟩) ∧
      (∀ k l, Tendsto (fun M => V M k 0 * V M l 0) atTop (𝓝 ((![23, 34] : Fin 2 → ℝ) k * (![23, 34] : Fin 2 → ℝ) l / 1685))) ∧
      ¬ Tendsto (fun M => V M 0 0 * V M 0 0) atTop (𝓝 ((1 : ℝ) / (1 ^ 2 + 2 ^ 2))) := by
  have hF : MemLp (fun y : Fin 2 → ℝ => (y 0 + 2 * y 1) ^ 3) 2 (Measure.pi fun _ => unifMeasure) := by
    refine (memLp_two_iff_integrable_sq (by fun_prop)).mpr ?_
    have e : (fun y : Fin 2 → ℝ => ((y 0 + 2 * y 1) ^ 3) ^ 2) = fun y => (y 0 ^ 6 * y 1 ^ 0) + 12 * (y 0 ^ 5 * y 1 ^ 1) + 60 * (y 0 ^ 4 * y 1 ^ 2) + 160 * (y 0 ^ 3 * y 1 ^ 3)
        + 240 * (y 0 ^ 2 * y 1 ^ 4) + 192 * (y 0 ^ 1 * y 1 ^ 5) + 64 * (y 0 ^ 0 * y 1 ^ 6) := by
      funext y
      ring
    rw [e]
    exact ((((((unif_two 6 0).1.add ((unif_two 5 1).1.const_mul 12)).add ((unif_two 4 2).1.const_mul 60)).add ((unif_two 3 3).1.const_mul 160)).add
      ((unif_two 2 4).1.const_mul 240)).add ((unif_two 1 5).1.const_mul 192)).add ((unif_two 0 6).1.const_mul 64)
  have c : ∀ a b : ℕ, ∫ y : Fin 2 → ℝ, (y 0 ^ a * y 1 ^ b) * (y 0 + 2 * y 1) ^ 3 ∂(Measure.pi fun _ => unifMeasure)
      = (∫ y : Fin 2 → ℝ, y 0 ^ (a + 3) * y 1 ^ b ∂(Measure.pi fun _ => unifMeasure)) + 6 * (∫ y : Fin 2 → ℝ, y 0 ^ (a + 2) * y 1 ^ (b + 1) ∂(Measure.pi fun _ => unifMeasure))
        + 12 * (∫ y : Fin 2 → ℝ, y 0 ^ (a + 1) * y 1 ^ (b + 2) ∂(Measure.pi fun _ => unifMeasure))
        + 8 * (∫ y : Fin 2 → ℝ, y 0 ^ a * y 1 ^ (b + 3) ∂(Measure.pi fun _ => unifMeasure)) := fun a b => by
    have e : ∀ y : Fin 2 → ℝ, (y 0 ^ a * y 1 ^ b) * (y 0 + 2 * y 1) ^ 3 = y 0 ^ (a + 3) * y 1 ^ b + 6 * (y 0 ^ (a + 2) * y 1 ^ (b + 1))
        + 12 * (y 0 ^ (a + 1) * y 1 ^ (b + 2)) + 8 * (y 0 ^ a * y 1 ^ (b + 3)) := fun y => by ring
    have i1 := (unif_two (a + 3) b).1
    have i2 := (unif_two (a + 2) (b + 1)).1.const_mul 6
    have i3 := (unif_two (a + 1) (b + 2)).1.const_mul 12
    have i4 := (unif_two a (b + 3)).1.const_mul 8
    have i12 : Integrable (fun y : Fin 2 → ℝ => y 0 ^ (a + 3) * y 1 ^ b + 6 * (y 0 ^ (a + 2) * y 1 ^ (b + 1))) (Measure.pi fun _ => unifMeasure) := i1.add i2
    have i123 : Integrable (fun y : Fin 2 → ℝ => y 0 ^ (a + 3) * y 1 ^ b + 6 * (y 0 ^ (a + 2) * y 1 ^ (b + 1)) + 12 * (y 0 ^ (a + 1) * y 1 ^ (b + 2)))
      (Measure.pi fun _ => unifMeasure) := i12.add i3
    simp only [e]
    rw [integral_add i123 i4, integral_add i12 i3, integral_add i1 i2, integral_const_mul, integral_const_mul, integral_const_mul]
  have h := C121_limit lib hl (by norm_num : 0 < 2) hx hind (F := fun y => (y 0 + 2 * y 1) ^ 3) (by fun_prop) white_unif.sq hF white_unif.det
    (a := ∫ y : Fin 2 → ℝ, (y 0 + 2 * y 1) ^ 3 ∂(Measure.pi fun _ => unifMeasure))
    (s := fun k => (∫ y : Fin 2 → ℝ, y k * (y 0 + 2 * y 1) ^ 3 ∂(Measure.pi fun _ => unifMeasure)) / (1 / 3)) (white_unif.best hF)
  have hs : (fun k : Fin 2 => (∫ y : Fin 2 → ℝ, y k * (y 0 + 2 * y 1) ^ 3 ∂(Measure.pi fun _ => unifMeasure)) / (1 / 3)) = ![23 / 5, 34 / 5] := by
    have c0 := c 1 0
    have c1 := c 0 1
    simp only [pow_one, pow_zero, mul_one, one_mul] at c0 c1
    funext k
    fin_cases k
    · change (∫ y : Fin 2 → ℝ, y 0 * (y 0 + 2 * y 1) ^ 3 ∂(Measure.pi fun _ => unifMeasure)) / (1 / 3) = 23 / 5
      have e1 := (unif_two 4 0).2
      have e2 := (unif_two 3 1).2
      have e3 := (unif_two 2 2).2
      have e4 := (unif_two 1 3).2
      norm_num at e1 e2 e3 e4 c0
      rw [c0, e1, e2, e3, e4]
      norm_num
    · change (∫ y : Fin 2 → ℝ, y 1 * (y 0 + 2 * y 1) ^ 3 ∂(Measure.pi fun _ => unifMeasure)) / (1 / 3) = 34 / 5
      have e1 := (unif_two 3 1).2
      have e2 := (unif_two 2 2).2
      have e3 := (unif_two 1 3).2
      have e4 := (unif_two 0 4).2
      norm_num at e1 e2 e3 e4 c1
      rw [c1, e1, e2, e3, e4]
      norm_num
  have hk : ∀ k : Fin 2, (∫ y : Fin 2 → ℝ, y k * (y 0 + 2 * y 1) ^ 3 ∂(Measure.pi fun _ => unifMeasure)) / (1 / 3) = (![23 / 5, 34 / 5] : Fin 2 → ℝ) k := fun k => congrFun hs k
  simp only [hk] at h
  filter_upwards [h] with ω hω
  obtain ⟨e, V, h1, -, -, h4⟩ := hω
  have h5 : ∀ k l, Tendsto (fun M => V M k 0 * V M l 0) atTop (𝓝 ((![23, 34] : Fin 2 → ℝ) k * (![23, 34] : Fin 2 → ℝ) l / 1685)) := fun k l => by
    have := h4 (fun h0 => by
      have := congrFun h0 0
      simp at this) k l
    have e5 : (![23, 34] : Fin 2 → ℝ) k * (![23, 34] : Fin 2 → ℝ) l / 1685
        = (![23 / 5, 34 / 5] : Fin 2 → ℝ) k * (![23 / 5, 34 / 5] : Fin 2 → ℝ) l / ∑ i, (![23 / 5, 34 / 5] : Fin 2 → ℝ) i ^ 2 := by
      rw [Fin.sum_univ_two]
      fin_cases k <;> fin_cases l <;> norm_num
    rw [e5]
    exact this
  refine ⟨e, V, h1, h5, fun h6 => ?_⟩
  have := tendsto_nhds_unique (h5 0 0) h6
  norm_num at this

/-! ## The hypotheses can be met -/

/-- Independent inputs of a given distribution. -/
theorem inputs_exist (ν : Measure (Fin m → ℝ)) [IsProbabilityMeasure ν] :
    (∀ i, MeasurePreserving (fun ω : ℕ → Fin m → ℝ => ω i) (Measure.infinitePi fun _ : ℕ => ν) ν) ∧
      Pairwise fun i j => IndepFun (fun ω : ℕ → Fin m → ℝ => ω i) (fun ω => ω j) (Measure.infinitePi fun _ : ℕ => ν) :=
  ⟨fun i => measurePreserving_eval_infinitePi (fun _ : ℕ => ν) i, fun _ _ hij =>
    (iIndepFun_infinitePi (P := fun _ : ℕ => ν) (X := fun _ y => y) (fun _ => measurable_id)).indepFun hij⟩

/-- `(x_1 + 2 x_2)³` again, but with standard normal inputs: the direction `(1, 2)` is found. -/
example (lib : Model.Subspaces.Lib) (hl : SubLibOK lib) :
    ∀ᵐ ω ∂(Measure.infinitePi fun _ : ℕ => normal 2), ∃ (e : ℕ → Fin 2 → ℝ) (V : ℕ → Matrix (Fin 2) (Fin 2) ℝ),
      (∀ M : ℕ, ols_subspace lib (.mat (NpMat.of (rowsOf (fun i ω => ω i) M ω))) (.mat (wcol fun i : Fin M => (∑ k, (![1, 2] : Fin 2 → ℝ) k * ω i k) ^ 3))
        (wcol fun _ : Fin M => 1 / (M : ℝ)) = .ok ⟨2, e M, V M⟩) ∧
      ∀ k l, Tendsto (fun M => V M k 0 * V M l 0) atTop (𝓝 ((![1, 2] : Fin 2 → ℝ) k * (![1, 2] : Fin 2 → ℝ) l / ∑ i, (![1, 2] : Fin 2 → ℝ) i ^ 2)) :=
  C121_increasing lib hl (by norm_num) (inputs_exist (normal 2)).1 (inputs_exist (normal 2)).2 (w := ![1, 2])
    (fun h => by simpa using congrFun h 0) (g := fun t => t ^ 3) (Odd.strictMono_pow (by decide)) (by
      refine (memLp_two_iff_integrable_sq (Measurable.aestronglyMeasurable (by fun_prop))).mpr ?_
      have := integrable_poly (m := 2) (((MvPolynomial.X 0 + MvPolynomial.C 2 * MvPolynomial.X 1) ^ 3) ^ 2)
      simpa [Fin.sum_univ_two] using this)

/-- `compute` on samples of `x_1` with uniform inputs. -/
example {S : Type} (lib : Model.Subspaces.Lib) (hl : SubLibOK lib) (rng : Rng S) (w : S × Subspaces) :=
  C121_compute lib hl rng w le_rfl (inputs_exist (Measure.pi fun _ : Fin 2 => unifMeasure)).1 (inputs_exist _).2 (F := fun y => y 0) (by fun_prop) white_unif.sq
    (white_unif.sq 0) white_unif.det (a := 0) (s := ![1, 0]) (fun a' s' => by
      simp only [Fin.sum_univ_two, cons_val_zero, cons_val_one, mul_one, mul_zero, add_zero, zero_add, sub_self]
      norm_num
      exact integral_nonneg fun y => sq_nonneg _) (fun h => by simpa using congrFun h 0)

/-- The hypotheses of the general theorem: uniform inputs. -/
example (lib : Model.Subspaces.Lib) (hl : SubLibOK lib) :=
  C121_uniform lib hl (inputs_exist (Measure.pi fun _ : Fin 2 => unifMeasure)).1 (inputs_exist _).2

end Props
