import Verif.Props.PolyLaw
import Verif.Props.Qphd
import Mathlib.Probability.Distributions.Gaussian.HasGaussianLaw.Independence

/-!
# Property C124: what `qphd_subspace` estimates

For many samples the eigenpairs are those of the mean outer product of the gradient of the best quadratic approximation in the mean
square.  For functions of one linear form of Gaussian inputs the first eigenvector is the direction of the form, also for even functions,
which a linear model misses.
-/

open Py Model.Subspaces Model.Misc Spec Matrix Proofs.LsqLaw Proofs.PolyApprox Proofs.PolyTrain Proofs.Rotation MeasureTheory ProbabilityTheory Filter MvPolynomial
open scoped Topology

namespace Props

variable {Ω : Type} [MeasurableSpace Ω] {μ : Measure Ω} {m : ℕ}

/-- Polynomials fitted to the first `M` samples converge to the best approximation. -/
theorem poly_law {N : ℕ} (hm : 1 ≤ m) {ν : Measure (Fin m → ℝ)} (hν : PolyMoments ν N) {x : ℕ → Ω → Fin m → ℝ} (hx : ∀ i, MeasurePreserving (x i) μ ν)
    (hind : Pairwise fun i j => IndepFun (x i) (x j) μ) {F : (Fin m → ℝ) → ℝ} (hFm : Measurable F) (hF : MemLp F 2 ν) {P : MvPolynomial (Fin m) ℝ}
    (hP : IsBest ν N F P) :
    ∀ᵐ ω ∂μ, ∀ Q : ℕ → MvPolynomial (Fin m) ℝ, (∀ M, (Q M).totalDegree ≤ N) →
      (∀ᶠ M in atTop, ∀ q : MvPolynomial (Fin m) ℝ, q.totalDegree ≤ N →
        ∑ i : Fin M, (eval (x i ω) (Q M) - F (x i ω)) ^ 2 ≤ ∑ i : Fin M, (eval (x i ω) q - F (x i ω)) ^ 2) →
      ∀ l : MvPolynomial (Fin m) ℝ →ₗ[ℝ] ℝ, Tendsto (fun M => l (Q M)) atTop (𝓝 (l P)) := by
  obtain ⟨I, -, hnd, hmem, -, -⟩ := C25_enumerates N m hm
  have hPf := eq_fitted I hnd (fun α hα => (hmem α).mpr hα) P hP.deg
  set u : Fin I.length → ℝ := fun j => coeff (fin (I.get j)) P with hud
  have hmon : ∀ j : Fin I.length, (fun y : Fin m → ℝ => ∏ k, y k ^ I.get j k) = fun y => eval y (monomial (fin (I.get j)) 1) := fun j => by
    funext y
    rw [eval_monomial', one_mul]
  have hdeg : ∀ j : Fin I.length, (monomial (fin (I.get j)) (1 : ℝ)).totalDegree ≤ N := fun j => by
    refine (totalDegree_monomial_le _ _).trans ?_
    rw [Finsupp.sum_fintype _ _ (fun _ => rfl)]
    exact (hmem _).mp (List.get_mem I j)
  have hφm : ∀ j : Fin I.length, Measurable fun y : Fin m → ℝ => ∏ k, y k ^ I.get j k := fun j => by
    rw [hmon]
    exact measurable_eval _
  have hφ : ∀ j : Fin I.length, MemLp (fun y : Fin m → ℝ => ∏ k, y k ^ I.get j k) 2 ν := fun j => by
    rw [hmon]
    exact hν.sq _ (hdeg j)
  have h1 := lsq_law_of (φ := fun (j : Fin I.length) (y : Fin m → ℝ) => ∏ k, y k ^ I.get j k) (u := u) hx hind hφm hFm hφ hF
    (fun v hv => by
      simp only [← eval_fitted] at hv
      have := hν.det _ (fitted_nodup hmem v) hv
      funext j
      rw [← coeff_fitted I hnd v j, this]
      rfl) (fun v => by
      simp only [← eval_fitted]
      rw [← hPf]
      exact hP.best _ (fitted_nodup hmem v))
  filter_upwards [h1] with ω g1 Q hQ hmin l
  have hQf : ∀ M, Q M = fitted I fun j => coeff (fin (I.get j)) (Q M) := fun M => eq_fitted I hnd (fun α hα => (hmem α).mpr hα) (Q M) (hQ M)
  have g5 := g1 (fun M j => coeff (fin (I.get j)) (Q M)) (by
    filter_upwards [hmin] with M q v
    simp only [← eval_fitted]
    rw [← hQf]
    exact q _ (fitted_nodup hmem v))
  have := fitted_tendsto (I := I) g5 l
  simp only [← hQf] at this
  rwa [← hPf] at this

/-- The inputs have the second moment that `qphd_subspace` assumes: one if some exceed one, and a third otherwise. -/
def Assumed (ν : Measure (Fin m → ℝ)) : Prop :=
  (IsWhite ν 1 ∧ ν {y | ∃ k, 1 < y k} ≠ 0) ∨ (IsWhite ν (1 / 3) ∧ ν {y | ∃ k, 1 < y k} = 0)

theorem measurableSet_exceed : MeasurableSet {y : Fin m → ℝ | ∃ k, 1 < y k} := by
  rw [Set.ofPred_exists]
  exact MeasurableSet.iUnion fun k => measurableSet_lt measurable_const (measurable_pi_apply k)

/-- The factor in the code is eventually the second moment of the inputs. -/
theorem gamma_law (hm : 0 < m) {ν : Measure (Fin m → ℝ)} (hν : Assumed ν) {x : ℕ → Ω → Fin m → ℝ} (hx : ∀ i, MeasurePreserving (x i) μ ν)
    (hind : Pairwise fun i j => IndepFun (x i) (x j) μ) :
    ∃ γ : ℝ, 0 ≤ γ ∧ IsWhite ν γ ∧ ∀ᵐ ω ∂μ, ∀ᶠ M : ℕ in atTop, gamma (NpMat.of (rowsOf x M ω)) = .ok γ := by
  rcases hν with ⟨hw, h0⟩ | ⟨hw, h0⟩
  · refine ⟨1, by norm_num, hw, ?_⟩
    have := hw.prob
    have h1 := avg_law hx hind (g := Set.indicator {y | ∃ k, 1 < y k} fun _ => (1 : ℝ)) (measurable_const.indicator measurableSet_exceed)
      ((integrable_const 1).indicator measurableSet_exceed)
    rw [integral_indicator_const _ measurableSet_exceed, smul_eq_mul, mul_one] at h1
    have hpos : 0 < ν.real {y | ∃ k, 1 < y k} := ENNReal.toReal_pos h0 (measure_ne_top _ _)
    filter_upwards [h1] with ω hω
    filter_upwards [hω.eventually (lt_mem_nhds hpos), eventually_gt_atTop 0] with M hM hM0
    have h2 : ∃ i : Fin M, ∃ k, 1 < x i ω k := by
      by_contra hn
      push Not at hn
      have h3 : ∀ i : Fin M, Set.indicator {y : Fin m → ℝ | ∃ k, 1 < y k} (fun _ => (1 : ℝ)) (x i ω) = 0 := fun i =>
        Set.indicator_of_notMem (by rintro ⟨k, hk⟩; exact absurd hk (not_lt.mpr (hn i k))) _
      simp [h3] at hM
    obtain ⟨i, k, hk⟩ := h2
    rcases gamma_of (rowsOf x M ω) hM0 hm with ⟨-, h⟩ | ⟨h, -⟩
    · exact h
    · exact absurd hk (not_lt.mpr (h i k))
  · refine ⟨1 / 3, by norm_num, hw, ?_⟩
    have h1 : ∀ᵐ ω ∂μ, ∀ i, ¬ ∃ k, 1 < x i ω k := by
      rw [ae_all_iff]
      intro i
      have := (hx i).quasiMeasurePreserving.ae (measure_eq_zero_iff_ae_notMem.mp h0)
      filter_upwards [this] with ω hω
      exact hω
    filter_upwards [h1] with ω hω
    filter_upwards [eventually_gt_atTop 0] with M hM0
    rcases gamma_of (rowsOf x M ω) hM0 hm with ⟨⟨i, k, h⟩, -⟩ | ⟨-, h⟩
    · exact absurd ⟨k, h⟩ (hω i)
    · exact h

/-- C124: for independent inputs whose second moment is the one the code assumes and outputs `F` of finite second moment, almost surely `qphd_subspace` succeeds
for all large samples; its eigenvalues converge to those of the mean outer product of the gradient of the best quadratic approximation `P`, and the projection onto
its first `n` eigenvectors converges to that of the first `n` eigenvectors of this matrix if its eigenvalues `n` and `n + 1` differ. -/
theorem C124_limit (lib : Model.Subspaces.Lib) (hl : SubLibOK lib) (hm : 0 < m) {ν : Measure (Fin m → ℝ)} (hν : PolyMoments ν 2) (hγ : Assumed ν)
    {x : ℕ → Ω → Fin m → ℝ} (hx : ∀ i, MeasurePreserving (x i) μ ν) (hind : Pairwise fun i j => IndepFun (x i) (x j) μ) {F : (Fin m → ℝ) → ℝ} (hFm : Measurable F)
    (hF : MemLp F 2 ν) {P : MvPolynomial (Fin m) ℝ} (hP : IsBest ν 2 F P) {l : Fin m → ℝ} {U : Matrix (Fin m) (Fin m) ℝ}
    (hU : IsSortedEigh (Matrix.of fun a b => ∫ y, eval y (pderiv a P) * eval y (pderiv b P) ∂ν) l U) :
    ∀ᵐ ω ∂μ, ∃ (e : ℕ → Fin m → ℝ) (V : ℕ → Matrix (Fin m) (Fin m) ℝ),
      (∀ᶠ M : ℕ in atTop, qphd_subspace lib (.mat (NpMat.of (rowsOf x M ω))) (.mat (wcol fun i : Fin M => F (x i ω))) (wcol fun _ : Fin M => 1 / (M : ℝ))
        = .ok ⟨m, e M, V M⟩) ∧
      (∀ j, Tendsto (fun M => e M j) atTop (𝓝 (l j))) ∧
      ∀ (n : ℕ) (_ : 1 ≤ n) (hnm : n < m), l ⟨n, hnm⟩ < l ⟨n - 1, by omega⟩ →
        ∀ a b, Tendsto (fun M => projEntry (V M) n a b) atTop (𝓝 (projEntry U n a b)) := by
  obtain ⟨γ, hγ0, hw, hg⟩ := gamma_law hm hγ hx hind
  filter_upwards [hg, poly_law hm hν hx hind hFm hF hP] with ω g1 g2
  have hrun : ∀ M : ℕ, ∃ (Q : MvPolynomial (Fin m) ℝ) (e : Fin m → ℝ) (V : Matrix (Fin m) (Fin m) ℝ), Q.totalDegree ≤ 2 ∧
      (0 < M → (2 + m).choose m ≤ M → gamma (NpMat.of (rowsOf x M ω)) = .ok γ →
        qphd_subspace lib (.mat (NpMat.of (rowsOf x M ω))) (.mat (wcol fun i : Fin M => F (x i ω))) (wcol fun _ : Fin M => 1 / (M : ℝ)) = .ok ⟨m, e, V⟩ ∧
        IsSortedEigh (Matrix.of fun a b => eval 0 (pderiv a Q) * eval 0 (pderiv b Q)
          + γ * ∑ r, eval 0 (pderiv a (pderiv r Q)) * eval 0 (pderiv b (pderiv r Q))) e V ∧
        ∀ q : MvPolynomial (Fin m) ℝ, q.totalDegree ≤ 2 → ∑ i : Fin M, (eval (x i ω) Q - F (x i ω)) ^ 2 ≤ ∑ i : Fin M, (eval (x i ω) q - F (x i ω)) ^ 2) := by
    intro M
    by_cases hM : 0 < M ∧ (2 + m).choose m ≤ M ∧ gamma (NpMat.of (rowsOf x M ω)) = .ok γ
    swap
    · exact ⟨0, 0, 0, by simp, fun h1 h2 h3 => absurd ⟨h1, h2, h3⟩ hM⟩
    obtain ⟨hM0, hM, hγM⟩ := hM
    obtain ⟨Q, hd, hmin, hq⟩ := qphd_eq lib hl.lstsq hm (rowsOf x M ω) (fun i => F (x i ω)) (fun _ => 1 / (M : ℝ)) hM hγM
    obtain ⟨e, V, he, hs⟩ := C34_posSemidef lib hl hm _ (qphd_posSemidef (fun k => eval 0 (pderiv k Q)) (Matrix.of fun k r => eval 0 (pderiv k (pderiv r Q))) hγ0)
    refine ⟨Q, e, V, hd, fun _ _ _ => ⟨hq.trans he, hs, fun q hq => ?_⟩⟩
    have hM' : (0 : ℝ) < (1 / (M : ℝ)) ^ 2 := by positivity
    have h := hmin q hq
    simp only [mul_pow, ← Finset.mul_sum] at h
    exact le_of_mul_le_mul_left h hM'
  choose Q e V hQ hr using hrun
  have hev : ∀ᶠ M : ℕ in atTop, 0 < M ∧ (2 + m).choose m ≤ M ∧ gamma (NpMat.of (rowsOf x M ω)) = .ok γ :=
    (eventually_gt_atTop 0).and ((eventually_ge_atTop _).and g1)
  have g3 := g2 Q hQ (by
    filter_upwards [hev] with M hM
    exact (hr M hM.1 hM.2.1 hM.2.2).2.2)
  have d1 : ∀ k, Tendsto (fun M => eval 0 (pderiv k (Q M))) atTop (𝓝 (eval 0 (pderiv k P))) :=
    fun k => g3 ((MvPolynomial.aeval 0).toLinearMap ∘ₗ (pderiv k).toLinearMap)
  have d2 : ∀ k r, Tendsto (fun M => eval 0 (pderiv k (pderiv r (Q M)))) atTop (𝓝 (eval 0 (pderiv k (pderiv r P)))) :=
    fun k r => g3 ((MvPolynomial.aeval 0).toLinearMap ∘ₗ (pderiv k).toLinearMap ∘ₗ (pderiv r).toLinearMap)
  have := eig_tendsto (A := fun M => Matrix.of fun a b => eval 0 (pderiv a (Q M)) * eval 0 (pderiv b (Q M))
          + γ * ∑ r, eval 0 (pderiv a (pderiv r (Q M))) * eval 0 (pderiv b (pderiv r (Q M)))) (e := e) (V := V) hU (by
      filter_upwards [hev] with M hM
      exact (hr M hM.1 hM.2.1 hM.2.2).2.1) (fun a b => by
      simp only [Matrix.of_apply]
      rw [integral_grad P hP.deg hw]
      exact ((d1 a).mul (d1 b)).add ((tendsto_finsetSum _ fun r _ => (d2 a r).mul (d2 b r)).const_mul γ))
  refine ⟨e, V, ?_, this⟩
  filter_upwards [hev] with M hM
  exact (hr M hM.1 hM.2.1 hM.2.2).1

/-- C124: `compute` with `sstype='QPHD'` and the default weights: if the largest gap between the limits of the eigenvalues is after the `n`th, almost surely for
all large samples `n` active directions are chosen, and the projection onto them converges. -/
theorem C124_compute {S : Type} (lib : Model.Subspaces.Lib) (hl : SubLibOK lib) (rng : Rng S) (w : S × Subspaces) {ν : Measure (Fin m → ℝ)} (hν : PolyMoments ν 2)
    (hγ : Assumed ν) {x : ℕ → Ω → Fin m → ℝ} (hx : ∀ i, MeasurePreserving (x i) μ ν) (hind : Pairwise fun i j => IndepFun (x i) (x j) μ) {F : (Fin m → ℝ) → ℝ}
    (hFm : Measurable F) (hF : MemLp F 2 ν) {P : MvPolynomial (Fin m) ℝ} (hP : IsBest ν 2 F P) {l : Fin m → ℝ} {U : Matrix (Fin m) (Fin m) ℝ}
    (hU : IsSortedEigh (Matrix.of fun a b => ∫ y, eval y (pderiv a P) * eval y (pderiv b P) ∂ν) l U) {n : ℕ} (hn : 1 ≤ n) (hnm : n < m)
    (hmax : ∀ k (_ : 1 ≤ k) (hk : k < m), k ≠ n → l ⟨k - 1, by omega⟩ - l ⟨k, hk⟩ < l ⟨n - 1, by omega⟩ - l ⟨n, hnm⟩)
    (hpos : l ⟨n, hnm⟩ < l ⟨n - 1, by omega⟩) :
    ∀ᵐ ω ∂μ, ∃ (V1 : ℕ → Matrix (Fin m) (Fin n) ℝ) (w' : ℕ → S × Subspaces),
      (∀ᶠ M : ℕ in atTop, (compute lib rng (some (.mat (NpMat.of (rowsOf x M ω)))) (some (.mat (wcol fun i : Fin M => F (x i ω)))) none none "QPHD" "EVG" 0).run w
        = (.ok (), w' M) ∧ (w' M).2.W1 = some (NpMat.of (V1 M))) ∧
      ∀ a b, Tendsto (fun M => ∑ j, V1 M a j * V1 M b j) atTop (𝓝 (∑ j : Fin m, if (j : ℕ) < n then U a j * U b j else 0)) := by
  filter_upwards [C124_limit lib hl (by omega) hν hγ hx hind hFm hF hP hU] with ω ⟨e, V, h1, h2, h3⟩
  have hgap := gap_tendsto h2 hn hnm fun k hk1 hk hkn => by
    rw [abs_of_nonneg (sub_nonneg.mpr (hU.anti (Fin.le_def.mpr (by simp)))), abs_of_nonneg (sub_nonneg.mpr (hU.anti (Fin.le_def.mpr (by simp))))]
    exact hmax k hk1 hk hkn
  have hrun : ∀ M : ℕ, ∃ (V1 : Matrix (Fin m) (Fin n) ℝ) (w' : S × Subspaces), 0 < M →
      qphd_subspace lib (.mat (NpMat.of (rowsOf x M ω))) (.mat (wcol fun i : Fin M => F (x i ω))) (wcol fun _ : Fin M => 1 / (M : ℝ)) = .ok ⟨m, e M, V M⟩ →
      (∃ d, eig_partition (e M) = .ok (n, d)) →
      (compute lib rng (some (.mat (NpMat.of (rowsOf x M ω)))) (some (.mat (wcol fun i : Fin M => F (x i ω)))) none none "QPHD" "EVG" 0).run w = (.ok (), w') ∧
        w'.2.W1 = some (NpMat.of V1) ∧ ∀ a j, V1 a j = V M a (Fin.castLE hnm.le j) := by
    intro M
    by_cases hM : 0 < M ∧
      qphd_subspace lib (.mat (NpMat.of (rowsOf x M ω))) (.mat (wcol fun i : Fin M => F (x i ω))) (wcol fun _ : Fin M => 1 / (M : ℝ)) = .ok ⟨m, e M, V M⟩ ∧
      ∃ d, eig_partition (e M) = .ok (n, d)
    swap
    · exact ⟨0, w, fun h1 h2 h3 => absurd ⟨h1, h2, h3⟩ hM⟩
    obtain ⟨hM, hq, d, hd⟩ := hM
    obtain ⟨e', V', w', hp, hc, hsplit, he', hV', -, -, hev⟩ := compute_ok hl rng (by omega : 2 ≤ m) hM (some (rowsOf x M ω)) (some fun i => F (x i ω)) none none
      (.inl (by simp)) "QPHD" "EVG" .QPHD rfl 0 w w ⟨m, e M, V M⟩ (by
        change (qphd_subspace lib (.mat (NpMat.of (rowsOf x M ω))) (.mat (wcol fun i : Fin M => F (x i ω))) (wcol fun _ : Fin M => 1 / (M : ℝ)), w) = _
        rw [hq]) (fun h => absurd h (lt_irrefl _)) (.inl rfl)
    cases hp
    obtain ⟨n', d', V1, hd', hW1⟩ := hev rfl
    rw [hd] at hd'
    cases hd'
    refine ⟨V1, w', fun _ _ _ => ⟨hc, hW1, fun a j => ?_⟩⟩
    obtain ⟨m'', n'', V'', V1'', V2'', q1, q2, q3, q4, q5, q6, q7⟩ := hsplit
    rw [hV'] at q1
    rw [hW1] at q2
    cases q1
    cases q2
    exact q6 a (Fin.castLE hnm.le j) j rfl
  choose V1 w' hr using hrun
  have hev := (eventually_gt_atTop 0).and (h1.and hgap)
  refine ⟨V1, w', ?_, fun a b => ?_⟩
  · filter_upwards [hev] with M hM
    obtain ⟨q1, q2, -⟩ := hr M hM.1 hM.2.1 hM.2.2
    exact ⟨q1, q2⟩
  · refine (h3 n hn hnm hpos a b).congr' ?_
    filter_upwards [hev] with M hM
    obtain ⟨-, -, q⟩ := hr M hM.1 hM.2.1 hM.2.2
    unfold projEntry
    rw [sum_lt (fun j => V M a j * V M b j) n hnm.le]
    exact Finset.sum_congr rfl fun j _ => by rw [q, q]

/-! ## Normal and uniform inputs -/

theorem assumed_normal (hm : 0 < m) : Assumed (normal m) := by
  refine .inl ⟨white_gaussian m, fun h => ?_⟩
  have h1 : (normal m) {y | 1 < y ⟨0, hm⟩} = 0 := measure_mono_null (fun y (hy : 1 < y ⟨0, hm⟩) => (⟨_, hy⟩ : ∃ k, 1 < y k)) h
  have h2 : gaussianReal 0 1 (Set.Ioi 1) = 0 := by
    rw [← (measurePreserving_eval (fun _ : Fin m => gaussianReal 0 1) ⟨0, hm⟩).map_eq, Measure.map_apply (measurable_pi_apply _) measurableSet_Ioi]
    exact h1
  have h3 := gaussianReal_absolutelyContinuous' 0 (one_ne_zero (α := NNReal)) h2
  simp at h3

theorem assumed_unif : Assumed (Measure.pi fun _ : Fin m => unifMeasure) := by
  have hw := white_unif (m := m)
  refine .inr ⟨⟨inferInstance, hw.integrable, fun k l => (hw.sq k).integrable_mul (hw.sq l), hw.mean, hw.cov⟩, ?_⟩
  rw [Set.ofPred_exists]
  refine measure_iUnion_null fun k => ?_
  have h1 := (measurePreserving_eval (fun _ : Fin m => unifMeasure) k).measure_preimage (s := Set.Ioi 1) measurableSet_Ioi.nullMeasurableSet
  have h2 : unifMeasure (Set.Ioi 1) = 0 := by
    rw [unifMeasure, Measure.smul_apply, Measure.restrict_apply measurableSet_Ioi, show Set.Ioi (1 : ℝ) ∩ Set.Ioc (-1) 1 = ∅ from by
      ext t
      simp only [Set.mem_inter_iff, Set.mem_Ioi, Set.mem_Ioc, Set.mem_empty_iff_false, iff_false]
      rintro ⟨h1, -, h2⟩
      linarith]
    simp
  rw [h2] at h1
  exact h1

/-! ## Functions of one linear form of Gaussian inputs -/

/-- An approximation whose error is orthogonal to all polynomials is the best one. -/
theorem isBest_of_orthogonal {ν : Measure (Fin m → ℝ)} {N : ℕ} (hν : PolyMoments ν N) {F : (Fin m → ℝ) → ℝ} (hF : MemLp F 2 ν) {P : MvPolynomial (Fin m) ℝ}
    (hP : P.totalDegree ≤ N) (h : ∀ q : MvPolynomial (Fin m) ℝ, q.totalDegree ≤ N → ∫ y, eval y q * (eval y P - F y) ∂ν = 0) : IsBest ν N F P := by
  refine ⟨hP, fun q hq => ?_⟩
  have hr : MemLp (fun y => eval y P - F y) 2 ν := (hν.sq P hP).sub hF
  have hqP : (q - P).totalDegree ≤ N := (totalDegree_sub q P).trans (max_le hq hP)
  have hd : MemLp (fun y => eval y (q - P)) 2 ν := hν.sq _ hqP
  have e : ∀ y, (eval y q - F y) ^ 2 = (eval y P - F y) ^ 2 + (2 * (eval y (q - P) * (eval y P - F y)) + eval y (q - P) ^ 2) := fun y => by
    rw [map_sub]
    ring
  have i1 : Integrable (fun y => eval y (q - P) * (eval y P - F y)) ν := hd.integrable_mul hr
  have i2 : Integrable (fun y => 2 * (eval y (q - P) * (eval y P - F y)) + eval y (q - P) ^ 2) ν := (i1.const_mul 2).add hd.integrable_sq
  simp only [e]
  rw [integral_add hr.integrable_sq i2, integral_add (i1.const_mul 2) hd.integrable_sq, integral_const_mul, h _ hqP, mul_zero, zero_add]
  exact le_add_of_nonneg_right (integral_nonneg fun y => sq_nonneg _)

theorem form_memLp (w : Fin m → ℝ) : MemLp (fun y : Fin m → ℝ => ∑ k, w k * y k) 2 (normal m) :=
  memLp_finsetSum _ fun l _ => (white_normal.sq l).const_mul (w l)

theorem form_mean (w : Fin m → ℝ) : ∫ y : Fin m → ℝ, ∑ k, w k * y k ∂(normal m) = 0 := by
  rw [integral_finsetSum _ fun l _ => (white_normal.integrable l).const_mul (w l)]
  simp [integral_const_mul, white_normal.mean]

/-- Orthogonal linear forms of Gaussian inputs are independent. -/
theorem normal_indep {w u : Fin m → ℝ} (h : ∑ k, w k * u k = 0) : IndepFun (fun y : Fin m → ℝ => ∑ k, u k * y k) (fun y => ∑ k, w k * y k) (normal m) := by
  have h1 : HasGaussianLaw (fun y : Fin m → ℝ => (fun i => y i)) (normal m) := by
    refine iIndepFun.hasGaussianLaw (X := fun i (y : Fin m → ℝ) => y i) (fun i => ⟨?_⟩) ?_
    · rw [(measurePreserving_eval (fun _ : Fin m => gaussianReal 0 1) i).map_eq]
      infer_instance
    · exact iIndepFun_pi (μ := fun _ : Fin m => gaussianReal 0 1) (X := fun _ t => t) fun _ => aemeasurable_id
  let L : (Fin m → ℝ) →L[ℝ] ℝ × ℝ := (∑ k, u k • ContinuousLinearMap.proj (R := ℝ) (φ := fun _ : Fin m => ℝ) k).prod
    (∑ k, w k • ContinuousLinearMap.proj (R := ℝ) (φ := fun _ : Fin m => ℝ) k)
  have h2 := h1.map_fun L
  refine HasGaussianLaw.indepFun_of_covariance_eq_zero ?_ ?_
  · have e : (fun y : Fin m → ℝ => L fun i => y i) = fun y => (∑ k, u k * y k, ∑ k, w k * y k) := by
      funext y
      simp [L]
    rwa [e] at h2
  · rw [covariance_eq_sub (form_memLp u) (form_memLp w), form_mean u, zero_mul, sub_zero]
    exact normal_orthogonal h (g := fun t => t) measurable_id

/-- The square of a linear form orthogonal to `w` is uncorrelated with every function of `w · y`. -/
theorem normal_square {w u : Fin m → ℝ} (h : ∑ k, w k * u k = 0) {g : ℝ → ℝ} (hg : Measurable g) (h0 : ∫ y, g (∑ k, w k * y k) ∂(normal m) = 0) :
    ∫ y, (∑ k, u k * y k) ^ 2 * g (∑ k, w k * y k) ∂(normal m) = 0 := by
  have h1 := (normal_indep h).comp (φ := fun t : ℝ => t ^ 2) (ψ := g) (by fun_prop) hg
  have h2 := h1.integral_fun_mul_eq_mul_integral (Measurable.aestronglyMeasurable (by fun_prop)) (Measurable.aestronglyMeasurable (by fun_prop))
  simp only [Function.comp_apply] at h2
  rw [h2, h0, mul_zero]

theorem normal_square_int {w u : Fin m → ℝ} (h : ∑ k, w k * u k = 0) {g : ℝ → ℝ} (hg : Measurable g)
    (hi : Integrable (fun y : Fin m → ℝ => g (∑ k, w k * y k)) (normal m)) :
    Integrable (fun y : Fin m → ℝ => (∑ k, u k * y k) ^ 2 * g (∑ k, w k * y k)) (normal m) := by
  have h1 := (normal_indep h).comp (φ := fun t : ℝ => t ^ 2) (ψ := g) (by fun_prop) hg
  exact h1.integrable_mul (form_memLp u).integrable_sq hi

/-- Functions `g` of `w · y` orthogonal to `1`, `w · y` and `(w · y)²` are orthogonal to all quadratic polynomials. -/
theorem ridge_orthogonal {w : Fin m → ℝ} (hw : w ≠ 0) {g : ℝ → ℝ} (hg : Measurable g) (hL : MemLp (fun y : Fin m → ℝ => g (∑ k, w k * y k)) 2 (normal m))
    (h0 : ∫ y, g (∑ k, w k * y k) ∂(normal m) = 0) (h1 : ∫ y, (∑ k, w k * y k) * g (∑ k, w k * y k) ∂(normal m) = 0)
    (h2 : ∫ y, (∑ k, w k * y k) ^ 2 * g (∑ k, w k * y k) ∂(normal m) = 0) {q : MvPolynomial (Fin m) ℝ} (hq : q.totalDegree ≤ 2) :
    ∫ y, eval y q * g (∑ k, w k * y k) ∂(normal m) = 0 := by
  have hi : Integrable (fun y : Fin m → ℝ => g (∑ k, w k * y k)) (normal m) := hL.integrable (by norm_num)
  have hi1 : ∀ k, Integrable (fun y : Fin m → ℝ => y k * g (∑ k, w k * y k)) (normal m) := fun k => (white_normal.sq k).integrable_mul hL
  have hpoly : ∀ p : MvPolynomial (Fin m) ℝ, MemLp (fun y => eval y p) 2 (normal m) := fun p => (polyMoments_normal p.totalDegree).sq p le_rfl
  have hi2 : ∀ k l, Integrable (fun y : Fin m → ℝ => y k * y l * g (∑ k, w k * y k)) (normal m) := fun k l => by
    have := (hpoly (X k * X l)).integrable_mul hL
    simp only [map_mul, eval_X] at this
    exact this
  have z1 : ∀ k, ∫ y, y k * g (∑ k, w k * y k) ∂(normal m) = 0 := fun k => by
    rw [normal_ridge hw hg hL, h1, zero_div, zero_mul]
  have hQ : ∑ l, w l ^ 2 ≠ 0 := fun h => hw (funext fun i => by
    have := (Finset.sum_eq_zero_iff_of_nonneg fun i _ => sq_nonneg (w i)).mp h i (Finset.mem_univ i)
    exact pow_eq_zero_iff (by norm_num) |>.mp this)
  -- squares of arbitrary forms
  have zsq : ∀ u : Fin m → ℝ, ∫ y, (∑ k, u k * y k) ^ 2 * g (∑ k, w k * y k) ∂(normal m) = 0 := fun u => by
    set c := (∑ l, w l * u l) / ∑ l, w l ^ 2 with hc
    set v : Fin m → ℝ := fun l => u l - c * w l with hv
    have hwv : ∑ k, w k * v k = 0 := by
      have : ∑ k, w k * v k = ∑ k, w k * u k - c * ∑ k, w k ^ 2 := by
        rw [Finset.mul_sum, ← Finset.sum_sub_distrib]
        exact Finset.sum_congr rfl fun k _ => by rw [hv]; ring
      rw [this, hc, div_mul_cancel₀ _ hQ, sub_self]
    have e : ∀ y : Fin m → ℝ, (∑ k, u k * y k) ^ 2 * g (∑ k, w k * y k) = (∑ k, v k * y k) ^ 2 * g (∑ k, w k * y k)
        + (2 * c * ((∑ k, v k * y k) * ((∑ k, w k * y k) * g (∑ k, w k * y k))) + c ^ 2 * ((∑ k, w k * y k) ^ 2 * g (∑ k, w k * y k))) := fun y => by
      have : ∑ k, u k * y k = ∑ k, v k * y k + c * ∑ k, w k * y k := by
        rw [Finset.mul_sum, ← Finset.sum_add_distrib]
        exact Finset.sum_congr rfl fun k _ => by rw [hv]; ring
      rw [this]
      ring
    have j1 := normal_square_int hwv hg hi
    have j2 : Integrable (fun y : Fin m → ℝ => 2 * c * ((∑ k, v k * y k) * ((∑ k, w k * y k) * g (∑ k, w k * y k)))) (normal m) := by
      refine Integrable.const_mul ?_ _
      have := (hpoly ((∑ k, C (v k) * X k) * ∑ k, C (w k) * X k)).integrable_mul hL
      simp only [map_mul, map_sum, eval_C, eval_X] at this
      refine this.congr (Eventually.of_forall fun y => ?_)
      exact mul_assoc _ _ _
    have j3 : Integrable (fun y : Fin m → ℝ => c ^ 2 * ((∑ k, w k * y k) ^ 2 * g (∑ k, w k * y k))) (normal m) := by
      refine Integrable.const_mul ?_ _
      have := (hpoly ((∑ k, C (w k) * X k) ^ 2)).integrable_mul hL
      simp only [map_pow, map_mul, map_sum, eval_C, eval_X] at this
      exact this
    have j4 : Integrable (fun y : Fin m → ℝ => 2 * c * ((∑ k, v k * y k) * ((∑ k, w k * y k) * g (∑ k, w k * y k)))
      + c ^ 2 * ((∑ k, w k * y k) ^ 2 * g (∑ k, w k * y k))) (normal m) := j2.add j3
    simp only [e]
    rw [integral_add j1 j4, integral_add j2 j3, integral_const_mul, integral_const_mul, normal_square hwv hg h0, h2,
      normal_orthogonal hwv (g := fun t => t * g t) (by fun_prop)]
    ring
  have z2 : ∀ k l, ∫ y, y k * y l * g (∑ k, w k * y k) ∂(normal m) = 0 := fun k l => by
    have s1 := zsq (Pi.single k 1 + Pi.single l 1)
    have s2 := zsq (Pi.single k 1)
    have s3 := zsq (Pi.single l 1)
    have es : ∀ (k : Fin m) (y : Fin m → ℝ), ∑ j, (Pi.single k 1 : Fin m → ℝ) j * y j = y k := fun k y => by
      simp [Pi.single_apply]
    have ea : ∀ y : Fin m → ℝ, ∑ j, (Pi.single k 1 + Pi.single l 1 : Fin m → ℝ) j * y j = y k + y l := fun y => by
      simp only [Pi.add_apply, add_mul, Finset.sum_add_distrib, es]
    simp only [ea, es] at s1 s2 s3
    have e : ∀ y : Fin m → ℝ, (y k + y l) ^ 2 * g (∑ k, w k * y k) = y k ^ 2 * g (∑ k, w k * y k)
        + (y l ^ 2 * g (∑ k, w k * y k) + 2 * (y k * y l * g (∑ k, w k * y k))) := fun y => by ring
    have k1 : ∀ k, Integrable (fun y : Fin m → ℝ => y k ^ 2 * g (∑ k, w k * y k)) (normal m) := fun k => by
      simpa only [sq] using hi2 k k
    have k2 : Integrable (fun y : Fin m → ℝ => y l ^ 2 * g (∑ k, w k * y k) + 2 * (y k * y l * g (∑ k, w k * y k))) (normal m) :=
      (k1 l).add ((hi2 k l).const_mul 2)
    simp only [e] at s1
    rw [integral_add (k1 k) k2, integral_add (k1 l) ((hi2 k l).const_mul 2), integral_const_mul, s2, s3] at s1
    linarith
  have e : ∀ y : Fin m → ℝ, eval y q * g (∑ k, w k * y k) = eval 0 q * g (∑ k, w k * y k)
      + (∑ k, eval 0 (pderiv k q) * (y k * g (∑ k, w k * y k))
        + ∑ k, ∑ l, 1 / 2 * eval 0 (pderiv k (pderiv l q)) * (y k * y l * g (∑ k, w k * y k))) := fun y => by
    have a1 : ∑ k, eval 0 (pderiv k q) * (y k * g (∑ k, w k * y k)) = (∑ k, eval 0 (pderiv k q) * y k) * g (∑ k, w k * y k) := by
      rw [Finset.sum_mul]
      exact Finset.sum_congr rfl fun k _ => by ring
    have a2 : ∑ k, ∑ l, 1 / 2 * eval 0 (pderiv k (pderiv l q)) * (y k * y l * g (∑ k, w k * y k))
        = 1 / 2 * (∑ k, ∑ l, eval 0 (pderiv k (pderiv l q)) * y k * y l) * g (∑ k, w k * y k) := by
      simp only [Finset.mul_sum, Finset.sum_mul]
      exact Finset.sum_congr rfl fun k _ => Finset.sum_congr rfl fun l _ => by ring
    rw [taylor_two q hq y, a1, a2]
    ring
  have b1 : ∀ k, Integrable (fun y : Fin m → ℝ => eval 0 (pderiv k q) * (y k * g (∑ k, w k * y k))) (normal m) := fun k => (hi1 k).const_mul _
  have b2 : ∀ k l, Integrable (fun y : Fin m → ℝ => 1 / 2 * eval 0 (pderiv k (pderiv l q)) * (y k * y l * g (∑ k, w k * y k))) (normal m) := fun k l => (hi2 k l).const_mul _
  have b3 : Integrable (fun y : Fin m → ℝ => ∑ k, eval 0 (pderiv k q) * (y k * g (∑ k, w k * y k))) (normal m) := integrable_finsetSum _ fun k _ => b1 k
  have b4 : Integrable (fun y : Fin m → ℝ => ∑ k, ∑ l, 1 / 2 * eval 0 (pderiv k (pderiv l q)) * (y k * y l * g (∑ k, w k * y k))) (normal m) :=
    integrable_finsetSum _ fun k _ => integrable_finsetSum _ fun l _ => b2 k l
  have b5 : Integrable (fun y : Fin m → ℝ => ∑ k, eval 0 (pderiv k q) * (y k * g (∑ k, w k * y k))
        + ∑ k, ∑ l, 1 / 2 * eval 0 (pderiv k (pderiv l q)) * (y k * y l * g (∑ k, w k * y k))) (normal m) := b3.add b4
  simp only [e]
  rw [integral_add (hi.const_mul _) b5, integral_add b3 b4, integral_finsetSum _ fun k _ => b1 k,
    integral_finsetSum _ fun k _ => integrable_finsetSum _ fun l _ => b2 k l]
  simp only [integral_finsetSum _ fun l _ => b2 _ l, integral_const_mul, h0, z1, z2, mul_zero, Finset.sum_const_zero, add_zero]

/-- The quadratic polynomial `a + c t + d t²` of the linear form `t = w · x`. -/
noncomputable def ridgeQuad (w : Fin m → ℝ) (a c d : ℝ) : MvPolynomial (Fin m) ℝ :=
  C a + C c * (∑ k, C (w k) * X k) + C d * (∑ k, C (w k) * X k) ^ 2

theorem ridgeQuad_eval (w : Fin m → ℝ) (a c d : ℝ) (y : Fin m → ℝ) :
    eval y (ridgeQuad w a c d) = a + c * (∑ k, w k * y k) + d * (∑ k, w k * y k) ^ 2 := by
  simp [ridgeQuad]

theorem ridgeQuad_grad (w : Fin m → ℝ) (a c d : ℝ) (y : Fin m → ℝ) (k : Fin m) :
    eval y (pderiv k (ridgeQuad w a c d)) = (c + 2 * d * (∑ k, w k * y k)) * w k := by
  have h : pderiv k (∑ l, C (w l) * X l : MvPolynomial (Fin m) ℝ) = C (w k) := by
    rw [map_sum]
    simp [pderiv_X, Pi.single_apply]
  simp only [ridgeQuad, map_add, pderiv_C, pderiv_C_mul, pderiv_pow, h]
  simp
  ring

theorem ridgeQuad_deg (w : Fin m → ℝ) (a c d : ℝ) : (ridgeQuad w a c d).totalDegree ≤ 2 := by
  have hL : (∑ k, C (w k) * X k : MvPolynomial (Fin m) ℝ).totalDegree ≤ 1 := by
    refine totalDegree_finsetSum_le fun k _ => ?_
    refine (totalDegree_mul _ _).trans ?_
    rw [totalDegree_C, totalDegree_X, zero_add]
  refine (totalDegree_add _ _).trans (max_le ((totalDegree_add _ _).trans (max_le ?_ ?_)) ?_)
  · rw [totalDegree_C]
    norm_num
  · refine (totalDegree_mul _ _).trans ?_
    rw [totalDegree_C, zero_add]
    exact hL.trans (by norm_num)
  · refine (totalDegree_mul _ _).trans ?_
    rw [totalDegree_C, zero_add]
    exact (totalDegree_pow _ _).trans (by omega)

/-- The best quadratic approximation of a function of `w · x` is a function of `w · x`. -/
theorem ridge_best {w : Fin m → ℝ} (hw : w ≠ 0) {g : ℝ → ℝ} (hg : Measurable g) (hL : MemLp (fun y : Fin m → ℝ => g (∑ k, w k * y k)) 2 (normal m)) :
    ∃ a c d : ℝ, IsBest (normal m) 2 (fun y => g (∑ k, w k * y k)) (ridgeQuad w a c d) ∧
      (c = 0 → d = 0 → ∫ y, (∑ k, w k * y k) * g (∑ k, w k * y k) ∂(normal m) = 0 ∧
        ∫ y, (∑ k, w k * y k) ^ 2 * g (∑ k, w k * y k) ∂(normal m) = (∑ k, w k ^ 2) * ∫ y, g (∑ k, w k * y k) ∂(normal m)) := by
  have hQ : ∑ l, w l ^ 2 ≠ 0 := fun h => hw (funext fun i => by
    have := (Finset.sum_eq_zero_iff_of_nonneg fun i _ => sq_nonneg (w i)).mp h i (Finset.mem_univ i)
    exact pow_eq_zero_iff (by norm_num) |>.mp this)
  have hmem : ∀ a c d : ℝ, MemLp (fun y : Fin m → ℝ => a + c * (∑ k, w k * y k) + d * (∑ k, w k * y k) ^ 2) 2 (normal m) := fun a c d => by
    have := (polyMoments_normal (m := m) 2).sq _ (ridgeQuad_deg w a c d)
    simpa only [ridgeQuad_eval] using this
  have hφ : ∀ j : Fin 3, MemLp (fun y : Fin m → ℝ => (∑ k, w k * y k) ^ (j : ℕ)) 2 (normal m) := fun j => by
    fin_cases j
    · simpa using hmem 1 0 0
    · simpa using hmem 0 1 0
    · simpa using hmem 0 0 1
  obtain ⟨u, hu⟩ := exists_best (ν := normal m) (φ := fun (j : Fin 3) (y : Fin m → ℝ) => (∑ k, w k * y k) ^ (j : ℕ)) hφ hL (fun v hv => by
    have hv' : ∫ y, eval y (ridgeQuad w (v 0) (v 1) (v 2)) ^ 2 ∂(normal m) = 0 := by
      simpa [ridgeQuad_eval, Fin.sum_univ_three] using hv
    have h0 := (polyMoments_normal (m := m) 2).det _ (ridgeQuad_deg w _ _ _) hv'
    have hs : ∀ s : ℝ, v 0 + v 1 * s + v 2 * s ^ 2 = 0 := fun s => by
      have := ridgeQuad_eval w (v 0) (v 1) (v 2) fun k => s / (∑ l, w l ^ 2) * w k
      have e : ∑ k, w k * (s / (∑ l, w l ^ 2) * w k) = s := by
        have : ∑ k, w k * (s / (∑ l, w l ^ 2) * w k) = s / (∑ l, w l ^ 2) * ∑ k, w k ^ 2 := by
          rw [Finset.mul_sum]
          exact Finset.sum_congr rfl fun k _ => by ring
        rw [this, div_mul_cancel₀ _ hQ]
      rw [h0, e, map_zero] at this
      exact this.symm
    have s0 := hs 0
    have s1 := hs 1
    have s2 := hs (-1)
    norm_num at s0 s1 s2
    funext j
    fin_cases j
    · exact s0
    · change v 1 = 0
      linarith
    · change v 2 = 0
      linarith)
  have hn := normal_mean hφ hL hu
  set r : ℝ → ℝ := fun t => u 0 + u 1 * t + u 2 * t ^ 2 - g t with hr
  have hrm : Measurable r := by fun_prop
  have hrL : MemLp (fun y : Fin m → ℝ => r (∑ k, w k * y k)) 2 (normal m) := (hmem (u 0) (u 1) (u 2)).sub hL
  have hz : ∀ j : Fin 3, ∫ y, (∑ k, w k * y k) ^ (j : ℕ) * r (∑ k, w k * y k) ∂(normal m) = 0 := fun j => by
    have i1 : ∀ k : Fin 3, Integrable (fun y : Fin m → ℝ => (∑ l, w l * y l) ^ (j : ℕ) * (∑ l, w l * y l) ^ (k : ℕ) * u k) (normal m) :=
      fun k => ((hφ j).integrable_mul (hφ k)).mul_const _
    have i2 : Integrable (fun y : Fin m → ℝ => ∑ k : Fin 3, (∑ l, w l * y l) ^ (j : ℕ) * (∑ l, w l * y l) ^ (k : ℕ) * u k) (normal m) :=
      integrable_finsetSum _ fun k _ => i1 k
    have i3 : Integrable (fun y : Fin m → ℝ => (∑ l, w l * y l) ^ (j : ℕ) * g (∑ l, w l * y l)) (normal m) := (hφ j).integrable_mul hL
    have e : ∀ y : Fin m → ℝ, (∑ k, w k * y k) ^ (j : ℕ) * r (∑ k, w k * y k)
        = (∑ k : Fin 3, (∑ l, w l * y l) ^ (j : ℕ) * (∑ l, w l * y l) ^ (k : ℕ) * u k) - (∑ l, w l * y l) ^ (j : ℕ) * g (∑ l, w l * y l) := fun y => by
      rw [Fin.sum_univ_three, hr]
      simp only [Fin.val_zero, Fin.val_one, Fin.val_two]
      ring
    simp only [e]
    rw [integral_sub i2 i3, integral_finsetSum _ fun k _ => i1 k]
    simp only [integral_mul_const]
    rw [hn j, sub_self]
  have z0 := hz 0
  have z1 := hz 1
  have z2 := hz 2
  simp only [Fin.val_zero, pow_zero, one_mul] at z0
  simp only [Fin.val_one, pow_one] at z1
  simp only [Fin.val_two] at z2
  refine ⟨u 0, u 1, u 2, isBest_of_orthogonal (polyMoments_normal 2) hL (ridgeQuad_deg w _ _ _) fun q hq => ?_, fun hc hd => ?_⟩
  · simp only [ridgeQuad_eval]
    exact ridge_orthogonal hw hrm hrL z0 z1 z2 hq
  · simp only [hr, hc, hd, zero_mul, add_zero, mul_sub] at z0 z1 z2
    have j0 : Integrable (fun y : Fin m → ℝ => g (∑ l, w l * y l)) (normal m) := hL.integrable (by norm_num)
    have j1 : Integrable (fun y : Fin m → ℝ => (∑ l, w l * y l) * g (∑ l, w l * y l)) (normal m) := (form_memLp w).integrable_mul hL
    have j2 : Integrable (fun y : Fin m → ℝ => (∑ l, w l * y l) ^ 2 * g (∑ l, w l * y l)) (normal m) := (hφ 2).integrable_mul hL
    have k1 : Integrable (fun y : Fin m → ℝ => (∑ l, w l * y l) * u 0) (normal m) := ((form_memLp w).integrable (by norm_num)).mul_const _
    have k2 : Integrable (fun y : Fin m → ℝ => (∑ l, w l * y l) ^ 2 * u 0) (normal m) := (form_memLp w).integrable_sq.mul_const _
    have q2 : ∫ y : Fin m → ℝ, (∑ l, w l * y l) ^ 2 ∂(normal m) = ∑ k, w k ^ 2 := by
      have := white_normal.affine_sq (m := m) 0 w
      simpa [mul_comm] using this
    rw [integral_sub (integrable_const _) j0, integral_const, probReal_univ, one_smul] at z0
    rw [integral_sub k1 j1, integral_mul_const, form_mean] at z1
    rw [integral_sub k2 j2, integral_mul_const, q2] at z2
    constructor
    · linarith
    · rw [← sub_eq_zero.mp z0]
      linarith

/-- C124: standard normal inputs and an output that depends on one linear form `w · x` and is correlated with it or with its square: the first eigenvector
converges almost surely up to sign to the direction of `w`, and the other eigenvalues to zero. -/
theorem C124_ridge (lib : Model.Subspaces.Lib) (hl : SubLibOK lib) (hm : 2 ≤ m) {x : ℕ → Ω → Fin m → ℝ} (hx : ∀ i, MeasurePreserving (x i) μ (normal m))
    (hind : Pairwise fun i j => IndepFun (x i) (x j) μ) {w : Fin m → ℝ} {g : ℝ → ℝ} (hg : Measurable g)
    (hL : MemLp (fun y : Fin m → ℝ => g (∑ k, w k * y k)) 2 (normal m))
    (hc : ∫ y, (∑ k, w k * y k) * g (∑ k, w k * y k) ∂(normal m) ≠ 0 ∨
      ∫ y, (∑ k, w k * y k) ^ 2 * g (∑ k, w k * y k) ∂(normal m) ≠ (∑ k, w k ^ 2) * ∫ y, g (∑ k, w k * y k) ∂(normal m)) :
    ∀ᵐ ω ∂μ, ∃ (e : ℕ → Fin m → ℝ) (V : ℕ → Matrix (Fin m) (Fin m) ℝ),
      (∀ᶠ M : ℕ in atTop, qphd_subspace lib (.mat (NpMat.of (rowsOf x M ω))) (.mat (wcol fun i : Fin M => g (∑ k, w k * x i ω k)))
        (wcol fun _ : Fin M => 1 / (M : ℝ)) = .ok ⟨m, e M, V M⟩) ∧
      (∃ l : ℝ, 0 < l ∧ Tendsto (fun M => e M ⟨0, by omega⟩) atTop (𝓝 l)) ∧
      (∀ j : Fin m, (j : ℕ) ≠ 0 → Tendsto (fun M => e M j) atTop (𝓝 0)) ∧
      ∀ k l, Tendsto (fun M => V M k ⟨0, by omega⟩ * V M l ⟨0, by omega⟩) atTop (𝓝 (w k * w l / ∑ i, w i ^ 2)) := by
  have hm0 : 0 < m := by omega
  have hw : w ≠ 0 := by
    rintro rfl
    simp at hc
  have hQ : 0 < ∑ i, w i ^ 2 := by
    obtain ⟨i, hi⟩ := Function.ne_iff.mp hw
    have hi' : w i ≠ 0 := hi
    exact Finset.sum_pos' (fun i _ => sq_nonneg _) ⟨i, Finset.mem_univ i, by positivity⟩
  obtain ⟨a, c, d, hP, hcd⟩ := ridge_best hw hg hL
  have hcd' : c ≠ 0 ∨ d ≠ 0 := by
    by_contra h
    push Not at h
    obtain ⟨h1, h2⟩ := hcd h.1 h.2
    rcases hc with h3 | h3
    · exact h3 h1
    · exact h3 h2
  set L := c ^ 2 + 4 * d ^ 2 * ∑ i, w i ^ 2 with hLd
  have hLpos : 0 < L := by
    rcases hcd' with h | h
    · have : 0 ≤ 4 * d ^ 2 * ∑ i, w i ^ 2 := by positivity
      have : 0 < c ^ 2 := by positivity
      linarith
    · have : 0 < 4 * d ^ 2 * ∑ i, w i ^ 2 := by positivity
      nlinarith [sq_nonneg c]
  have hint : ∀ k l : Fin m, ∫ y, eval y (pderiv k (ridgeQuad w a c d)) * eval y (pderiv l (ridgeQuad w a c d)) ∂(normal m)
      = (Real.sqrt L * w k) * (Real.sqrt L * w l) := fun k l => by
    have e : ∀ y : Fin m → ℝ, eval y (pderiv k (ridgeQuad w a c d)) * eval y (pderiv l (ridgeQuad w a c d))
        = (c + ∑ j, y j * (2 * d * w j)) ^ 2 * (w k * w l) := fun y => by
      have : ∑ j, y j * (2 * d * w j) = 2 * d * ∑ j, w j * y j := by
        rw [Finset.mul_sum]
        exact Finset.sum_congr rfl fun j _ => by ring
      rw [ridgeQuad_grad, ridgeQuad_grad, this]
      ring
    simp only [e]
    rw [integral_mul_const, white_normal.affine_sq, mul_mul_mul_comm, Real.mul_self_sqrt hLpos.le, hLd]
    congr 2
    rw [one_mul, Finset.mul_sum]
    exact Finset.sum_congr rfl fun j _ => by ring
  obtain ⟨l, U, -, hU⟩ := C34_posSemidef lib hl hm0 _ (rank_one_posSemidef fun k => Real.sqrt L * w k)
  obtain ⟨r1, r2, t, r3, r4⟩ := rank_one hm0 hU
  have hsum : ∑ k, (Real.sqrt L * w k) ^ 2 = L * ∑ i, w i ^ 2 := by
    simp only [mul_pow, Real.sq_sqrt hLpos.le, ← Finset.mul_sum]
  rw [hsum] at r1 r3
  have hlpos : 0 < l ⟨0, hm0⟩ := by rw [r1]; positivity
  have hlim := C124_limit lib hl hm0 (polyMoments_normal 2) (assumed_normal hm0) hx hind (F := fun y => g (∑ k, w k * y k)) (by fun_prop) hL hP (l := l) (U := U) (by
    simp only [hint]
    exact hU)
  filter_upwards [hlim] with ω ⟨e, V, h1, h2, h3⟩
  refine ⟨e, V, h1, ⟨_, hlpos, h2 _⟩, fun j hj => by have := h2 j; rwa [r2 j hj] at this, fun k k' => ?_⟩
  have h4 := h3 1 le_rfl (by omega) (by rw [r2 ⟨1, by omega⟩ (by simp)]; exact hlpos) k k'
  have hp : ∀ V : Matrix (Fin m) (Fin m) ℝ, projEntry V 1 k k' = V k ⟨0, hm0⟩ * V k' ⟨0, hm0⟩ := fun V => by
    unfold projEntry
    rw [Finset.sum_eq_single ⟨0, hm0⟩ (fun j _ hj => if_neg fun h => hj (Fin.ext (by change (j : ℕ) = 0; omega))) (fun h => absurd (Finset.mem_univ _) h), if_pos (by simp)]
  simp only [hp] at h4
  have hU0 : U k ⟨0, hm0⟩ * U k' ⟨0, hm0⟩ = w k * w k' / ∑ i, w i ^ 2 := by
    have ht : t ^ 2 ≠ 0 := by rw [r3]; positivity
    have : (Real.sqrt L * w k) * (Real.sqrt L * w k') = t ^ 2 * (U k ⟨0, hm0⟩ * U k' ⟨0, hm0⟩) := by
      rw [r4 k, r4 k']
      ring
    rw [mul_mul_mul_comm, Real.mul_self_sqrt hLpos.le, r3] at this
    rw [eq_div_iff hQ.ne']
    have h5 : L * (w k * w k') = L * (U k ⟨0, hm0⟩ * U k' ⟨0, hm0⟩ * ∑ i, w i ^ 2) := by rw [this]; ring
    exact (mul_left_cancel₀ hLpos.ne' h5).symm
  rwa [hU0] at h4

/-- Functions that increase with `|w · x|` are correlated with `(w · x)²`. -/
theorem even_corr {w : Fin m → ℝ} (hw : w ≠ 0) {h : ℝ → ℝ} (hh : StrictMono h) (hL : MemLp (fun y : Fin m → ℝ => h ((∑ k, w k * y k) ^ 2)) 2 (normal m)) :
    (∑ k, w k ^ 2) * ∫ y, h ((∑ k, w k * y k) ^ 2) ∂(normal m) < ∫ y, (∑ k, w k * y k) ^ 2 * h ((∑ k, w k * y k) ^ 2) ∂(normal m) := by
  set q := ∑ k, w k ^ 2 with hq
  have hQ : q ≠ 0 := fun h => hw (funext fun i => by
    have := (Finset.sum_eq_zero_iff_of_nonneg fun i _ => sq_nonneg (w i)).mp h i (Finset.mem_univ i)
    exact pow_eq_zero_iff (by norm_num) |>.mp this)
  have hsq : MemLp (fun y : Fin m → ℝ => (∑ k, w k * y k) ^ 2) 2 (normal m) := by
    have := (polyMoments_normal (m := m) 2).sq _ (ridgeQuad_deg w 0 0 1)
    simpa [ridgeQuad_eval] using this
  have q2 : ∫ y : Fin m → ℝ, (∑ l, w l * y l) ^ 2 ∂(normal m) = q := by
    have := white_normal.affine_sq (m := m) 0 w
    simpa [mul_comm] using this
  have i0 : Integrable (fun y : Fin m → ℝ => h ((∑ k, w k * y k) ^ 2)) (normal m) := hL.integrable (by norm_num)
  have i1 : Integrable (fun y : Fin m → ℝ => (∑ k, w k * y k) ^ 2 * h ((∑ k, w k * y k) ^ 2)) (normal m) := hsq.integrable_mul hL
  have i2 : Integrable (fun y : Fin m → ℝ => (∑ k, w k * y k) ^ 2) (normal m) := hsq.integrable (by norm_num)
  have i3 : Integrable (fun y : Fin m → ℝ => (∑ k, w k * y k) ^ 2 * h ((∑ k, w k * y k) ^ 2) - q * h ((∑ k, w k * y k) ^ 2)) (normal m) := i1.sub (i0.const_mul q)
  have i4 : Integrable (fun y : Fin m → ℝ => (∑ k, w k * y k) ^ 2 * h q - q * h q) (normal m) := (i2.mul_const _).sub (integrable_const _)
  have e : ∀ y : Fin m → ℝ, ((∑ k, w k * y k) ^ 2 - q) * (h ((∑ k, w k * y k) ^ 2) - h q)
      = ((∑ k, w k * y k) ^ 2 * h ((∑ k, w k * y k) ^ 2) - q * h ((∑ k, w k * y k) ^ 2)) - ((∑ k, w k * y k) ^ 2 * h q - q * h q) := fun y => by ring
  have i5 : Integrable (fun y : Fin m → ℝ => ((∑ k, w k * y k) ^ 2 - q) * (h ((∑ k, w k * y k) ^ 2) - h q)) (normal m) := by
    simp only [e]
    exact i3.sub i4
  have h1 : ∫ y, ((∑ k, w k * y k) ^ 2 - q) * (h ((∑ k, w k * y k) ^ 2) - h q) ∂(normal m)
      = ∫ y, (∑ k, w k * y k) ^ 2 * h ((∑ k, w k * y k) ^ 2) ∂(normal m) - q * ∫ y, h ((∑ k, w k * y k) ^ 2) ∂(normal m) := by
    simp only [e]
    rw [integral_sub i3 i4, integral_sub i1 (i0.const_mul q), integral_sub (i2.mul_const _) (integrable_const _), integral_const_mul, integral_mul_const, q2,
      integral_const, probReal_univ, one_smul, sub_self, sub_zero]
  have hnn : ∀ t : ℝ, 0 ≤ (t - q) * (h t - h q) := fun t => by
    rcases le_total q t with ht | ht
    · exact mul_nonneg (sub_nonneg.mpr ht) (sub_nonneg.mpr (hh.monotone ht))
    · exact mul_nonneg_of_nonpos_of_nonpos (sub_nonpos.mpr ht) (sub_nonpos.mpr (hh.monotone ht))
  rw [← sub_pos, ← h1]
  refine lt_of_le_of_ne (integral_nonneg fun y => hnn _) fun h0 => hQ ?_
  have h2 := (integral_eq_zero_iff_of_nonneg (fun y => hnn _) i5).mp h0.symm
  have h3 : ∫ y, eval y (ridgeQuad w (-q) 0 1) ^ 2 ∂(normal m) = 0 := by
    refine integral_eq_zero_of_ae ?_
    filter_upwards [h2] with y hy
    have hy' : ((∑ k, w k * y k) ^ 2 - q) * (h ((∑ k, w k * y k) ^ 2) - h q) = 0 := hy
    have : (∑ k, w k * y k) ^ 2 = q := by
      rcases mul_eq_zero.mp hy' with h | h
      · linarith
      · exact hh.injective (sub_eq_zero.mp h)
    simp only [ridgeQuad_eval, Pi.zero_apply]
    rw [this]
    ring
  have h4 := ridgeQuad_eval w (-q) 0 1 0
  rw [(polyMoments_normal (m := m) 2).det _ (ridgeQuad_deg w _ _ _) h3] at h4
  simpa using h4

/-- C124: outputs that increase with `|w · x|`: `qphd_subspace` finds the direction of `w`, while the only eigenvalue of `ols_subspace` that is not zero converges to zero. -/
theorem C124_even (lib : Model.Subspaces.Lib) (hl : SubLibOK lib) (hm : 2 ≤ m) {x : ℕ → Ω → Fin m → ℝ} (hx : ∀ i, MeasurePreserving (x i) μ (normal m))
    (hind : Pairwise fun i j => IndepFun (x i) (x j) μ) {w : Fin m → ℝ} (hw : w ≠ 0) {h : ℝ → ℝ} (hh : StrictMono h)
    (hL : MemLp (fun y : Fin m → ℝ => h ((∑ k, w k * y k) ^ 2)) 2 (normal m)) :
    ∀ᵐ ω ∂μ, ∃ (e e' : ℕ → Fin m → ℝ) (V V' : ℕ → Matrix (Fin m) (Fin m) ℝ),
      (∀ᶠ M : ℕ in atTop, qphd_subspace lib (.mat (NpMat.of (rowsOf x M ω))) (.mat (wcol fun i : Fin M => h ((∑ k, w k * x i ω k) ^ 2)))
        (wcol fun _ : Fin M => 1 / (M : ℝ)) = .ok ⟨m, e M, V M⟩) ∧
      (∀ k l, Tendsto (fun M => V M k ⟨0, by omega⟩ * V M l ⟨0, by omega⟩) atTop (𝓝 (w k * w l / ∑ i, w i ^ 2))) ∧
      (∀ M : ℕ, ols_subspace lib (.mat (NpMat.of (rowsOf x M ω))) (.mat (wcol fun i : Fin M => h ((∑ k, w k * x i ω k) ^ 2)))
        (wcol fun _ : Fin M => 1 / (M : ℝ)) = .ok ⟨m, e' M, V' M⟩) ∧
      ∀ j, Tendsto (fun M => e' M j) atTop (𝓝 0) := by
  have hm0 : 0 < m := by omega
  have hhm := hh.monotone.measurable
  have hodd : ∀ k : Fin m, ∫ y, y k * h ((∑ l, w l * y l) ^ 2) ∂(normal m) = 0 := fun k => by
    have hneg : MeasurePreserving (fun y : Fin m → ℝ => -y) (normal m) (normal m) := by
      refine measurePreserving_pi (f := fun _ t => -t) _ _ fun i => ⟨measurable_neg, ?_⟩
      rw [gaussianReal_map_neg, neg_zero]
    have h1 : ∫ y : Fin m → ℝ, (-y) k * h ((∑ l, w l * (-y) l) ^ 2) ∂(normal m) = ∫ y, y k * h ((∑ l, w l * y l) ^ 2) ∂(normal m) := by
      conv_rhs => rw [← hneg.map_eq]
      rw [integral_map hneg.measurable.aemeasurable (Measurable.aestronglyMeasurable (by fun_prop))]
    have h2 : ∀ y : Fin m → ℝ, (-y) k * h ((∑ l, w l * (-y) l) ^ 2) = -(y k * h ((∑ l, w l * y l) ^ 2)) := fun y => by
      simp only [Pi.neg_apply, mul_neg, Finset.sum_neg_distrib, neg_sq, neg_mul]
    simp only [h2, integral_neg] at h1
    linarith
  have h1 := C124_ridge lib hl hm hx hind (g := fun t => h (t ^ 2)) (by fun_prop) hL (.inr (even_corr hw hh hL).ne')
  have h2 := C121_limit lib hl hm0 hx hind (F := fun y => h ((∑ k, w k * y k) ^ 2)) (by fun_prop) white_normal.sq hL white_normal.det
    (a := ∫ y, h ((∑ k, w k * y k) ^ 2) ∂(normal m)) (s := fun k => (∫ y, y k * h ((∑ l, w l * y l) ^ 2) ∂(normal m)) / 1) (white_normal.best hL)
  filter_upwards [h1, h2] with ω ⟨e, V, g1, _, _, g2⟩ ⟨e', V', g3, g4, g5, _⟩
  refine ⟨e, e', V, V', g1, g2, g3, fun j => ?_⟩
  by_cases hj : (j : ℕ) = 0
  · rw [show j = ⟨0, hm0⟩ from Fin.ext hj]
    simpa [hodd] using g5
  · simp only [fun M => g4 M j hj]
    exact tendsto_const_nhds

/-! ## The hypotheses can be met -/

/-- `(x_1 + 2 x_2)²` with standard normal inputs. -/
example (lib : Model.Subspaces.Lib) (hl : SubLibOK lib) :=
  C124_even lib hl le_rfl (inputs_exist (normal 2)).1 (inputs_exist _).2 (w := ![1, 2]) (fun h => by simpa using congrFun h 0) (h := fun t => t) strictMono_id (by
    have := (polyMoments_normal (m := 2) 2).sq _ (ridgeQuad_deg ![1, 2] 0 0 1)
    simpa [ridgeQuad_eval] using this)

/-- The limit for `|x_1|` with inputs uniform on the square. -/
example (lib : Model.Subspaces.Lib) (hl : SubLibOK lib) {P : MvPolynomial (Fin 2) ℝ} (hP : IsBest (Measure.pi fun _ : Fin 2 => unifMeasure) 2 (fun y => |y 0|) P)
    {l : Fin 2 → ℝ} {U : Matrix (Fin 2) (Fin 2) ℝ}
    (hU : IsSortedEigh (Matrix.of fun a b => ∫ y, eval y (pderiv a P) * eval y (pderiv b P) ∂(Measure.pi fun _ : Fin 2 => unifMeasure)) l U) :=
  C124_limit lib hl (by norm_num) (polyMoments_unif 2) assumed_unif (inputs_exist (Measure.pi fun _ : Fin 2 => unifMeasure)).1 (inputs_exist _).2
    (F := fun y => |y 0|) (by fun_prop) (white_unif.sq 0).abs hP hU

end Props
