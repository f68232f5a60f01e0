import Mathlib.Topology.MetricSpace.Lipschitz
import Verif.Props.MonteCarlo
import Verif.Props.Bootstrap
import Verif.Props.Compute
import Verif.Proofs.KyFan
import Verif.Proofs.Run

/-!
# Property C117: eigenvalues from samples are biased outwards
-/

open Py Model.Subspaces Model.Misc Spec Matrix Proofs.Eigh Proofs.Perturb Proofs.Bootstrap Proofs.Run MeasureTheory ProbabilityTheory Filter
open scoped Topology

namespace Props

variable {S E Ω : Type} {M m n : ℕ} [MeasurableSpace Ω]

/-! ## Sums of the first eigenvalues -/

/-- The sum of the first `n` eigenvalues is a linear function of the matrix. -/
theorem top_eq {A V : Matrix (Fin m) (Fin m) ℝ} {e : Fin m → ℝ} (h : IsSortedEigh A e V) (n : ℕ) :
    ∑ j : Fin m, (if (j : ℕ) < n then e j else 0) = ∑ a, ∑ b, projEntry V n a b * A a b := by
  have h1 : ∀ j, ∑ a, ∑ b, V a j * V b j * A a b = e j := fun j => by
    have h2 : ∀ a, ∑ b, A a b * V b j = e j * V a j := fun a => congrFun (h.vec j) a
    have h3 := h.orth j j
    rw [if_pos rfl] at h3
    calc ∑ a, ∑ b, V a j * V b j * A a b = ∑ a, V a j * ∑ b, A a b * V b j := by
          refine Finset.sum_congr rfl fun a _ => ?_
          rw [Finset.mul_sum]
          exact Finset.sum_congr rfl fun b _ => by ring
      _ = e j * ∑ a, V a j * V a j := by
          rw [Finset.mul_sum]
          exact Finset.sum_congr rfl fun a _ => by rw [h2]; ring
      _ = e j := by rw [h3, mul_one]
  unfold projEntry
  simp only [Finset.sum_mul]
  rw [Finset.sum_congr rfl fun a (_ : a ∈ Finset.univ) => Finset.sum_comm, Finset.sum_comm]
  refine Finset.sum_congr rfl fun j _ => ?_
  split_ifs with hj
  · exact (h1 j).symm
  · simp

/-- No other matrix has a smaller sum than the value of this linear function. -/
theorem le_top {A V B U : Matrix (Fin m) (Fin m) ℝ} {e l : Fin m → ℝ} (h : IsSortedEigh A e V) (hB : IsSortedEigh B l U) (hn : n ≤ m) :
    ∑ a, ∑ b, projEntry V n a b * B a b ≤ ∑ j : Fin m, if (j : ℕ) < n then l j else 0 := by
  refine le_trans (le_of_eq ?_) (Proofs.KyFan.capture_le hB.isEigh.vecs hB.isEigh.orth hB.anti hn (firstCols_orth' h.isEigh.orth n hn))
  simp only [projEntry_eq V hn]
  rw [Matrix.trace]
  simp only [Matrix.diag_apply, Matrix.mul_apply, Matrix.transpose_apply, Finset.sum_mul]
  rw [Finset.sum_congr rfl fun a (_ : a ∈ Finset.univ) => Finset.sum_comm, Finset.sum_comm]
  refine Finset.sum_congr rfl fun j _ => ?_
  rw [Finset.sum_comm]
  refine Finset.sum_congr rfl fun b _ => Finset.sum_congr rfl fun a _ => ?_
  ring

theorem all_eq {A V : Matrix (Fin m) (Fin m) ℝ} {e : Fin m → ℝ} (h : IsSortedEigh A e V) : ∑ j, e j = ∑ a, A a a := by
  have h1 := h.isEigh
  have h2 : V * V.transpose = 1 := mul_eq_one_comm.mp h1.orth
  have h3 : A = V * Matrix.diagonal e * V.transpose := by rw [← h1.vecs, Matrix.mul_assoc, h2, Matrix.mul_one]
  have h4 : A.trace = ∑ j, e j := by
    rw [h3, Matrix.trace_mul_comm, ← Matrix.mul_assoc, h1.orth, Matrix.one_mul, Matrix.trace_diagonal]
  exact h4.symm

theorem split_sum (e : Fin m → ℝ) (n : ℕ) :
    ∑ j : Fin m, (if n ≤ (j : ℕ) then e j else 0) = ∑ j, e j - ∑ j : Fin m, if (j : ℕ) < n then e j else 0 := by
  rw [← Finset.sum_sub_distrib]
  refine Finset.sum_congr rfl fun j _ => ?_
  by_cases h : (j : ℕ) < n
  · rw [if_neg (by omega), if_pos h, sub_self]
  · rw [if_pos (by omega), if_neg h, sub_zero]

/-! ## Measurability -/

theorem eig_lipschitz {A B V U : Matrix (Fin m) (Fin m) ℝ} {e l : Fin m → ℝ} (hA : IsSortedEigh A e V) (hB : IsSortedEigh B l U) (j : Fin m) :
    |e j - l j| ≤ ∑ a, ∑ b, |A a b - B a b| := by
  refine (eig_close hA hB j).trans ((norm_le_sum _).trans_eq ?_)
  simp only [Matrix.sub_apply]

/-- Eigenvalues of a random matrix are random variables. -/
theorem eig_measurable {μ : Measure Ω} {C V : Ω → Matrix (Fin m) (Fin m) ℝ} {e : Ω → Fin m → ℝ} (h : ∀ ω, IsSortedEigh (C ω) (e ω) (V ω))
    (hC : ∀ a b, AEMeasurable (fun ω => C ω a b) μ) (j : Fin m) : AEMeasurable (fun ω => e ω j) μ := by
  classical
  let s : Set (Fin m → Fin m → ℝ) := {A | ∃ e V, IsSortedEigh (Matrix.of A) e V}
  let F : (Fin m → Fin m → ℝ) → ℝ := fun A => if hA : A ∈ s then hA.choose j else 0
  have hF : ∀ {A : Fin m → Fin m → ℝ} {e V}, IsSortedEigh (Matrix.of A) e V → F A = e j := fun {A e V} hA => by
    have hs : A ∈ s := ⟨e, V, hA⟩
    have h1 : F A = hs.choose j := dif_pos hs
    obtain ⟨V', h2⟩ := hs.choose_spec
    rw [h1]
    have h3 := eig_lipschitz h2 hA j
    simp only [sub_self, abs_zero, Finset.sum_const_zero] at h3
    exact sub_eq_zero.mp (abs_eq_zero.mp (le_antisymm h3 (abs_nonneg _)))
  have hlip : LipschitzOnWith (m * m : NNReal) F s := by
    refine LipschitzOnWith.of_dist_le_mul fun A hA B hB => ?_
    obtain ⟨e1, V1, h1⟩ := id hA
    obtain ⟨e2, V2, h2⟩ := id hB
    rw [hF h1, hF h2, Real.dist_eq]
    refine (eig_lipschitz h1 h2 j).trans ?_
    have h3 : ∀ a b, |Matrix.of A a b - Matrix.of B a b| ≤ dist A B := fun a b =>
      (Real.dist_eq _ _).symm.le.trans ((dist_le_pi_dist (A a) (B a) b).trans (dist_le_pi_dist A B a))
    refine (Finset.sum_le_sum fun a _ => Finset.sum_le_sum fun b _ => h3 a b).trans_eq ?_
    simp only [Finset.sum_const, Finset.card_univ, Fintype.card_fin, nsmul_eq_mul]
    push_cast
    ring
  obtain ⟨G, hG, hGF⟩ := hlip.extend_real
  have h4 : (fun ω => e ω j) = fun ω => G fun a b => C ω a b := funext fun ω => by
    have h5 : IsSortedEigh (Matrix.of fun a b => C ω a b) (e ω) (V ω) := h ω
    rw [← hF h5]
    exact hGF ⟨_, _, h5⟩
  rw [h4]
  exact hG.continuous.measurable.comp_aemeasurable (aemeasurable_pi_iff.mpr fun a => aemeasurable_pi_iff.mpr fun b => hC a b)

theorem eig_le_trace {A V : Matrix (Fin m) (Fin m) ℝ} {e : Fin m → ℝ} (h : IsSortedEigh A e V) (j : Fin m) : |e j| ≤ ∑ a, A a a := by
  rw [abs_of_nonneg (h.nonneg j), ← all_eq h]
  exact Finset.single_le_sum (fun j _ => h.nonneg j) (Finset.mem_univ j)

theorem eig_integrable {μ : Measure Ω} {C V : Ω → Matrix (Fin m) (Fin m) ℝ} {e : Ω → Fin m → ℝ} (h : ∀ ω, IsSortedEigh (C ω) (e ω) (V ω))
    (hC : ∀ a b, Integrable (fun ω => C ω a b) μ) (j : Fin m) : Integrable (fun ω => e ω j) μ :=
  (integrable_finsetSum Finset.univ fun a _ => hC a a).mono' (eig_measurable h (fun a b => (hC a b).aemeasurable) j).aestronglyMeasurable
    (.of_forall fun ω => eig_le_trace (h ω) j)

/-! ## Means -/

/-- The eigenvalues of a random matrix are, on average, spread more widely than those of its mean. -/
theorem eig_bias {μ : Measure Ω} {C V : Ω → Matrix (Fin m) (Fin m) ℝ} {e : Ω → Fin m → ℝ} (h : ∀ ω, IsSortedEigh (C ω) (e ω) (V ω))
    (hC : ∀ a b, Integrable (fun ω => C ω a b) μ) {B U : Matrix (Fin m) (Fin m) ℝ} {l : Fin m → ℝ} (hB : IsSortedEigh B l U)
    (hm : ∀ a b, ∫ ω, C ω a b ∂μ = B a b) (hn : n ≤ m) :
    (∀ j, Integrable (fun ω => e ω j) μ) ∧
    (∑ j : Fin m, if (j : ℕ) < n then l j else 0) ≤ ∑ j : Fin m, (if (j : ℕ) < n then ∫ ω, e ω j ∂μ else 0) ∧
    (∑ j : Fin m, if n ≤ (j : ℕ) then ∫ ω, e ω j ∂μ else 0) ≤ ∑ j : Fin m, (if n ≤ (j : ℕ) then l j else 0) ∧
    ∑ j : Fin m, ∫ ω, e ω j ∂μ = ∑ j, l j := by
  have hi := eig_integrable h hC
  have h1 : (∑ j : Fin m, if (j : ℕ) < n then l j else 0) ≤ ∑ j : Fin m, (if (j : ℕ) < n then ∫ ω, e ω j ∂μ else 0) := by
    have e1 : ∑ j : Fin m, (if (j : ℕ) < n then ∫ ω, e ω j ∂μ else 0) = ∫ ω, ∑ j : Fin m, (if (j : ℕ) < n then e ω j else 0) ∂μ := by
      rw [integral_finsetSum Finset.univ (f := fun (j : Fin m) ω => if (j : ℕ) < n then e ω j else 0) fun j _ => by
        split_ifs
        · exact hi j
        · exact integrable_zero _ _ _]
      refine Finset.sum_congr rfl fun j _ => ?_
      split_ifs <;> simp
    have e2 : ∑ j : Fin m, (if (j : ℕ) < n then l j else 0) = ∫ ω, ∑ a, ∑ b, projEntry U n a b * C ω a b ∂μ := by
      rw [top_eq hB, integral_finsetSum Finset.univ (f := fun a ω => ∑ b, projEntry U n a b * C ω a b) fun a _ =>
        integrable_finsetSum _ fun b _ => (hC a b).const_mul _]
      refine Finset.sum_congr rfl fun a _ => ?_
      rw [integral_finsetSum Finset.univ (f := fun b ω => projEntry U n a b * C ω a b) fun b _ => (hC a b).const_mul _]
      exact Finset.sum_congr rfl fun b _ => by rw [integral_const_mul, hm]
    rw [e1, e2]
    refine integral_mono (integrable_finsetSum _ fun a _ => integrable_finsetSum _ fun b _ => (hC a b).const_mul _)
      (integrable_finsetSum _ fun j _ => ?_) fun ω => le_top hB (h ω) hn
    split_ifs
    · exact hi j
    · exact integrable_zero _ _ _
  have h2 : ∑ j : Fin m, ∫ ω, e ω j ∂μ = ∑ j, l j := by
    rw [← integral_finsetSum Finset.univ (f := fun (j : Fin m) ω => e ω j) fun j _ => hi j]
    simp only [fun ω => all_eq (h ω)]
    rw [integral_finsetSum Finset.univ (f := fun a ω => C ω a a) fun a _ => hC a a, all_eq hB]
    exact Finset.sum_congr rfl fun a _ => hm a a
  refine ⟨hi, h1, ?_, h2⟩
  rw [split_sum, split_sum, h2]
  linarith

/-! ## Monte Carlo -/

theorem sample_integrable {μ : Measure Ω} {g : ℕ → Ω → Fin m → ℝ} (hg : IsSample μ g) (M : ℕ) (a b : Fin m) :
    Integrable (fun ω => gradOuter (rowsOf g M ω) (fun _ => 1 / (M : ℝ)) a b) μ := by
  have hm : Measurable fun x : Fin m → ℝ => x a * x b := (measurable_pi_apply a).mul (measurable_pi_apply b)
  have hi : Integrable (fun ω => g 0 ω a * g 0 ω b) μ := (hg.sq a).integrable_mul (hg.sq b)
  have hid : ∀ i, Integrable (fun ω => g i ω a * g i ω b) μ := fun i => ((hg.ident i).comp hm).symm.integrable_snd hi
  exact integrable_finsetSum Finset.univ (f := fun (i : Fin M) ω => 1 / (M : ℝ) * (g i ω a * g i ω b)) fun i _ => (hid i).const_mul _

theorem sorted_of_run {lib : Model.Subspaces.Lib} (hl : SubLibOK lib) (hm : 0 < m) (G : Matrix (Fin M) (Fin m) ℝ) (w : Fin M → ℝ)
    (hw : ∀ i, 0 ≤ w i) {e : Fin m → ℝ} {V : Matrix (Fin m) (Fin m) ℝ} (h : active_subspace lib (.mat (NpMat.of G)) (wcol w) = .ok ⟨m, e, V⟩) :
    IsSortedEigh (gradOuter G w) e V := by
  obtain ⟨e', V', h1, h2⟩ := C34_posSemidef lib hl hm _ (gradOuter_posSemidef G w hw)
  rw [active_subspace_eq, h1] at h
  cases h
  exact h2

/-- C117: the sum of the first `n` eigenvalues that `active_subspace` returns is on average at least, the sum of the others at most, that of the
limit for infinitely many samples; the sum of all is right on average. -/
theorem C117_monte_carlo {μ : Measure Ω} {g : ℕ → Ω → Fin m → ℝ} (hg : IsSample μ g) {lib : Model.Subspaces.Lib} (hl : SubLibOK lib)
    (hm : 0 < m) (hM : 0 < M) {e : Ω → Fin m → ℝ} {V : Ω → Matrix (Fin m) (Fin m) ℝ}
    (hrun : ∀ ω, active_subspace lib (.mat (NpMat.of (rowsOf g M ω))) (wcol fun _ : Fin M => 1 / (M : ℝ)) = .ok ⟨m, e ω, V ω⟩)
    {l : Fin m → ℝ} {U : Matrix (Fin m) (Fin m) ℝ} (hU : IsSortedEigh (secondMoment μ (g 0)) l U) (hn : n ≤ m) :
    (∀ j, Integrable (fun ω => e ω j) μ) ∧
    (∑ j : Fin m, if (j : ℕ) < n then l j else 0) ≤ ∑ j : Fin m, (if (j : ℕ) < n then ∫ ω, e ω j ∂μ else 0) ∧
    (∑ j : Fin m, if n ≤ (j : ℕ) then ∫ ω, e ω j ∂μ else 0) ≤ ∑ j : Fin m, (if n ≤ (j : ℕ) then l j else 0) ∧
    ∑ j : Fin m, ∫ ω, e ω j ∂μ = ∑ j, l j :=
  eig_bias (fun ω => sorted_of_run hl hm _ _ (fun _ => by positivity) (hrun ω)) (sample_integrable hg M) hU (C110_unbiased hg hM) hn

/-- C117: the mean error of every eigenvalue tends to zero. -/
theorem C117_consistent {μ : Measure Ω} {g : ℕ → Ω → Fin m → ℝ} (hg : IsSample μ g) {lib : Model.Subspaces.Lib} (hl : SubLibOK lib)
    (hm : 0 < m) {e : ℕ → Ω → Fin m → ℝ} {V : ℕ → Ω → Matrix (Fin m) (Fin m) ℝ}
    (hrun : ∀ M ω, active_subspace lib (.mat (NpMat.of (rowsOf g M ω))) (wcol fun _ : Fin M => 1 / (M : ℝ)) = .ok ⟨m, e M ω, V M ω⟩)
    {l : Fin m → ℝ} {U : Matrix (Fin m) (Fin m) ℝ} (hU : IsSortedEigh (secondMoment μ (g 0)) l U) [IsFiniteMeasure μ] (j : Fin m) :
    Tendsto (fun M => ∫ ω, |e M ω j - l j| ∂μ) atTop (𝓝 0) := by
  have hs : ∀ M ω, IsSortedEigh _ (e M ω) (V M ω) := fun M ω => sorted_of_run hl hm _ _ (fun _ => by positivity) (hrun M ω)
  have hm2 : ∀ a b, Measurable fun x : Fin m → ℝ => x a * x b := fun a b => (measurable_pi_apply a).mul (measurable_pi_apply b)
  have hi : ∀ a b, Integrable (fun ω => g 0 ω a * g 0 ω b) μ := fun a b => (hg.sq a).integrable_mul (hg.sq b)
  have h1 : ∀ a b, Tendsto (fun M => ∫ ω, |gradOuter (rowsOf g M ω) (fun _ => 1 / (M : ℝ)) a b - secondMoment μ (g 0) a b| ∂μ) atTop (𝓝 0) := fun a b => by
    have h := strong_law_Lp (p := 1) le_rfl (by simp) (fun i ω => g i ω a * g i ω b) (memLp_one_iff_integrable.mpr (hi a b))
      (fun i j hij => (hg.indep hij).comp (hm2 a b) (hm2 a b)) fun i => (hg.ident i).comp (hm2 a b)
    have h' := (ENNReal.tendsto_toReal (by simp)).comp h
    refine h'.congr fun M => ?_
    have e1 : ∀ ω, gradOuter (rowsOf g M ω) (fun _ => 1 / (M : ℝ)) a b - secondMoment μ (g 0) a b
        = (M : ℝ)⁻¹ • (∑ i ∈ Finset.range M, g i ω a * g i ω b) - ∫ ω, g 0 ω a * g 0 ω b ∂μ := fun ω => by
      simp only [gradOuter, rowsOf, secondMoment, Matrix.of_apply]
      rw [← Finset.mul_sum, Fin.sum_univ_eq_sum_range fun i => g i ω a * g i ω b, one_div, smul_eq_mul]
    have e2 : Integrable (fun ω => (M : ℝ)⁻¹ • (∑ i ∈ Finset.range M, g i ω a * g i ω b) - ∫ ω, g 0 ω a * g 0 ω b ∂μ) μ := by
      simp only [← e1]
      exact (sample_integrable hg M a b).sub (integrable_const _)
    simp only [e1, Function.comp_apply]
    rw [eLpNorm_one_eq_lintegral_enorm, ← integral_norm_eq_lintegral_enorm e2.aestronglyMeasurable]
    simp only [Real.norm_eq_abs]
  have h2 : Tendsto (fun M => ∑ a, ∑ b, ∫ ω, |gradOuter (rowsOf g M ω) (fun _ => 1 / (M : ℝ)) a b - secondMoment μ (g 0) a b| ∂μ) atTop (𝓝 0) := by
    have := tendsto_finsetSum Finset.univ fun a _ => tendsto_finsetSum Finset.univ fun b _ => h1 a b
    simpa using this
  refine squeeze_zero (fun M => integral_nonneg fun ω => abs_nonneg _) (fun M => ?_) h2
  have hd : ∀ a b, Integrable (fun ω => |gradOuter (rowsOf g M ω) (fun _ => 1 / (M : ℝ)) a b - secondMoment μ (g 0) a b|) μ := fun a b =>
    ((sample_integrable hg M a b).sub (integrable_const _)).abs
  calc ∫ ω, |e M ω j - l j| ∂μ ≤ ∫ ω, ∑ a, ∑ b, |gradOuter (rowsOf g M ω) (fun _ => 1 / (M : ℝ)) a b - secondMoment μ (g 0) a b| ∂μ :=
        integral_mono (((eig_integrable (hs M) (sample_integrable hg M) j).sub (integrable_const _)).abs)
          (integrable_finsetSum _ fun a _ => integrable_finsetSum _ fun b _ => hd a b) fun ω => eig_lipschitz (hs M ω) hU j
    _ = _ := by
        rw [integral_finsetSum Finset.univ (f := fun a ω => ∑ b, |gradOuter (rowsOf g M ω) (fun _ => 1 / (M : ℝ)) a b - secondMoment μ (g 0) a b|)
          fun a _ => integrable_finsetSum _ fun b _ => hd a b]
        exact Finset.sum_congr rfl fun a _ => integral_finsetSum Finset.univ
          (f := fun b ω => |gradOuter (rowsOf g M ω) (fun _ => 1 / (M : ℝ)) a b - secondMoment μ (g 0) a b|) fun b _ => hd a b

/-- The rows without row `i`. -/
def leaveOut (G : Matrix (Fin (M + 1)) (Fin m) ℝ) (i : Fin (M + 1)) : Matrix (Fin M) (Fin m) ℝ := Matrix.of fun l => G (i.succAbove l)

theorem leaveOut_mean (G : Matrix (Fin (M + 1)) (Fin m) ℝ) (hM : 0 < M) (a b : Fin m) :
    gradOuter G (fun _ => 1 / ((M + 1 : ℕ) : ℝ)) a b = ∑ i, 1 / ((M + 1 : ℕ) : ℝ) * gradOuter (leaveOut G i) (fun _ => 1 / (M : ℝ)) a b := by
  have h0 : (M : ℝ) ≠ 0 := by exact_mod_cast hM.ne'
  have h1 : ∀ i, gradOuter (leaveOut G i) (fun _ => 1 / (M : ℝ)) a b = 1 / (M : ℝ) * (∑ l, G l a * G l b - G i a * G i b) := fun i => by
    simp only [gradOuter, leaveOut, Matrix.of_apply]
    rw [← Finset.mul_sum, Fin.sum_univ_succAbove (fun l => G l a * G l b) i]
    ring
  simp only [h1]
  simp only [← Finset.mul_sum, Finset.sum_sub_distrib, Finset.sum_const, Finset.card_univ, Fintype.card_fin, nsmul_eq_mul, gradOuter, Matrix.of_apply]
  push_cast
  field_simp
  ring

/-- C117: the bias of the sum of the first `n` eigenvalues decreases with the number of samples. -/
theorem C117_decreasing {μ : Measure Ω} [IsProbabilityMeasure μ] {g : ℕ → Ω → Fin m → ℝ} (hg : IsSample μ g) (hind : iIndepFun g μ)
    {lib : Model.Subspaces.Lib} (hl : SubLibOK lib) (hm : 0 < m) (hM : 0 < M) {e : ℕ → Ω → Fin m → ℝ} {V : ℕ → Ω → Matrix (Fin m) (Fin m) ℝ}
    (hrun : ∀ M ω, active_subspace lib (.mat (NpMat.of (rowsOf g M ω))) (wcol fun _ : Fin M => 1 / (M : ℝ)) = .ok ⟨m, e M ω, V M ω⟩) (hn : n ≤ m) :
    ∑ j : Fin m, (if (j : ℕ) < n then ∫ ω, e (M + 1) ω j ∂μ else 0) ≤ ∑ j : Fin m, (if (j : ℕ) < n then ∫ ω, e M ω j ∂μ else 0) := by
  have hF : ∀ x : Fin M → Fin m → ℝ, ∃ (e : Fin m → ℝ) (V : Matrix (Fin m) (Fin m) ℝ),
      active_subspace lib (.mat (NpMat.of (Matrix.of x))) (wcol fun _ : Fin M => 1 / (M : ℝ)) = .ok ⟨m, e, V⟩ := fun x => by
    obtain ⟨e, V, h, -⟩ := C34_posSemidef lib hl hm _ (gradOuter_posSemidef (Matrix.of x) (fun _ => 1 / (M : ℝ)) fun _ => by positivity)
    exact ⟨e, V, by rw [active_subspace_eq, h]⟩
  choose F VF hF using hF
  have hFs := fun x => sorted_of_run hl hm _ _ (fun _ => by positivity) (hF x)
  have hs : ∀ M ω, IsSortedEigh _ (e M ω) (V M ω) := fun M ω => sorted_of_run hl hm _ _ (fun _ => by positivity) (hrun M ω)
  have hmeas : ∀ i, AEMeasurable (g i) μ := fun i => (hg.ident i).aemeasurable_fst
  have hlaw : ∀ (σ : Fin M → ℕ), Function.Injective σ → μ.map (fun ω l => g (σ l) ω) = Measure.pi fun _ => μ.map (g 0) := fun σ hσ => by
    rw [(iIndepFun_iff_map_fun_eq_pi_map fun l => hmeas (σ l)).mp (hind.precomp hσ)]
    congr 1
    funext l
    exact (hg.ident (σ l)).map_eq
  have hrows : ∀ (σ : Fin M → ℕ), AEMeasurable (fun ω l => g (σ l) ω) μ := fun σ => aemeasurable_pi_iff.mpr fun l => hmeas (σ l)
  have hFm : ∀ (ν : Measure (Fin M → Fin m → ℝ)) j, AEStronglyMeasurable (fun x => F x j) ν := fun ν j =>
    (eig_measurable hFs (fun a b => by
      refine Measurable.aemeasurable (Finset.measurable_sum Finset.univ (f := fun (i : Fin M) (x : Fin M → Fin m → ℝ) => 1 / (M : ℝ) * (x i a * x i b)) fun i _ => ?_)
      fun_prop) j).aestronglyMeasurable
  have hint : ∀ (σ : Fin M → ℕ), Function.Injective σ → ∀ j, ∫ ω, F (fun l => g (σ l) ω) j ∂μ = ∫ x, F x j ∂(Measure.pi fun _ => μ.map (g 0)) := fun σ hσ j => by
    rw [← hlaw σ hσ, integral_map (hrows σ) (hFm _ j)]
  have heF : ∀ ω, e M ω = F fun l : Fin M => g l ω := fun ω => by
    have := (hrun M ω).symm.trans (hF fun l : Fin M => g l ω)
    exact eq_of_heq (EigPair.mk.inj (Except.ok.inj this)).2.1
  have hiM := eig_integrable (hs M) (sample_integrable hg M)
  have hiσ : ∀ (σ : Fin M → ℕ), Function.Injective σ → ∀ j, Integrable (fun ω => F (fun l => g (σ l) ω) j) μ := fun σ hσ j => by
    have h1 : Integrable (fun x => F x j) (μ.map fun ω l => g (σ l) ω) := by
      rw [hlaw σ hσ, ← hlaw (fun l => (l : ℕ)) Fin.val_injective, integrable_map_measure (hFm _ j) (hrows _)]
      have := hiM j
      simp only [heF] at this
      exact this
    exact (integrable_map_measure (hFm _ j) (hrows σ)).mp h1
  let σ : Fin (M + 1) → Fin M → ℕ := fun i l => (i.succAbove l : Fin (M + 1))
  have hσ : ∀ i, Function.Injective (σ i) := fun i a b h => Fin.succAbove_right_injective (Fin.val_injective h)
  have key : ∀ ω, ∑ j : Fin m, (if (j : ℕ) < n then e (M + 1) ω j else 0)
      ≤ ∑ i, 1 / ((M + 1 : ℕ) : ℝ) * ∑ j : Fin m, (if (j : ℕ) < n then F (fun l => g (σ i l) ω) j else 0) := fun ω => by
    rw [top_eq (hs (M + 1) ω)]
    simp only [leaveOut_mean _ hM, Finset.mul_sum]
    have h1 : ∀ i, ∑ a, ∑ b, projEntry (V (M + 1) ω) n a b * gradOuter (leaveOut (rowsOf g (M + 1) ω) i) (fun _ => 1 / (M : ℝ)) a b
        ≤ ∑ j : Fin m, if (j : ℕ) < n then F (fun l => g (σ i l) ω) j else 0 := fun i => le_top (hs (M + 1) ω) (hFs fun l => g (σ i l) ω) hn
    have h2 := Finset.sum_le_sum fun i (_ : i ∈ Finset.univ) => mul_le_mul_of_nonneg_left (h1 i) (by positivity : 0 ≤ 1 / ((M + 1 : ℕ) : ℝ))
    refine le_trans (le_of_eq ?_) (h2.trans_eq ?_)
    · simp only [Finset.mul_sum]
      rw [Finset.sum_congr rfl fun a (_ : a ∈ Finset.univ) => Finset.sum_comm, Finset.sum_comm]
      exact Finset.sum_congr rfl fun i _ => Finset.sum_congr rfl fun a _ => Finset.sum_congr rfl fun b _ => by ring
    · simp only [Finset.mul_sum]
  have hi1 : ∀ (h : Ω → Fin m → ℝ), (∀ j, Integrable (fun ω => h ω j) μ) → ∀ j : Fin m, Integrable (fun ω => if (j : ℕ) < n then h ω j else 0) μ :=
    fun h hh j => by
      split_ifs
      · exact hh j
      · exact integrable_zero _ _ _
  have hsum : ∀ (h : Ω → Fin m → ℝ), (∀ j, Integrable (fun ω => h ω j) μ) →
      ∫ ω, ∑ j : Fin m, (if (j : ℕ) < n then h ω j else 0) ∂μ = ∑ j : Fin m, (if (j : ℕ) < n then ∫ ω, h ω j ∂μ else 0) := fun h hh => by
    rw [integral_finsetSum Finset.univ (f := fun (j : Fin m) ω => if (j : ℕ) < n then h ω j else 0) fun j _ => hi1 h hh j]
    refine Finset.sum_congr rfl fun j _ => ?_
    split_ifs <;> simp
  have hi2 := eig_integrable (hs (M + 1)) (sample_integrable hg (M + 1))
  have h3 := integral_mono (integrable_finsetSum Finset.univ fun j _ => hi1 _ hi2 j)
    (integrable_finsetSum Finset.univ fun i _ => (integrable_finsetSum Finset.univ fun j _ => hi1 _ (hiσ (σ i) (hσ i)) j).const_mul (1 / ((M + 1 : ℕ) : ℝ))) key
  rw [hsum _ hi2] at h3
  refine h3.trans_eq ?_
  rw [integral_finsetSum Finset.univ (f := fun i ω => 1 / ((M + 1 : ℕ) : ℝ) * ∑ j : Fin m, (if (j : ℕ) < n then F (fun l => g (σ i l) ω) j else 0))
    fun i _ => (integrable_finsetSum Finset.univ fun j _ => hi1 _ (hiσ (σ i) (hσ i)) j).const_mul (1 / ((M + 1 : ℕ) : ℝ))]
  have h4 : ∀ i, ∫ ω, 1 / ((M + 1 : ℕ) : ℝ) * ∑ j : Fin m, (if (j : ℕ) < n then F (fun l => g (σ i l) ω) j else 0) ∂μ
      = 1 / ((M + 1 : ℕ) : ℝ) * ∑ j : Fin m, (if (j : ℕ) < n then ∫ ω, e M ω j ∂μ else 0) := fun i => by
    rw [integral_const_mul, hsum _ (hiσ (σ i) (hσ i))]
    congr 1
    refine Finset.sum_congr rfl fun j _ => ?_
    rw [hint (σ i) (hσ i), ← hint (fun l => (l : ℕ)) Fin.val_injective]
    simp only [heF]
  rw [Finset.sum_congr rfl fun i _ => h4 i, Finset.sum_const, Finset.card_univ, Fintype.card_fin, nsmul_eq_mul, ← mul_assoc, mul_one_div,
    div_self (by positivity), one_mul]

/-! ## Bootstrap -/

/-- Every row is drawn with equal probability at every place (independence is not needed). -/
structure UniformRows (μ : Measure Ω) (d : Ω → Fin M → Fin M) : Prop where
  meas : Measurable d
  unif : ∀ l i, μ.real {ω | d ω l = i} = 1 / (M : ℝ)

theorem integral_row {μ : Measure Ω} {d : Ω → Fin M → Fin M} [IsFiniteMeasure μ] (hd : UniformRows μ d) (h : Fin M → ℝ) (l : Fin M) :
    ∫ ω, h (d ω l) ∂μ = (∑ i, h i) / M := by
  have hm : Measurable fun ω => d ω l := (measurable_pi_apply l).comp hd.meas
  have h1 : ∫ ω, h (d ω l) ∂μ = ∫ i, h i ∂(μ.map fun ω => d ω l) := (integral_map hm.aemeasurable (Measurable.of_discrete).aestronglyMeasurable).symm
  rw [h1, integral_fintype .of_finite, Finset.sum_div]
  refine Finset.sum_congr rfl fun i _ => ?_
  have h2 : (μ.map fun ω => d ω l).real {i} = 1 / (M : ℝ) := by
    rw [← hd.unif l i, map_measureReal_apply hm (measurableSet_singleton i)]
    rfl
  rw [h2, smul_eq_mul]
  ring

/-- C117: the matrix of a bootstrap replicate is on average the matrix of the sample, whatever the weights. -/
theorem C117_replicate {μ : Measure Ω} {d : Ω → Fin M → Fin M} [IsFiniteMeasure μ] (hd : UniformRows μ d) (G : Matrix (Fin M) (Fin m) ℝ)
    (w : Fin M → ℝ) (a b : Fin m) : ∫ ω, gradOuter (G.submatrix (d ω) id) (w ∘ d ω) a b ∂μ = gradOuter G w a b := by
  have hi : ∀ l, Integrable (fun ω => w (d ω l) * (G (d ω l) a * G (d ω l) b)) μ := fun l =>
    (Integrable.of_finite (μ := μ.map d) (f := fun v : Fin M → Fin M => w (v l) * (G (v l) a * G (v l) b))).comp_measurable hd.meas
  simp only [gradOuter, Matrix.of_apply, Matrix.submatrix_apply, id, Function.comp_apply]
  rw [integral_finsetSum Finset.univ (f := fun l ω => w (d ω l) * (G (d ω l) a * G (d ω l) b)) fun l _ => hi l,
    Finset.sum_congr rfl fun l _ => integral_row hd (fun i => w i * (G i a * G i b)) l, Finset.sum_const, Finset.card_univ, Fintype.card_fin, nsmul_eq_mul]
  rcases Nat.eq_zero_or_pos M with h0 | h0
  · subst h0
    simp
  · exact mul_div_cancel₀ _ (by exact_mod_cast h0.ne')

theorem replicate_bias {μ : Measure Ω} {d : Ω → Fin M → Fin M} [IsFiniteMeasure μ] (hd : UniformRows μ d) {lib : Model.Subspaces.Lib} (hl : SubLibOK lib)
    (hm : 0 < m) (G : Matrix (Fin M) (Fin m) ℝ) (w : Fin M → ℝ) (hw : ∀ i, 0 ≤ w i) {e : Fin m → ℝ} {V : Matrix (Fin m) (Fin m) ℝ}
    (h0 : active_subspace lib (.mat (NpMat.of G)) (wcol w) = .ok ⟨m, e, V⟩) {e' : Ω → Fin m → ℝ} {V' : Ω → Matrix (Fin m) (Fin m) ℝ}
    (hrun : ∀ ω, active_subspace lib (.mat (NpMat.of (G.submatrix (d ω) id))) (wcol (w ∘ d ω)) = .ok ⟨m, e' ω, V' ω⟩) (hn : n ≤ m) :
    (∀ j, Integrable (fun ω => e' ω j) μ) ∧
    (∑ j : Fin m, if (j : ℕ) < n then e j else 0) ≤ ∑ j : Fin m, (if (j : ℕ) < n then ∫ ω, e' ω j ∂μ else 0) ∧
    (∑ j : Fin m, if n ≤ (j : ℕ) then ∫ ω, e' ω j ∂μ else 0) ≤ ∑ j : Fin m, (if n ≤ (j : ℕ) then e j else 0) ∧
    ∑ j : Fin m, ∫ ω, e' ω j ∂μ = ∑ j, e j := by
  refine eig_bias (fun ω => sorted_of_run hl hm _ _ (fun i => hw _) (hrun ω)) (fun a b => ?_) (sorted_of_run hl hm G w hw h0) (C117_replicate hd G w) hn
  exact (Integrable.of_finite (μ := μ.map d) (f := fun v : Fin M → Fin M => gradOuter (G.submatrix v id) (w ∘ v) a b)).comp_measurable hd.meas

theorem replicate_run {K : ℕ} (rng : Rng S) (X : Option (Matrix (Fin (K + 1)) (Fin m) ℝ)) (f : Option (Fin (K + 1) → ℝ))
    (df : Option (Matrix (Fin (K + 1)) (Fin m) ℝ)) (w : Fin (K + 1) → ℝ) (u : S × E) :
    (bootstrap_replicate rng (dataOf X f df w)).run u
      = (.ok (dataOf (X.map fun X => X.submatrix (randints rng K (K + 1) u.1).1 id) (f.map fun f => f ∘ (randints rng K (K + 1) u.1).1)
          (df.map fun X => X.submatrix (randints rng K (K + 1) u.1).1 id) (w ∘ (randints rng K (K + 1) u.1).1)), ((randints rng K (K + 1) u.1).2, u.2)) := by
  unfold bootstrap_replicate
  refine (PyM.run_bind_ok (Rng.run_draw _ u)).trans ?_
  rw [PyM.run_lift, take_dataOf]

/-- C117: the eigenvalues of one bootstrap replicate are on average spread more widely than those of the sample. -/
theorem C117_bootstrap {K : ℕ} {μ : Measure Ω} [IsFiniteMeasure μ] {rng : Rng S} {st : Ω → S}
    (hd : UniformRows μ fun ω => (randints rng K (K + 1) (st ω)).1) {lib : Model.Subspaces.Lib} (hl : SubLibOK lib)
    (hm : 0 < m) (G : Matrix (Fin (K + 1)) (Fin m) ℝ) (w : Fin (K + 1) → ℝ) (hw : ∀ i, 0 ≤ w i) {e : Fin m → ℝ} {V : Matrix (Fin m) (Fin m) ℝ}
    (h0 : active_subspace lib (.mat (NpMat.of G)) (wcol w) = .ok ⟨m, e, V⟩) (x : E) {e' : Ω → Fin m → ℝ} {V' : Ω → Matrix (Fin m) (Fin m) ℝ}
    {u' : Ω → S × E} (hrun : ∀ ω, (do
      let d0 ← bootstrap_replicate rng ⟨none, none, some (NpMat.of G), wcol w⟩
      ssCall lib rng .AS d0.X d0.f (d0.df.map .mat) d0.weights).run (st ω, x) = (.ok ⟨m, e' ω, V' ω⟩, u' ω)) (hn : n ≤ m) :
    (∀ j, Integrable (fun ω => e' ω j) μ) ∧
    (∑ j : Fin m, if (j : ℕ) < n then e j else 0) ≤ ∑ j : Fin m, (if (j : ℕ) < n then ∫ ω, e' ω j ∂μ else 0) ∧
    (∑ j : Fin m, if n ≤ (j : ℕ) then ∫ ω, e' ω j ∂μ else 0) ≤ ∑ j : Fin m, (if n ≤ (j : ℕ) then e j else 0) ∧
    ∑ j : Fin m, ∫ ω, e' ω j ∂μ = ∑ j, e j := by
  refine replicate_bias hd hl hm G w hw h0 (V' := V') (fun ω => ?_) hn
  obtain ⟨d0, u1, h1, h2⟩ := bind_inv (hrun ω)
  have h3 := (replicate_run rng none none (some G) w (st ω, x)).symm.trans h1
  rw [← Except.ok.inj (Prod.mk.inj h3).1] at h2
  exact (lift_inv h2).1

/-- The bootstrap inside `compute`. -/
theorem compute_boot {K k : ℕ} {lib : Model.Subspaces.Lib} (hl : SubLibOK lib) (rng : Rng S) (hm : 0 < m)
    (X : Option (Matrix (Fin (K + 1)) (Fin m) ℝ)) (f : Option (Fin (K + 1) → ℝ)) (G : Matrix (Fin (K + 1)) (Fin m) ℝ)
    (weights : Option (Fin (K + 1) → ℝ)) (ptype : String) {w w' : S × Subspaces}
    (h : (computeOn lib rng X f (some G) weights "AS" ptype ((k + 1 : ℕ) : ℤ)).run w = (.ok (), w')) :
    ∃ (e : Fin m → ℝ) (V : Matrix (Fin m) (Fin m) ℝ) (e' : Fin m → ℝ) (V' : Matrix (Fin m) (Fin m) ℝ) (B : Matrix (Fin m) (Fin 2) ℝ),
      active_subspace lib (.mat (NpMat.of G)) (wcol (weightsOf weights)) = .ok ⟨m, e, V⟩ ∧ w'.2.eigenvals = some (NpVec.of e) ∧
      active_subspace lib (.mat (NpMat.of (G.submatrix (randints rng K (K + 1) w.1).1 id))) (wcol (weightsOf weights ∘ (randints rng K (K + 1) w.1).1))
        = .ok ⟨m, e', V'⟩ ∧ w'.2.e_br = some (NpMat.of B) ∧ (∀ j, B j 0 ≤ e' j ∧ e' j ≤ B j 1) ∧
      ∀ j c, ∃ v : Fin (K + 1) → Fin (K + 1), ∃ e'' V'', active_subspace lib (.mat (NpMat.of (G.submatrix v id))) (wcol (weightsOf weights ∘ v))
        = .ok ⟨m, e'', V''⟩ ∧ B j c = e'' j := by
  unfold computeOn compute at h
  obtain ⟨a, w0, h1, h⟩ := bind_inv h
  rw [lift_of (checkInputs_of X (some G) (.inr (by simp))) w] at h1
  obtain rfl := Except.ok.inj (Prod.mk.inj h1).1
  have hw0 := (Prod.mk.inj h1).2
  subst w0
  simp only [getD_weights] at h
  rw [show SS.ofString "AS" = some .AS from rfl] at h
  simp only at h
  obtain ⟨p, w1, h2, h⟩ := bind_inv h
  obtain ⟨e, V, rfl, -⟩ := estimate_good hl rng .AS X f (some G) (weightsOf weights) h2
  obtain ⟨h2a, hw1⟩ := lift_inv h2
  subst w1
  obtain ⟨_, w2, h3, h⟩ := bind_inv h
  obtain rfl : w2 = (w.1, withEig ⟨m, e, V⟩ w.2) := (Prod.mk.inj h3).2.symm
  obtain ⟨b, w3, h4, h⟩ := bind_inv h
  obtain ⟨_, w4, h5, h⟩ := bind_inv h
  obtain rfl : w4 = (w3.1, withBoot b w3.2) := (Prod.mk.inj h5).2.symm
  obtain ⟨n, w5, h6, h⟩ := bind_inv h
  obtain ⟨-, rfl⟩ := lift_inv h6
  unfold bootStep at h4
  rw [if_pos (by positivity)] at h4
  obtain ⟨r, w6, h7, h8⟩ := bind_inv h4
  obtain ⟨rfl, rfl⟩ := pure_inv h8
  have hfr := framed_ranges (E := Subspaces) lib rng .AS ⟨m, e, V⟩ (X.map NpMat.of) (f.map fun f => .mat (wcol f))
    ((some G).map fun X => .mat (NpMat.of X)) (wcol (weightsOf weights)) (((k + 1 : ℕ) : ℤ).toNat - 1) (w.1, withEig ⟨m, e, V⟩ w.2)
  rw [h7] at hfr
  have hk : ((k + 1 : ℕ) : ℤ).toNat - 1 = k := by omega
  rw [hk, ranges_eq lib rng .AS e V X f (some G) (weightsOf weights) (.inr (by simp)) k] at h7
  obtain ⟨c, w7, h9, h10⟩ := bind_inv h7
  obtain ⟨rfl, rfl⟩ := pure_inv h10
  obtain ⟨ind, ee, VV, hb⟩ := bootLoop_inv hl rng .AS X f (some G) (weightsOf weights) V (k + 1) _ _ c h9
  have hce : ∀ i, (c i).e = ee i := fun i => by rw [(hb i).1]; rfl
  have hrun : ∀ i, active_subspace lib (.mat (NpMat.of (G.submatrix (ind i) id))) (wcol (weightsOf weights ∘ ind i)) = .ok ⟨m, ee i, VV i⟩ := fun i => by
    obtain ⟨u1, u2, hu⟩ := (hb i).2.2
    exact (lift_inv hu).1
  have hmin := fun j : Fin m => min'_spec fun i => (c i).e j
  have hmax := fun j : Fin m => max'_spec fun i => (c i).e j
  have hB0 : ∀ j, (bootRanges c).e_br j 0 = min' fun i => (c i).e j := fun j => rfl
  have hB1 : ∀ j, (bootRanges c).e_br j 1 = max' fun i => (c i).e j := fun j => rfl
  obtain ⟨V0, hV0⟩ : ∃ V0, active_subspace lib (.mat (NpMat.of (G.submatrix (randints rng K (K + 1) w.1).1 id)))
      (wcol (weightsOf weights ∘ (randints rng K (K + 1) w.1).1)) = .ok ⟨m, (c 0).e, V0⟩ := by
    unfold bootLoop at h9
    obtain ⟨d0, u1, g1, g⟩ := bind_inv h9
    rw [replicate_run] at g1
    obtain rfl := Except.ok.inj (Prod.mk.inj g1).1
    obtain ⟨p0, u2, g2, g⟩ := bind_inv g
    rw [estimate_eq] at g2
    obtain ⟨e0, V0, rfl, -⟩ := estimate_good hl rng .AS _ _ _ _ g2
    rw [dif_pos (show (EigPair.mk m e0 V0).m = m from rfl)] at g
    obtain ⟨cs, u3, -, g⟩ := bind_inv g
    obtain ⟨rfl, -⟩ := pure_inv g
    exact ⟨V0, (lift_inv g2).1⟩
  have hpart : w'.2.eigenvals = some (NpVec.of e) ∧ w'.2.e_br = some (NpMat.of (bootRanges c).e_br) := by
    unfold partition at h
    obtain ⟨s, w8, g1, g⟩ := bind_inv h
    rw [PyM.run_get] at g1
    obtain rfl := Except.ok.inj (Prod.mk.inj g1).1
    obtain rfl := (Prod.mk.inj g1).2
    split at g
    · exact absurd (Prod.mk.inj g).1 (by simp)
    · split at g
      · exact absurd (Prod.mk.inj g).1 (by simp)
      · obtain rfl := (Prod.mk.inj g).2
        exact ⟨(congrArg Subspaces.eigenvals hfr).trans rfl, rfl⟩
  refine ⟨e, V, (c 0).e, V0, (bootRanges c).e_br, h2a, hpart.1, hV0, hpart.2, fun j => ⟨?_, ?_⟩, fun j q => ?_⟩
  · rw [hB0]
    exact (hmin j).1 0
  · rw [hB1]
    exact (hmax j).1 0
  · fin_cases q
    · obtain ⟨i, hi⟩ := (hmin j).2
      exact ⟨ind i, ee i, VV i, hrun i, ((hB0 j).trans hi).trans (congrFun (hce i) j)⟩
    · obtain ⟨i, hi⟩ := (hmax j).2
      exact ⟨ind i, ee i, VV i, hrun i, ((hB1 j).trans hi).trans (congrFun (hce i) j)⟩

/-- The largest value a resampled trace can take. -/
theorem resampled_bound (G : Matrix (Fin M) (Fin m) ℝ) (w : Fin M → ℝ) (hw : ∀ i, 0 ≤ w i) :
    ∃ c : ℝ, ∀ v : Fin M → Fin M, ∑ a, gradOuter (G.submatrix v id) (w ∘ v) a a ≤ c := by
  obtain ⟨c, hc⟩ := (Set.finite_range fun v : Fin M → Fin M => ∑ a, gradOuter (G.submatrix v id) (w ∘ v) a a).bddAbove
  exact ⟨c, fun v => hc ⟨v, rfl⟩⟩

/-- C117: the upper end of the bootstrap interval of the first eigenvalue is on average not below the estimate, the lower end of the interval of the
last one not above it. -/
theorem C117_range {K k : ℕ} {μ : Measure Ω} [IsProbabilityMeasure μ] {rng : Rng S} {st : Ω → S}
    (hd : UniformRows μ fun ω => (randints rng K (K + 1) (st ω)).1) {lib : Model.Subspaces.Lib} (hl : SubLibOK lib) (hm : 0 < m)
    (X : Option (Matrix (Fin (K + 1)) (Fin m) ℝ)) (f : Option (Fin (K + 1) → ℝ)) (G : Matrix (Fin (K + 1)) (Fin m) ℝ)
    (weights : Option (Fin (K + 1) → ℝ)) (hw : ∀ i, 0 ≤ weightsOf weights i) (ptype : String) (s : Subspaces) {w' : Ω → S × Subspaces}
    (h : ∀ ω, (computeOn lib rng X f (some G) weights "AS" ptype ((k + 1 : ℕ) : ℤ)).run (st ω, s) = (.ok (), w' ω))
    {B : Ω → Matrix (Fin m) (Fin 2) ℝ} (hB : ∀ ω, (w' ω).2.e_br = some (NpMat.of (B ω))) (hmeas : ∀ j c, AEMeasurable (fun ω => B ω j c) μ)
    {e : Fin m → ℝ} (he : ∀ ω, (w' ω).2.eigenvals = some (NpVec.of e)) :
    e ⟨0, hm⟩ ≤ ∫ ω, B ω ⟨0, hm⟩ 1 ∂μ ∧ ∫ ω, B ω ⟨m - 1, by omega⟩ 0 ∂μ ≤ e ⟨m - 1, by omega⟩ := by
  have hc := fun ω => compute_boot hl rng hm X f G weights ptype (h ω)
  choose e0 V0 e' V' B' h1 h2 h3 h4 h5 h6 using hc
  have hBB : ∀ ω, B' ω = B ω := fun ω => by
    have := (h4 ω).symm.trans (hB ω)
    exact eq_of_heq (NpMat.mk.inj (Option.some.inj this)).2.2
  have hee : ∀ ω, e0 ω = e := fun ω => by
    have := (h2 ω).symm.trans (he ω)
    exact eq_of_heq (NpVec.mk.inj (Option.some.inj this)).2
  obtain ⟨ω0⟩ : Nonempty Ω := μ.nonempty_of_neZero
  have h0 := h1 ω0
  rw [hee] at h0
  have hb := fun (n : ℕ) (hn : n ≤ m) => replicate_bias hd hl hm G (weightsOf weights) hw h0 h3 hn
  have hi := (hb 0 (by omega)).1
  obtain ⟨c, hc⟩ := resampled_bound G (weightsOf weights) hw
  have hBi : ∀ j q, Integrable (fun ω => B ω j q) μ := fun j q => by
    refine Integrable.of_bound (hmeas j q).aestronglyMeasurable c (.of_forall fun ω => ?_)
    obtain ⟨v, e'', V'', h7, h8⟩ := h6 ω j q
    rw [← hBB, h8]
    exact (eig_le_trace (sorted_of_run hl hm _ _ (fun i => hw _) h7) j).trans (hc v)
  have g1 := (hb 1 (by omega)).2.1
  have g2 := (hb (m - 1) (by omega)).2.2.1
  have s1 : ∀ g : Fin m → ℝ, (∑ j : Fin m, if (j : ℕ) < 1 then g j else 0) = g ⟨0, hm⟩ := fun g => by
    rw [Finset.sum_eq_single ⟨0, hm⟩ (fun b _ hb => if_neg fun h => hb (Fin.ext (by simpa using h))) (by simp)]
    simp
  have s2 : ∀ g : Fin m → ℝ, (∑ j : Fin m, if m - 1 ≤ (j : ℕ) then g j else 0) = g ⟨m - 1, by omega⟩ := fun g => by
    rw [Finset.sum_eq_single ⟨m - 1, by omega⟩ (fun b _ hb => if_neg fun h => hb (Fin.ext (by simp only; omega))) (by simp)]
    simp
  rw [s1, s1] at g1
  rw [s2, s2] at g2
  refine ⟨g1.trans (integral_mono (hi _) (hBi _ _) fun ω => ?_), (integral_mono (hBi _ _) (hi _) fun ω => ?_).trans g2⟩
  · rw [← hBB]
    exact (h5 ω _).2
  · rw [← hBB]
    exact (h5 ω _).1

/-! ## Examples -/

/-- C117 applies to the gradients `(2 x, 1)` of `x² + y` at independent standard normal `x`. -/
example : IsSample (Measure.infinitePi fun _ : ℕ => gaussianReal 0 1) (fun (i : ℕ) (ω : ℕ → ℝ) => (![2 * ω i, 1] : Fin 2 → ℝ)) ∧
    iIndepFun (fun (i : ℕ) (ω : ℕ → ℝ) => (![2 * ω i, 1] : Fin 2 → ℝ)) (Measure.infinitePi fun _ : ℕ => gaussianReal 0 1) := by
  refine ⟨exampleSample, iIndepFun_infinitePi (P := fun _ : ℕ => gaussianReal 0 1) (X := fun _ x => (![2 * x, 1] : Fin 2 → ℝ)) fun _ => ?_⟩
  refine measurable_pi_iff.mpr fun k => ?_
  fin_cases k
  · exact measurable_id.const_mul 2
  · exact measurable_const

/-- A stream of integers. -/
def intRng (N : ℕ) : Rng (ℕ → Fin (N + 1)) where
  seeded _ := 0
  normal _ _ s := (0, s)
  uniform _ _ s := (0, s)
  randint n s := (if h : n = N then Fin.cast (by rw [h]) (s 0) else 0, fun i => s (i + 1))

theorem intRng_randints (N k : ℕ) (s : ℕ → Fin (N + 1)) : (randints (intRng N) N k s).1 = fun i : Fin k => s i := by
  induction k generalizing s with
  | zero => exact funext fun i => i.elim0
  | succ k ih =>
    refine funext fun i => ?_
    refine Fin.cases ?_ (fun i => ?_) i
    · exact dif_pos rfl
    · exact congrFun (ih _) i

/-- Independent uniform integers, read again and again. -/
theorem intRng_uniform (K : ℕ) : UniformRows (Measure.pi fun _ : Fin (K + 1) => uniformOn (Set.univ : Set (Fin (K + 1))))
    fun ω => (randints (intRng K) K (K + 1) fun i => ω (Fin.ofNat (K + 1) i)).1 := by
  refine ⟨.of_discrete, fun l i => ?_⟩
  have h := measurePreserving_eval (fun _ : Fin (K + 1) => uniformOn (Set.univ : Set (Fin (K + 1)))) l
  have e : {ω : Fin (K + 1) → Fin (K + 1) | (randints (intRng K) K (K + 1) fun i => ω (Fin.ofNat (K + 1) i)).1 l = i} = Function.eval (β := fun _ : Fin (K + 1) => Fin (K + 1)) l ⁻¹' {i} := by
    ext ω
    rw [Set.mem_ofPred_eq, intRng_randints]
    simp
  rw [e, h.measureReal_preimage (measurableSet_singleton i).nullMeasurableSet]
  rw [measureReal_def, uniformOn_univ, Measure.count_singleton, Fintype.card_fin, ENNReal.toReal_div, ENNReal.toReal_one, ENNReal.toReal_natCast]

/-- C117 applies to a sample of two gradients in the plane. -/
example {lib : Model.Subspaces.Lib} (hl : SubLibOK lib) : ∃ e : Fin 2 → ℝ, ∃ B : (Fin 2 → Fin 2) → Matrix (Fin 2) (Fin 2) ℝ,
    e 0 ≤ ∫ ω, B ω 0 1 ∂(Measure.pi fun _ : Fin 2 => uniformOn (Set.univ : Set (Fin 2))) := by
  have hrun := fun ω : Fin 2 → Fin 2 => C43_succeeds hl (intRng 1) (le_refl 2) (by norm_num : 0 < 2) none none (some !![2, 0; 0, 1]) none "AS" "EVG" 100
    (fun i => ω (Fin.ofNat 2 i), {}) (.inl ⟨rfl, by simp⟩) (.inl rfl)
  choose w' h1 h2 using hrun
  have hc := fun ω => compute_boot (k := 99) hl (intRng 1) (by norm_num) none none !![2, 0; 0, 1] none "EVG" (h1 ω)
  choose e0 V0 e' V' B h3 h4 h5 h6 h7 h8 using hc
  have he : ∀ ω, e0 ω = e0 0 := fun ω => by
    have := (h3 ω).symm.trans (h3 0)
    exact eq_of_heq (EigPair.mk.inj (Except.ok.inj this)).2.1
  refine ⟨e0 0, B, ?_⟩
  exact (C117_range (k := 99) (intRng_uniform 1) hl (by norm_num) none none !![2, 0; 0, 1] none (fun _ => by simp [weightsOf]) "EVG" {} h1 h6
    (fun _ _ => Measurable.of_discrete.aemeasurable) fun ω => by rw [h4, he]).1

end Props
