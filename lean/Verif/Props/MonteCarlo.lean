import Mathlib.Probability.Distributions.Gaussian.Real
import Mathlib.Probability.Independence.InfinitePi
import Mathlib.Probability.StrongLaw
import Verif.Props.Stability
import Verif.Props.Compute
import Verif.Props.Partition

/-!
# Property C110: active subspaces from random samples converge
-/

open Py Model.Subspaces Model.Misc Spec Matrix Proofs.Eigh Proofs.Perturb MeasureTheory ProbabilityTheory Filter
open scoped Matrix.Norms.L2Operator Topology

namespace Props

variable {S : Type} {M m : ℕ}

/-! ## Perturbation of positive semidefinite matrices -/

theorem form_le (E : Matrix (Fin m) (Fin m) ℝ) (x : Fin m → ℝ) : |x ⬝ᵥ E.mulVec x| ≤ ‖E‖ * (x ⬝ᵥ x) := by
  have h1 := l2_opNorm_mulVec E (WithLp.toLp 2 x)
  change ‖WithLp.toLp 2 (E.mulVec x)‖ ≤ _ at h1
  have h2 := abs_dot_le x (E.mulVec x)
  rw [sum_sq_dot, sum_sq_dot, sqrt_dot, sqrt_dot] at h2
  have h3 : x ⬝ᵥ x = ‖WithLp.toLp 2 x‖ * ‖WithLp.toLp 2 x‖ := by
    rw [← sqrt_dot, Real.mul_self_sqrt]
    exact Finset.sum_nonneg fun i _ => mul_self_nonneg _
  rw [h3]
  refine h2.trans ?_
  nlinarith [norm_nonneg (WithLp.toLp 2 x)]

theorem eig_close {A B : Matrix (Fin m) (Fin m) ℝ} {e e' : Fin m → ℝ} {V V' : Matrix (Fin m) (Fin m) ℝ} (hA : IsSortedEigh A e V)
    (hB : IsSortedEigh B e' V') (j : Fin m) : |e j - e' j| ≤ ‖A - B‖ := by
  have hd : ∀ x : Fin m → ℝ, |x ⬝ᵥ A.mulVec x - x ⬝ᵥ B.mulVec x| ≤ ‖A - B‖ * (x ⬝ᵥ x) := fun x => by
    have := form_le (A - B) x
    rwa [Matrix.sub_mulVec, dotProduct_sub] at this
  rw [abs_le]
  constructor
  · have := weyl (δ := ‖A - B‖) hB.isEigh hA.isEigh hB.anti hA.anti (fun x => by have := neg_le_of_abs_le (hd x); linarith) j
    linarith
  · have := weyl hA.isEigh hB.isEigh hA.anti hB.anti (fun x => le_of_abs_le (hd x)) j
    linarith

theorem sortedEigh_symm {A : Matrix (Fin m) (Fin m) ℝ} {e : Fin m → ℝ} {V : Matrix (Fin m) (Fin m) ℝ} (hA : IsSortedEigh A e V) :
    A.transpose = A := by
  have h := hA.isEigh
  have hV : V * V.transpose = 1 := mul_eq_one_comm.mp h.orth
  have hA : A = V * Matrix.diagonal e * V.transpose := by rw [← h.vecs, Matrix.mul_assoc, hV, Matrix.mul_one]
  rw [hA]
  simp [Matrix.transpose_mul, Matrix.mul_assoc]

/-- Davis and Kahan for decompositions of positive semidefinite matrices. -/
theorem leak_close {A B : Matrix (Fin m) (Fin m) ℝ} {e e' : Fin m → ℝ} {V V' : Matrix (Fin m) (Fin m) ℝ} (hA : IsSortedEigh A e V)
    (hB : IsSortedEigh B e' V') {n : ℕ} (hn : 1 ≤ n) (hnm : n < m) (hgap : e' ⟨n, hnm⟩ < e ⟨n - 1, by omega⟩) :
    (e ⟨n - 1, by omega⟩ - e' ⟨n, hnm⟩) * ‖(Np.firstCols V n hnm.le).transpose * Np.lastCols V' n‖ ≤ ‖A - B‖ := by
  have hF : A * Np.firstCols V n hnm.le = Np.firstCols V n hnm.le * diagonal fun i => e (Fin.castLE hnm.le i) := by
    ext r j
    have := congrFun (hA.vec (Fin.castLE hnm.le j)) r
    rw [Matrix.mul_diagonal]
    exact this.trans (mul_comm _ _)
  have hL : B * Np.lastCols V' n = Np.lastCols V' n * diagonal fun i : Fin (m - n) => e' ⟨n + i, by omega⟩ := by
    ext r j
    have := congrFun (hB.vec ⟨n + j, by omega⟩) r
    rw [Matrix.mul_diagonal]
    exact this.trans (mul_comm _ _)
  exact davis_kahan (sortedEigh_symm hA) hF hL (firstCols_orth' hA.isEigh.orth n hnm.le) (lastCols_orth hB.isEigh.orth n)
    (fun i => hA.anti (Fin.le_def.mpr (by simp; omega)))
    (fun i => by
      rw [abs_of_nonneg (hB.nonneg _)]
      exact hB.anti (Fin.le_def.mpr (by simp)))
    (hB.nonneg _) hgap le_rfl

/-- The entries of the projection on the first `n` columns. -/
def projEntry (V : Matrix (Fin m) (Fin m) ℝ) (n : ℕ) (a b : Fin m) : ℝ := ∑ j : Fin m, if (j : ℕ) < n then V a j * V b j else 0

theorem projEntry_eq (V : Matrix (Fin m) (Fin m) ℝ) {n : ℕ} (hn : n ≤ m) (a b : Fin m) :
    projEntry V n a b = (Np.firstCols V n hn * (Np.firstCols V n hn).transpose) a b := by
  unfold projEntry
  rw [sum_lt (fun j => V a j * V b j) n hn]
  rfl

theorem proj_sum {V : Matrix (Fin m) (Fin m) ℝ} (hV : V.transpose * V = 1) {n : ℕ} (hn : n ≤ m) :
    Np.firstCols V n hn * (Np.firstCols V n hn).transpose + Np.lastCols V n * (Np.lastCols V n).transpose = 1 := by
  have h : V * V.transpose = 1 := mul_eq_one_comm.mp hV
  ext a b
  rw [← h, Matrix.add_apply, Matrix.mul_apply, Matrix.mul_apply, Matrix.mul_apply]
  obtain ⟨k, rfl⟩ := Nat.exists_eq_add_of_le hn
  rw [Fin.sum_univ_add]
  have e : n + k - n = k := by omega
  congr 1
  refine Finset.sum_equiv (finCongr e) (by simp) fun i _ => ?_
  rfl

theorem proj_close {V V' : Matrix (Fin m) (Fin m) ℝ} (hV : V.transpose * V = 1) (hV' : V'.transpose * V' = 1) {n : ℕ} (hn : n ≤ m)
    (a b : Fin m) : |projEntry V' n a b - projEntry V n a b|
      ≤ ‖(Np.firstCols V' n hn).transpose * Np.lastCols V n‖ + ‖(Np.firstCols V n hn).transpose * Np.lastCols V' n‖ := by
  set F := Np.firstCols V n hn with hF
  set F' := Np.firstCols V' n hn with hF'
  set L := Np.lastCols V n with hL
  set L' := Np.lastCols V' n with hL'
  have h1 : F * F.transpose + L * L.transpose = 1 := proj_sum hV hn
  have h2 : F' * F'.transpose + L' * L'.transpose = 1 := proj_sum hV' hn
  have h3 : F' * F'.transpose - F * F.transpose
      = F' * (F'.transpose * L) * L.transpose - L' * (L'.transpose * F) * F.transpose := by
    have e1 : F' * (F'.transpose * L) * L.transpose = F' * F'.transpose * (1 - F * F.transpose) := by
      rw [← h1]
      simp only [add_sub_cancel_left, Matrix.mul_assoc]
    have e2 : L' * (L'.transpose * F) * F.transpose = (1 - F' * F'.transpose) * (F * F.transpose) := by
      rw [← h2]
      simp only [add_sub_cancel_left, Matrix.mul_assoc]
    rw [e1, e2, Matrix.mul_sub, Matrix.sub_mul, Matrix.mul_one, Matrix.one_mul]
    abel
  have o1 := opNorm_orth (firstCols_orth' hV n hn)
  have o2 := opNorm_orth (firstCols_orth' hV' n hn)
  have o3 := opNorm_orth (lastCols_orth hV n)
  have o4 := opNorm_orth (lastCols_orth hV' n)
  rw [← hF] at o1
  rw [← hF'] at o2
  rw [← hL] at o3
  rw [← hL'] at o4
  have n1 : ‖F' * (F'.transpose * L) * L.transpose‖ ≤ ‖F'.transpose * L‖ := by
    refine (l2_opNorm_mul _ _).trans ?_
    rw [opNorm_transpose]
    refine (mul_le_of_le_one_right (norm_nonneg _) o3).trans ?_
    exact (l2_opNorm_mul _ _).trans (mul_le_of_le_one_left (norm_nonneg _) o2)
  have n2 : ‖L' * (L'.transpose * F) * F.transpose‖ ≤ ‖F.transpose * L'‖ := by
    refine (l2_opNorm_mul _ _).trans ?_
    rw [opNorm_transpose]
    refine (mul_le_of_le_one_right (norm_nonneg _) o1).trans ?_
    refine (l2_opNorm_mul _ _).trans ((mul_le_of_le_one_left (norm_nonneg _) o4).trans (le_of_eq ?_))
    rw [← opNorm_transpose, transpose_mul, transpose_transpose]
  have h4 : ‖F' * F'.transpose - F * F.transpose‖ ≤ ‖F'.transpose * L‖ + ‖F.transpose * L'‖ := by
    rw [h3]
    exact (norm_sub_le _ _).trans (add_le_add n1 n2)
  rw [projEntry_eq V' hn, projEntry_eq V hn]
  change |(F' * F'.transpose - F * F.transpose) a b| ≤ _
  refine le_trans ?_ h4
  have h5 := l2_opNorm_mulVec (F' * F'.transpose - F * F.transpose) (WithLp.toLp 2 (Pi.single b 1))
  have h6 := PiLp.norm_apply_le (WithLp.toLp 2 ((F' * F'.transpose - F * F.transpose).mulVec (Pi.single b 1))) a
  have h7 : ‖WithLp.toLp 2 (Pi.single b (1 : ℝ) : Fin m → ℝ)‖ = 1 := by
    rw [← sqrt_dot]
    simp
  rw [h7, mul_one] at h5
  have h8 := h6.trans h5
  simpa using h8

theorem norm_le_sum (E : Matrix (Fin m) (Fin m) ℝ) : ‖E‖ ≤ ∑ a, ∑ b, |E a b| := by
  refine opNorm_le (Finset.sum_nonneg fun a _ => Finset.sum_nonneg fun b _ => abs_nonneg _) fun u v => ?_
  have hu : ∀ (u : Fin m → ℝ) a, |u a| ≤ Real.sqrt (u ⬝ᵥ u) := fun u a => by
    rw [← Real.sqrt_sq_eq_abs, ← sum_sq_dot]
    exact Real.sqrt_le_sqrt (Finset.single_le_sum (f := fun k => u k ^ 2) (fun k _ => sq_nonneg _) (Finset.mem_univ a))
  simp only [dotProduct, mulVec, Finset.mul_sum, Finset.sum_mul]
  refine Finset.sum_le_sum fun a _ => Finset.sum_le_sum fun b _ => ?_
  refine (le_abs_self _).trans ?_
  rw [abs_mul, abs_mul]
  have h1 := hu u a
  have h2 := hu v b
  have h3 : |u a| * |v b| ≤ Real.sqrt (u ⬝ᵥ u) * Real.sqrt (v ⬝ᵥ v) := mul_le_mul h1 h2 (abs_nonneg _) (Real.sqrt_nonneg _)
  have h4 := mul_le_mul_of_nonneg_left h3 (abs_nonneg (E a b))
  have e1 : |u a| * (|E a b| * |v b|) = |E a b| * (|u a| * |v b|) := by ring
  rw [e1]
  refine h4.trans (le_of_eq ?_)
  simp only [dotProduct]
  ring

/-- Convergence of matrices carries over to eigenvalues, and to projections on eigenvectors before a gap. -/
theorem eig_tendsto {A : ℕ → Matrix (Fin m) (Fin m) ℝ} {C : Matrix (Fin m) (Fin m) ℝ} {e : ℕ → Fin m → ℝ} {V : ℕ → Matrix (Fin m) (Fin m) ℝ}
    {l : Fin m → ℝ} {U : Matrix (Fin m) (Fin m) ℝ} (hC : IsSortedEigh C l U) (hA : ∀ᶠ M in atTop, IsSortedEigh (A M) (e M) (V M))
    (h : ∀ a b, Tendsto (fun M => A M a b) atTop (𝓝 (C a b))) :
    (∀ j, Tendsto (fun M => e M j) atTop (𝓝 (l j))) ∧
    ∀ (n : ℕ) (_ : 1 ≤ n) (hnm : n < m), l ⟨n, hnm⟩ < l ⟨n - 1, by omega⟩ →
      ∀ a b, Tendsto (fun M => projEntry (V M) n a b) atTop (𝓝 (projEntry U n a b)) := by
  have hδ : Tendsto (fun M => ‖A M - C‖) atTop (𝓝 0) := by
    refine squeeze_zero (fun M => norm_nonneg _) (fun M => norm_le_sum _) ?_
    have : Tendsto (fun M => ∑ a, ∑ b, |A M a b - C a b|) atTop (𝓝 (∑ a : Fin m, ∑ b : Fin m, |C a b - C a b|)) :=
      tendsto_finsetSum _ fun a _ => tendsto_finsetSum _ fun b _ => ((h a b).sub_const _).abs
    simpa using this
  have he : ∀ j, Tendsto (fun M => e M j) atTop (𝓝 (l j)) := fun j => by
    rw [tendsto_iff_norm_sub_tendsto_zero]
    refine squeeze_zero' (Eventually.of_forall fun M => norm_nonneg _) ?_ hδ
    filter_upwards [hA] with M hM
    exact eig_close hM hC j
  refine ⟨he, fun n hn hnm hgap a b => ?_⟩
  set γ := l ⟨n - 1, by omega⟩ - l ⟨n, hnm⟩ with hγ
  have hγ0 : 0 < γ := by linarith
  rw [tendsto_iff_norm_sub_tendsto_zero]
  have hb : Tendsto (fun M => ‖A M - C‖ / (γ / 2) + ‖A M - C‖ / (γ / 2)) atTop (𝓝 0) := by
    have := (hδ.div_const (γ / 2)).add (hδ.div_const (γ / 2))
    simpa using this
  refine squeeze_zero' (Eventually.of_forall fun M => norm_nonneg _) ?_ hb
  have g1 : ∀ᶠ M in atTop, l ⟨n, hnm⟩ + γ / 2 < e M ⟨n - 1, by omega⟩ :=
    (he ⟨n - 1, by omega⟩).eventually (lt_mem_nhds (by linarith))
  have g2 : ∀ᶠ M in atTop, e M ⟨n, hnm⟩ < l ⟨n - 1, by omega⟩ - γ / 2 := (he ⟨n, hnm⟩).eventually (gt_mem_nhds (by linarith))
  filter_upwards [hA, g1, g2] with M hM h1 h2
  refine (proj_close hC.isEigh.orth hM.isEigh.orth hnm.le a b).trans (add_le_add ?_ ?_)
  · have h3 := leak_close hM hC hn hnm (by linarith)
    rw [le_div_iff₀ (by linarith)]
    refine le_trans ?_ h3
    rw [mul_comm]
    exact mul_le_mul_of_nonneg_right (by linarith) (norm_nonneg _)
  · have h3 := leak_close hC hM hn hnm (by linarith)
    rw [norm_sub_rev] at h3
    rw [le_div_iff₀ (by linarith)]
    refine le_trans ?_ h3
    rw [mul_comm]
    exact mul_le_mul_of_nonneg_right (by linarith) (norm_nonneg _)

/-- The largest gap is found if it is strictly the largest in the limit. -/
theorem gap_tendsto {e : ℕ → Fin m → ℝ} {l : Fin m → ℝ} (he : ∀ j, Tendsto (fun M => e M j) atTop (𝓝 (l j))) {n : ℕ} (hn : 1 ≤ n)
    (hnm : n < m) (hmax : ∀ k (_ : 1 ≤ k) (hk : k < m), k ≠ n → |l ⟨k - 1, by omega⟩ - l ⟨k, hk⟩| < |l ⟨n - 1, by omega⟩ - l ⟨n, hnm⟩|) :
    ∀ᶠ M in atTop, ∃ d, eig_partition (e M) = .ok (n, d) := by
  have hd : ∀ k (hk1 : 1 ≤ k) (hk : k < m), Tendsto (fun M => |e M ⟨k - 1, by omega⟩ - e M ⟨k, hk⟩|) atTop
      (𝓝 |l ⟨k - 1, by omega⟩ - l ⟨k, hk⟩|) := fun k hk1 hk => ((he _).sub (he _)).abs
  have hev : ∀ k : Fin m, ∀ᶠ M in atTop, ∀ (hk1 : 1 ≤ (k : ℕ)), (k : ℕ) ≠ n →
      |e M ⟨k - 1, by omega⟩ - e M ⟨k, k.2⟩| < |e M ⟨n - 1, by omega⟩ - e M ⟨n, hnm⟩| := by
    intro k
    by_cases hk : 1 ≤ (k : ℕ) ∧ (k : ℕ) ≠ n
    · filter_upwards [(hd k hk.1 k.2).eventually_lt (hd n hn hnm) (hmax k hk.1 k.2 hk.2)] with M hM _ _
      exact hM
    · exact Eventually.of_forall fun M h1 h2 => absurd ⟨h1, h2⟩ hk
  filter_upwards [eventually_all.mpr hev] with M hM
  obtain ⟨n', h1, h2, d, h3, -, h4, -⟩ := C38_gap (by omega : 2 ≤ m) (e M)
  by_cases hnn : n' = n
  · subst hnn
    exact ⟨d, h3⟩
  · exact absurd (h4 n hn hnm) (not_le.mpr (hM ⟨n', h2⟩ h1 hnn))

/-! ## Random gradients -/

variable {Ω : Type} [MeasurableSpace Ω]

/-- The first `M` gradients as rows. -/
def rowsOf (g : ℕ → Ω → Fin m → ℝ) (M : ℕ) (ω : Ω) : Matrix (Fin M) (Fin m) ℝ := Matrix.of fun i k => g i ω k

/-- The matrix of second moments. -/
noncomputable def secondMoment (μ : Measure Ω) (g : Ω → Fin m → ℝ) : Matrix (Fin m) (Fin m) ℝ := Matrix.of fun k l => ∫ ω, g ω k * g ω l ∂μ

/-- Independent gradients with the same distribution and finite second moments. -/
structure IsSample (μ : Measure Ω) (g : ℕ → Ω → Fin m → ℝ) : Prop where
  sq : ∀ k, MemLp (fun ω => g 0 ω k) 2 μ
  indep : Pairwise fun i j => IndepFun (g i) (g j) μ
  ident : ∀ i, IdentDistrib (g i) (g 0) μ μ

theorem sample_law {μ : Measure Ω} {g : ℕ → Ω → Fin m → ℝ} (hg : IsSample μ g) :
    ∀ᵐ ω ∂μ, ∀ k l, Tendsto (fun M => gradOuter (rowsOf g M ω) (fun _ => 1 / (M : ℝ)) k l) atTop (𝓝 (secondMoment μ (g 0) k l)) := by
  rw [ae_all_iff]
  intro k
  rw [ae_all_iff]
  intro l
  have hm : Measurable fun x : Fin m → ℝ => x k * x l := (measurable_pi_apply k).mul (measurable_pi_apply l)
  have h := strong_law_ae_real (fun i ω => g i ω k * g i ω l) ((hg.sq k).integrable_mul (hg.sq l))
    (fun i j hij => (hg.indep hij).comp hm hm) (fun i => (hg.ident i).comp hm)
  filter_upwards [h] with ω hω
  refine hω.congr fun M => ?_
  simp only [gradOuter, rowsOf, Matrix.of_apply]
  rw [← Finset.mul_sum, Fin.sum_univ_eq_sum_range fun i => g i ω k * g i ω l]
  ring

theorem secondMoment_posSemidef {μ : Measure Ω} {g : Ω → Fin m → ℝ} (hg : ∀ k, MemLp (fun ω => g ω k) 2 μ) :
    (secondMoment μ g).PosSemidef := by
  have hi : ∀ k l, Integrable (fun ω => g ω k * g ω l) μ := fun k l => (hg k).integrable_mul (hg l)
  refine Matrix.PosSemidef.of_dotProduct_mulVec_nonneg ?_ fun x => ?_
  · ext k l
    simp only [secondMoment, conjTranspose_apply, Matrix.of_apply, star_trivial, mul_comm]
  · have e : star x ⬝ᵥ (secondMoment μ g).mulVec x = ∫ ω, (∑ k, x k * g ω k) ^ 2 ∂μ := by
      simp only [star_trivial, dotProduct, mulVec, secondMoment, Matrix.of_apply, Finset.mul_sum]
      have e2 : ∀ ω, (∑ k, x k * g ω k) ^ 2 = ∑ k, ∑ l, x k * x l * (g ω k * g ω l) := fun ω => by
        rw [sq, Finset.sum_mul_sum]
        exact Finset.sum_congr rfl fun k _ => Finset.sum_congr rfl fun l _ => by ring
      simp only [e2]
      rw [integral_finsetSum _ fun k _ => integrable_finsetSum _ fun l _ => (hi k l).const_mul _]
      refine Finset.sum_congr rfl fun k _ => ?_
      rw [integral_finsetSum _ fun l _ => (hi k l).const_mul _]
      refine Finset.sum_congr rfl fun l _ => ?_
      rw [integral_const_mul]
      ring
    rw [e]
    exact integral_nonneg fun ω => sq_nonneg _

/-- C110: for independent gradients with the same distribution, almost surely, `active_subspace` with equal weights returns eigenvalues
that converge to those of the matrix of second moments, and eigenvectors such that the projections on the first `n` converge if the
limit has a gap after `n`. -/
theorem C110_active_subspace {μ : Measure Ω} {g : ℕ → Ω → Fin m → ℝ} (hg : IsSample μ g) (lib : Model.Subspaces.Lib) (hl : SubLibOK lib)
    (hm : 0 < m) {l : Fin m → ℝ} {U : Matrix (Fin m) (Fin m) ℝ} (hU : IsSortedEigh (secondMoment μ (g 0)) l U) :
    ∀ᵐ ω ∂μ, ∃ (e : ℕ → Fin m → ℝ) (V : ℕ → Matrix (Fin m) (Fin m) ℝ),
      (∀ M, active_subspace lib (.mat (NpMat.of (rowsOf g M ω))) (wcol fun _ : Fin M => 1 / (M : ℝ)) = .ok ⟨m, e M, V M⟩) ∧
      (∀ j, Tendsto (fun M => e M j) atTop (𝓝 (l j))) ∧
      ∀ (n : ℕ) (_ : 1 ≤ n) (hnm : n < m), l ⟨n, hnm⟩ < l ⟨n - 1, by omega⟩ →
        ∀ a b, Tendsto (fun M => ∑ j : Fin m, if (j : ℕ) < n then V M a j * V M b j else 0) atTop
          (𝓝 (∑ j : Fin m, if (j : ℕ) < n then U a j * U b j else 0)) := by
  filter_upwards [sample_law hg] with ω hω
  have h : ∀ M, ∃ e V, active_subspace lib (.mat (NpMat.of (rowsOf g M ω))) (wcol fun _ : Fin M => 1 / (M : ℝ)) = .ok ⟨m, e, V⟩ ∧
      IsSortedEigh (gradOuter (rowsOf g M ω) fun _ => 1 / (M : ℝ)) e V := fun M => by
    obtain ⟨e, V, h, hs⟩ := C34_posSemidef lib hl hm _ (gradOuter_posSemidef (rowsOf g M ω) (fun _ => 1 / (M : ℝ)) fun _ => by positivity)
    exact ⟨e, V, by rw [active_subspace_eq, h], hs⟩
  choose e V h hs using h
  exact ⟨e, V, h, eig_tendsto hU (Eventually.of_forall hs) hω⟩

/-- C110: if one gap of the eigenvalues of the limit is strictly the largest, almost surely for all large samples `compute` chooses its
dimension, and the projections on the columns of `W1` converge. -/
theorem C110_compute {μ : Measure Ω} {g : ℕ → Ω → Fin m → ℝ} (hg : IsSample μ g) (lib : Model.Subspaces.Lib) (hl : SubLibOK lib)
    (rng : Rng S) (w : S × Subspaces) {l : Fin m → ℝ} {U : Matrix (Fin m) (Fin m) ℝ} (hU : IsSortedEigh (secondMoment μ (g 0)) l U)
    {n : ℕ} (hn : 1 ≤ n) (hnm : n < m)
    (hmax : ∀ k (_ : 1 ≤ k) (hk : k < m), k ≠ n → l ⟨k - 1, by omega⟩ - l ⟨k, hk⟩ < l ⟨n - 1, by omega⟩ - l ⟨n, hnm⟩)
    (hpos : l ⟨n, hnm⟩ < l ⟨n - 1, by omega⟩) :
    ∀ᵐ ω ∂μ, ∃ (e : ℕ → Fin m → ℝ) (V : ℕ → Matrix (Fin m) (Fin m) ℝ) (V1 : ℕ → Matrix (Fin m) (Fin n) ℝ) (w' : ℕ → S × Subspaces),
      (∀ᶠ M in atTop, (compute lib rng none none (some (.mat (NpMat.of (rowsOf g M ω)))) none "AS" "EVG" 0).run w = (.ok (), w' M) ∧
        (w' M).2.eigenvals = some (NpVec.of (e M)) ∧ (w' M).2.eigenvecs = some (NpMat.of (V M)) ∧ (w' M).2.W1 = some (NpMat.of (V1 M))) ∧
      (∀ j, Tendsto (fun M => e M j) atTop (𝓝 (l j))) ∧
      ∀ a b, Tendsto (fun M => ∑ j, V1 M a j * V1 M b j) atTop (𝓝 (∑ j : Fin m, if (j : ℕ) < n then U a j * U b j else 0)) := by
  filter_upwards [C110_active_subspace hg lib hl (by omega) hU] with ω ⟨e, V, h1, h2, h3⟩
  have hgap := gap_tendsto h2 hn hnm fun k hk1 hk hkn => by
    rw [abs_of_nonneg (sub_nonneg.mpr (hU.anti (Fin.le_def.mpr (by simp)))), abs_of_nonneg (sub_nonneg.mpr (hU.anti (Fin.le_def.mpr (by simp))))]
    exact hmax k hk1 hk hkn
  have hrun : ∀ M, ∃ (V1 : Matrix (Fin m) (Fin n) ℝ) (w' : S × Subspaces), 0 < M → (∃ d, eig_partition (e M) = .ok (n, d)) →
      (compute lib rng none none (some (.mat (NpMat.of (rowsOf g M ω)))) none "AS" "EVG" 0).run w = (.ok (), w') ∧
        w'.2.eigenvals = some (NpVec.of (e M)) ∧ w'.2.eigenvecs = some (NpMat.of (V M)) ∧ w'.2.W1 = some (NpMat.of V1) ∧
        ∀ a j, V1 a j = V M a (Fin.castLE hnm.le j) := by
    intro M
    by_cases hM : 0 < M ∧ ∃ d, eig_partition (e M) = .ok (n, d)
    swap
    · exact ⟨0, w, fun h1 h2 => absurd ⟨h1, h2⟩ hM⟩
    obtain ⟨hM, d, hd⟩ := hM
    obtain ⟨e', V', w', hp, hc, hsplit, he', hV', -, -, hev⟩ := compute_ok hl rng (by omega : 2 ≤ m) hM none none (some (rowsOf g M ω)) none
      (.inr (by simp)) "AS" "EVG" .AS rfl 0 w w ⟨m, e M, V M⟩ (by
        change (active_subspace lib (.mat (NpMat.of (rowsOf g M ω))) (wcol fun _ : Fin M => 1 / (M : ℝ)), w) = _
        rw [h1]) (fun h => absurd h (lt_irrefl _)) (.inl rfl)
    cases hp
    obtain ⟨n', d', V1, hd', hW1⟩ := hev rfl
    rw [hd] at hd'
    cases hd'
    refine ⟨V1, w', fun _ _ => ⟨hc, he', hV', hW1, fun a j => ?_⟩⟩
    obtain ⟨m'', n'', V'', V1'', V2'', q1, q2, q3, q4, q5, q6, q7⟩ := hsplit
    rw [hV'] at q1
    rw [hW1] at q2
    cases q1
    cases q2
    exact q6 a (Fin.castLE hnm.le j) j rfl
  choose V1 w' hr using hrun
  have hev : ∀ᶠ M : ℕ in atTop, 0 < M ∧ ∃ d, eig_partition (e M) = .ok (n, d) := (eventually_gt_atTop 0).and hgap
  refine ⟨e, V, V1, w', ?_, h2, fun a b => ?_⟩
  · filter_upwards [hev] with M hM
    obtain ⟨q1, q2, q3, q4, -⟩ := hr M hM.1 hM.2
    exact ⟨q1, q2, q3, q4⟩
  · refine (h3 n hn hnm hpos a b).congr' ?_
    filter_upwards [hev] with M hM
    obtain ⟨-, -, -, -, q⟩ := hr M hM.1 hM.2
    rw [sum_lt (fun j => V M a j * V M b j) n hnm.le]
    exact Finset.sum_congr rfl fun j _ => by rw [q, q]

/-- C110: the mean of the matrix that is decomposed is the matrix of second moments. -/
theorem C110_unbiased {μ : Measure Ω} {g : ℕ → Ω → Fin m → ℝ} (hg : IsSample μ g) (hM : 0 < M) (k l : Fin m) :
    ∫ ω, gradOuter (rowsOf g M ω) (fun _ => 1 / (M : ℝ)) k l ∂μ = secondMoment μ (g 0) k l := by
  have hm : Measurable fun x : Fin m → ℝ => x k * x l := (measurable_pi_apply k).mul (measurable_pi_apply l)
  have hi : Integrable (fun ω => g 0 ω k * g 0 ω l) μ := (hg.sq k).integrable_mul (hg.sq l)
  have hid : ∀ i, IdentDistrib (fun ω => g i ω k * g i ω l) (fun ω => g 0 ω k * g 0 ω l) μ μ := fun i => (hg.ident i).comp hm
  simp only [gradOuter, rowsOf, secondMoment, Matrix.of_apply]
  rw [integral_finsetSum Finset.univ (f := fun (i : Fin M) ω => 1 / (M : ℝ) * (g i ω k * g i ω l)) fun i _ =>
    ((hid i).symm.integrable_snd hi).const_mul _]
  simp only [integral_const_mul, fun i : ℕ => (hid i).integral_eq]
  rw [Finset.sum_const, Finset.card_univ, Fintype.card_fin, nsmul_eq_mul]
  have : (M : ℝ) ≠ 0 := by exact_mod_cast hM.ne'
  field_simp

/-! ## The hypotheses can be met -/

/-- The gradients `(2 x, 1)` of `x² + y` at independent standard normal `x`. -/
theorem exampleSample : IsSample (Measure.infinitePi fun _ : ℕ => gaussianReal 0 1)
    (fun (i : ℕ) (ω : ℕ → ℝ) => (![2 * ω i, 1] : Fin 2 → ℝ)) := by
  have hG : Measurable fun x : ℝ => (![2 * x, 1] : Fin 2 → ℝ) := by
    refine measurable_pi_iff.mpr fun k => ?_
    fin_cases k
    · exact measurable_id.const_mul 2
    · exact measurable_const
  have hp := fun i : ℕ => measurePreserving_eval_infinitePi (fun _ : ℕ => gaussianReal 0 1) i
  refine ⟨fun k => ?_, fun i j hij => ?_, fun i => ?_⟩
  · fin_cases k
    · have h2 : MemLp (fun x : ℝ => 2 * x) 2 (gaussianReal 0 1) := (memLp_id_gaussianReal' 2 (by simp)).const_mul 2
      exact h2.comp_measurePreserving (hp 0)
    · exact memLp_const 1
  · exact (iIndepFun_infinitePi (P := fun _ : ℕ => gaussianReal 0 1) (X := fun _ x => (![2 * x, 1] : Fin 2 → ℝ)) (fun _ => hG)).indepFun hij
  · exact ⟨(hG.comp (measurable_pi_apply i)).aemeasurable, (hG.comp (measurable_pi_apply 0)).aemeasurable, by
      have e : ∀ i : ℕ, Measure.map (fun ω : ℕ → ℝ => (![2 * ω i, 1] : Fin 2 → ℝ)) (Measure.infinitePi fun _ : ℕ => gaussianReal 0 1)
          = Measure.map (fun x : ℝ => (![2 * x, 1] : Fin 2 → ℝ)) (gaussianReal 0 1) := fun i => by
        conv_rhs => rw [← (hp i).map_eq, Measure.map_map hG (measurable_pi_apply i)]
        rfl
      rw [e, e]⟩

/-- Their matrix of second moments is diagonal, with eigenvalues 4 and 1. -/
example : IsSortedEigh (secondMoment (Measure.infinitePi fun _ : ℕ => gaussianReal 0 1)
    (fun (ω : ℕ → ℝ) => (![2 * ω 0, 1] : Fin 2 → ℝ))) ![4, 1] 1 := by
  have hp := measurePreserving_eval_infinitePi (fun _ : ℕ => gaussianReal 0 1) 0
  have i1 : ∫ ω, ω 0 ∂(Measure.infinitePi fun _ : ℕ => gaussianReal 0 1) = 0 := by
    have := integral_id_gaussianReal (μ := 0) (v := 1)
    rw [← hp.map_eq, integral_map hp.measurable.aemeasurable (by fun_prop)] at this
    exact this
  have i2 : ∫ ω, ω 0 * ω 0 ∂(Measure.infinitePi fun _ : ℕ => gaussianReal 0 1) = 1 := by
    have := variance_fun_id_gaussianReal (μ := 0) (v := 1)
    rw [variance_eq_integral (by fun_prop), integral_id_gaussianReal, ← hp.map_eq, integral_map hp.measurable.aemeasurable (by fun_prop)] at this
    simpa [sq] using this
  have hC : secondMoment (Measure.infinitePi fun _ : ℕ => gaussianReal 0 1) (fun (ω : ℕ → ℝ) => (![2 * ω 0, 1] : Fin 2 → ℝ))
      = diagonal ![4, 1] := by
    have e : ∀ ω : ℕ → ℝ, 2 * ω 0 * (2 * ω 0) = 4 * (ω 0 * ω 0) := fun ω => by ring
    ext k l
    fin_cases k <;> fin_cases l <;> simp [secondMoment, e, integral_const_mul, i1, i2]
  rw [hC]
  refine ⟨fun j => ?_, fun j k => ?_, fun j => ?_, ?_, fun i j _ => ?_⟩
  · ext i
    fin_cases i <;> fin_cases j <;> simp [mulVec, dotProduct]
  · have := congrFun (congrFun (Matrix.one_mul (1 : Matrix (Fin 2) (Fin 2) ℝ)) j) k
    rw [Matrix.mul_apply, Matrix.one_apply] at this
    rw [← this]
    exact Finset.sum_congr rfl fun i _ => by rw [Matrix.one_apply, Matrix.one_apply, Matrix.one_apply]; simp only [eq_comm]
  · fin_cases j <;> norm_num
  · intro a b hab
    fin_cases a <;> fin_cases b <;> first | exact absurd hab (by decide) | norm_num
  · rw [Matrix.one_apply]
    split_ifs <;> norm_num

end Props
