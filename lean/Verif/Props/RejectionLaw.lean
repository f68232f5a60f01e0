import Mathlib.Probability.HasLaw
import Verif.Proofs.Accept
import Verif.Props.Samplers
import Verif.Props.WalkLaw

/-!
# Property C104: rejection sampling is uniform
-/

open Py Model.Domains Model.QPSolver Model.Misc Spec Proofs.Run Proofs.Accept MeasureTheory ProbabilityTheory
open scoped ENNReal

namespace Props

variable {S E : Type} {m n k N : ℕ}

/-- Independent uniform numbers in `[-1, 1]`. -/
noncomputable def unifMatrix (r c : ℕ) : Measure (Fin r → Fin c → ℝ) :=
  Measure.pi fun _ => Measure.pi fun _ => (2 : ℝ≥0∞)⁻¹ • volume.restrict (Set.Icc (-1 : ℝ) 1)

open Classical in
/-- The result in terms of the box and of the numbers drawn. -/
theorem rejection_run {lib : Model.Domains.Lib} {rng : Rng S} {N : ℕ} {y : Fin n → ℝ} {W1 : Matrix (Fin m) (Fin n) ℝ}
    {W2 : Matrix (Fin m) (Fin k) ℝ} {w : S × Files × E} {B : Fin k → ℝ × ℝ}
    (h : (box lib rng (polyA W2) (polyB (W1.mulVec y))).run w = (.ok B, w)) (x : Fin (50 * N) → Fin k → ℝ)
    (hx : ∀ i j, x i j = (B j).1 + ((B j).2 - (B j).1) * (((rng.uniform (50 * N) k w.1).1 i j + 1) / 2)) :
    (rejection_sampling_z lib rng N y W1 W2).run w =
      (.ok (if N ≤ ((List.ofFn x).filter fun z => decide (z ∈ inactive W1 W2 y)).length then
        some (Matrix.of fun i j => ((List.ofFn x).filter fun z => decide (z ∈ inactive W1 W2 y)).getD i 0 j) else none),
        ((rng.uniform (50 * N) k w.1).2, w.2)) := by
  have hxe : x = fun i j => ((B j).2 - (B j).1) * ((rng.uniform (50 * N) k w.1).1 i j + 1) / 2 + (B j).1 := by
    funext i j
    rw [hx]
    ring
  have hkeep : keep (polyA W2) (polyB (W1.mulVec y)) (NpMat.of (Matrix.of x))
      = (List.ofFn x).filter fun z => decide (z ∈ inactive W1 W2 y) := by
    unfold keep
    have e : ((List.range (NpMat.of (Matrix.of x)).rows).map fun i => fun j : Fin k => (NpMat.of (Matrix.of x)).get i j) = List.ofFn x := by
      refine List.ext_getElem (by simp) fun i hi1 hi2 => ?_
      simp only [List.getElem_map, List.getElem_range, List.getElem_ofFn]
      funext j
      have hi3 : i < 50 * N := by simpa using hi2
      exact NpMat.get_of (Matrix.of x) ⟨i, hi3⟩ j
    rw [e]
    refine List.filter_congr fun z _ => ?_
    simp only [mem_inactive]
  unfold rejection_sampling_z
  dsimp only
  rw [PyM.run_bind_ok h, Proofs.Misc.init_ofFn, PyM.run_bind_ok (PyM.run_lift _ _), PyM.run_bind_ok (Rng.run_draw _ _),
    Proofs.Misc.unnormalize_of, PyM.run_bind_ok (PyM.run_lift _ _)]
  have e2 : (NpMat.of (Matrix.of fun (i : Fin (50 * N)) j => ((B j).2 - (B j).1) * ((rng.uniform (50 * N) k w.1).1 i j + 1) / 2 + (B j).1))
      = NpMat.of (Matrix.of x) := by rw [hxe]
  rw [e2, hkeep]
  by_cases hN : N ≤ ((List.ofFn x).filter fun z => decide (z ∈ inactive W1 W2 y)).length
  · rw [if_pos hN, if_pos hN]
    rfl
  · rw [if_neg hN, if_neg hN]
    rfl

theorem isBox_unique {P : Set (Fin k → ℝ)} {B B' : Fin k → ℝ × ℝ} (h : IsBox P B) (h' : IsBox P B') : B = B' := by
  funext i
  obtain ⟨⟨z1, hz1, e1⟩, ⟨z2, hz2, e2⟩, h3⟩ := h i
  obtain ⟨⟨z4, hz4, e4⟩, ⟨z5, hz5, e5⟩, h6⟩ := h' i
  refine Prod.ext (le_antisymm ?_ ?_) (le_antisymm ?_ ?_)
  · rw [← e4]; exact (h3 z4 hz4).1
  · rw [← e1]; exact (h6 z1 hz1).1
  · rw [← e2]; exact (h6 z2 hz2).2
  · rw [← e5]; exact (h3 z5 hz5).2

/-- The law of the result in terms of independent points of the box. -/
theorem rejection_law [MeasurableSpace S] (μ : Measure S) {lib : Model.Domains.Lib} (hl : QPLibOK lib.qp) (rng : Rng S) (N : ℕ) (y : Fin n → ℝ)
    (W1 : Matrix (Fin m) (Fin n) ℝ) (W2 : Matrix (Fin m) (Fin k) ℝ) (e : Files × E)
    (hU : HasLaw (fun s i j => (rng.uniform (50 * N) k s).1 i j) (unifMatrix (50 * N) k) μ)
    (hrun : ∀ s, ∃ r w', (rejection_sampling_z lib rng N y W1 W2).run (s, e) = (.ok r, w')) (hv : volume (inactive W1 W2 y) ≠ 0) (hne : Nonempty S) :
    ∃ B, IsBox (inactive W1 W2 y) B ∧ (∀ j, (B j).1 < (B j).2) ∧ ∀ A : Fin N → Set (Fin k → ℝ), (∀ i, MeasurableSet (A i)) →
      μ {s | ∃ Z w', (rejection_sampling_z lib rng N y W1 W2).run (s, e) = (.ok (some Z), w') ∧ ∀ i, (fun j => Z i j) ∈ A i}
        = (Measure.pi fun _ : Fin (50 * N) => boxLaw (fun j => (B j).1) fun j => (B j).2) {x | Acc (inactive W1 W2 y) (50 * N) N A x} := by
  classical
  set Ω := inactive W1 W2 y with hΩ
  have hΩm : MeasurableSet Ω := inactive_measurable W1 W2 y
  -- the box is the same for all states
  have hbox : ∀ s, ∃ B, (box lib rng (polyA W2) (polyB (W1.mulVec y))).run (s, e) = (.ok B, (s, e)) ∧ IsBox Ω B := by
    intro s
    obtain ⟨r, w', h⟩ := hrun s
    obtain ⟨B, w1, h1, h2⟩ := bind_inv h
    obtain ⟨rfl, h3⟩ := box_run hl rng _ _ _ _ _ h1
    rw [ineqSet_poly] at h3
    exact ⟨B, h1, h3⟩
  obtain ⟨B, -, hB⟩ := hbox hne.some
  have hboxB : ∀ s, (box lib rng (polyA W2) (polyB (W1.mulVec y))).run (s, e) = (.ok B, (s, e)) := by
    intro s
    obtain ⟨B', h1, h2⟩ := hbox s
    rw [h1, isBox_unique hB h2]
  have hsub : Ω ⊆ Set.Icc (fun j => (B j).1) fun j => (B j).2 := fun z hz => ⟨fun j => ((hB j).2.2 z hz).1, fun j => ((hB j).2.2 z hz).2⟩
  have hlt : ∀ j, (B j).1 < (B j).2 := by
    intro j
    by_contra hc
    apply hv
    refine measure_mono_null hsub ?_
    rw [Real.volume_Icc_pi]
    refine Finset.prod_eq_zero (Finset.mem_univ j) ?_
    rw [ENNReal.ofReal_eq_zero]
    linarith
  -- the points tried
  let x : S → Fin (50 * N) → Fin k → ℝ := fun s i j => (B j).1 + ((B j).2 - (B j).1) * (((rng.uniform (50 * N) k s).1 i j + 1) / 2)
  have key : ∀ (A : Fin N → Set (Fin k → ℝ)) (s : S), (∃ Z w', (rejection_sampling_z lib rng N y W1 W2).run (s, e) = (.ok (some Z), w') ∧
      ∀ i, (fun j => Z i j) ∈ A i) ↔ Acc Ω (50 * N) N A (x s) := by
    intro A s
    have h1 := rejection_run (N := N) (hboxB s) (x s) fun i j => rfl
    rw [acc_iff]
    constructor
    · rintro ⟨Z, w', h2, h3⟩
      rw [h1] at h2
      have h4 := Except.ok.inj (congrArg Prod.fst h2)
      by_cases hc : N ≤ ((List.ofFn (x s)).filter fun z => decide (z ∈ Ω)).length
      · rw [if_pos hc] at h4
        have h5 := Option.some.inj h4
        refine ⟨hc, fun i => ?_⟩
        have h6 := h3 i
        rw [← h5] at h6
        exact h6
      · rw [if_neg hc] at h4
        cases h4
    · rintro ⟨h2, h3⟩
      rw [if_pos h2] at h1
      exact ⟨_, _, h1, fun i => h3 i⟩
  -- its law
  have hscale : MeasurePreserving (fun (u : Fin k → ℝ) (j : Fin k) => (B j).1 + ((B j).2 - (B j).1) * ((u j + 1) / 2))
      (Measure.pi fun _ : Fin k => unif) (boxLaw (fun j => (B j).1) fun j => (B j).2) := ⟨scale_measurable _ _, rfl⟩
  have hpi := measurePreserving_pi (fun _ : Fin (50 * N) => Measure.pi fun _ : Fin k => unif) _ fun _ => hscale
  refine ⟨B, hB, hlt, fun A hA => ?_⟩
  have hm := acc_measurable hΩm (M := 50 * N) hA
  rw [← hpi.measure_preimage hm.nullMeasurableSet]
  simp only [key]
  exact hU.measure_eq (hpi.measurable hm)

/-- C104: over the states of a generator whose uniform numbers are independent and uniform, given that the sampler succeeds the samples are independent and
uniformly distributed on the polytope. -/
theorem C104_uniform [MeasurableSpace S] (μ : Measure S) {lib : Model.Domains.Lib} (hl : QPLibOK lib.qp) (rng : Rng S) (N : ℕ) (y : Fin n → ℝ)
    (W1 : Matrix (Fin m) (Fin n) ℝ) (W2 : Matrix (Fin m) (Fin k) ℝ) (e : Files × E)
    (hU : HasLaw (fun s i j => (rng.uniform (50 * N) k s).1 i j) (unifMatrix (50 * N) k) μ)
    (hrun : ∀ s, ∃ r w', (rejection_sampling_z lib rng N y W1 W2).run (s, e) = (.ok r, w'))
    (A : Fin N → Set (Fin k → ℝ)) (hA : ∀ i, MeasurableSet (A i)) :
    μ {s | ∃ Z w', (rejection_sampling_z lib rng N y W1 W2).run (s, e) = (.ok (some Z), w') ∧ ∀ i, (fun j => Z i j) ∈ A i}
        * volume (inactive W1 W2 y) ^ N
      = μ {s | ∃ Z w', (rejection_sampling_z lib rng N y W1 W2).run (s, e) = (.ok (some Z), w')}
        * ∏ i, volume (A i ∩ inactive W1 W2 y) := by
  classical
  rcases Nat.eq_zero_or_pos N with rfl | hN
  · simp
  set Ω := inactive W1 W2 y with hΩ
  have hΩm : MeasurableSet Ω := inactive_measurable W1 W2 y
  by_cases hv : volume Ω = 0
  · rw [hv, zero_pow (by omega), mul_zero]
    rw [Finset.prod_eq_zero (Finset.mem_univ (⟨0, hN⟩ : Fin N)) (measure_mono_null Set.inter_subset_right hv), mul_zero]
  by_cases hne : Nonempty S
  swap
  · have h0 : ∀ T : Set S, μ T = 0 := fun T => by
      have : T = ∅ := Set.eq_empty_of_forall_notMem fun s _ => hne ⟨s⟩
      rw [this, measure_empty]
    rw [h0, h0, zero_mul, zero_mul]
  obtain ⟨B, hB, hlt, law⟩ := rejection_law μ hl rng N y W1 W2 e hU hrun hv hne
  have hsub : Ω ⊆ Set.Icc (fun j => (B j).1) fun j => (B j).2 := fun z hz => ⟨fun j => ((hB j).2.2 z hz).1, fun j => ((hB j).2.2 z hz).2⟩
  have law1 : μ {s | ∃ Z w', (rejection_sampling_z lib rng N y W1 W2).run (s, e) = (.ok (some Z), w')}
      = (Measure.pi fun _ : Fin (50 * N) => boxLaw (fun j => (B j).1) fun j => (B j).2) {x | Acc Ω (50 * N) N (fun _ => Set.univ) x} := by
    rw [← law _ fun _ => MeasurableSet.univ]
    simp
  have main := acc_law (boxLaw (fun j => (B j).1) fun j => (B j).2) hΩm (M := 50 * N) hA
  rw [← law A hA, ← law1] at main
  set c := (∏ j, ENNReal.ofReal ((B j).2 - (B j).1))⁻¹ with hc
  have hν : ∀ T : Set (Fin k → ℝ), MeasurableSet T → boxLaw (fun j => (B j).1) (fun j => (B j).2) (T ∩ Ω) = c * volume (T ∩ Ω) := by
    intro T hT
    rw [boxLaw_eq hlt, Measure.smul_apply, Measure.restrict_apply (hT.inter hΩm), smul_eq_mul,
      Set.inter_eq_self_of_subset_left (Set.inter_subset_right.trans hsub)]
  have hν1 := hν Set.univ MeasurableSet.univ
  rw [Set.univ_inter] at hν1
  rw [hν1] at main
  have hν2 : ∀ i, boxLaw (fun j => (B j).1) (fun j => (B j).2) (A i ∩ Ω) = c * volume (A i ∩ Ω) := fun i => hν _ (hA i)
  simp only [hν2, Finset.prod_mul_distrib, Finset.prod_const, Finset.card_univ, Fintype.card_fin, mul_pow] at main
  have hc0 : c ^ N ≠ 0 := by
    refine pow_ne_zero _ (ENNReal.inv_ne_zero.mpr (ENNReal.prod_ne_top fun j _ => ENNReal.ofReal_ne_top))
  have hct : c ^ N ≠ ⊤ := by
    refine ENNReal.pow_ne_top (ENNReal.inv_ne_top.mpr (Finset.prod_ne_zero_iff.mpr fun j _ => ?_))
    rw [Ne, ENNReal.ofReal_eq_zero, not_le]
    linarith [hlt j]
  refine (ENNReal.mul_right_inj hc0 hct).mp ?_
  calc _ = μ {s | ∃ Z w', (rejection_sampling_z lib rng N y W1 W2).run (s, e) = (.ok (some Z), w') ∧ ∀ i, (fun j => Z i j) ∈ A i}
        * (c ^ N * volume Ω ^ N) := by ring
    _ = _ := by rw [main]; ring

/-- C104 as conditional probabilities. -/
theorem C104_conditional [MeasurableSpace S] (μ : Measure S) {lib : Model.Domains.Lib} (hl : QPLibOK lib.qp) (rng : Rng S) (N : ℕ) (y : Fin n → ℝ)
    (W1 : Matrix (Fin m) (Fin n) ℝ) (W2 : Matrix (Fin m) (Fin k) ℝ) (e : Files × E)
    (hU : HasLaw (fun s i j => (rng.uniform (50 * N) k s).1 i j) (unifMatrix (50 * N) k) μ)
    (hrun : ∀ s, ∃ r w', (rejection_sampling_z lib rng N y W1 W2).run (s, e) = (.ok r, w'))
    (h0 : volume (inactive W1 W2 y) ≠ 0)
    (A : Fin N → Set (Fin k → ℝ)) (hA : ∀ i, MeasurableSet (A i)) :
    μ {s | ∃ Z w', (rejection_sampling_z lib rng N y W1 W2).run (s, e) = (.ok (some Z), w') ∧ ∀ i, (fun j => Z i j) ∈ A i}
      = μ {s | ∃ Z w', (rejection_sampling_z lib rng N y W1 W2).run (s, e) = (.ok (some Z), w')}
        * ∏ i, (volume (A i ∩ inactive W1 W2 y) / volume (inactive W1 W2 y)) := by
  have h := C104_uniform μ hl rng N y W1 W2 e hU hrun A hA
  by_cases hne : Nonempty S
  swap
  · have h0 : ∀ T : Set S, μ T = 0 := fun T => by
      have : T = ∅ := Set.eq_empty_of_forall_notMem fun s _ => hne ⟨s⟩
      rw [this, measure_empty]
    rw [h0, h0, zero_mul]
  have h1 : volume (inactive W1 W2 y) ≠ ⊤ := by
    obtain ⟨r, w', hr⟩ := hrun hne.some
    obtain ⟨B, w1, hr1, hr2⟩ := bind_inv hr
    obtain ⟨rfl, hB⟩ := box_run hl rng _ _ _ _ _ hr1
    rw [ineqSet_poly] at hB
    refine ne_top_of_le_ne_top (isCompact_Icc (a := fun j => (B j).1) (b := fun j => (B j).2)).measure_lt_top.ne (measure_mono ?_)
    exact fun z hz => ⟨fun j => ((hB j).2.2 z hz).1, fun j => ((hB j).2.2 z hz).2⟩
  have h2 : volume (inactive W1 W2 y) ^ N ≠ 0 := pow_ne_zero _ h0
  have h3 : volume (inactive W1 W2 y) ^ N ≠ ⊤ := ENNReal.pow_ne_top h1
  simp only [div_eq_mul_inv, Finset.prod_mul_distrib, Finset.prod_const, Finset.card_univ, Fintype.card_fin]
  rw [← mul_assoc, ← h, ← ENNReal.inv_pow, mul_assoc, ENNReal.mul_inv_cancel h2 h3, mul_one]

/-- C104: the sampler succeeds when a binomial variable is at least `N`: `50 N` trials, with the volume of the polytope relative to its bounding box as
probability. -/
theorem C104_success [MeasurableSpace S] (μ : Measure S) {lib : Model.Domains.Lib} (hl : QPLibOK lib.qp) (rng : Rng S) (N : ℕ) (y : Fin n → ℝ)
    (W1 : Matrix (Fin m) (Fin n) ℝ) (W2 : Matrix (Fin m) (Fin k) ℝ) (e : Files × E)
    (hU : HasLaw (fun s i j => (rng.uniform (50 * N) k s).1 i j) (unifMatrix (50 * N) k) μ)
    (hrun : ∀ s, ∃ r w', (rejection_sampling_z lib rng N y W1 W2).run (s, e) = (.ok r, w'))
    (h0 : volume (inactive W1 W2 y) ≠ 0) (hne : Nonempty S) :
    ∃ (B : Fin k → ℝ × ℝ) (p : ℝ≥0∞), IsBox (inactive W1 W2 y) B ∧
      p * volume (Set.Icc (fun j => (B j).1) fun j => (B j).2) = volume (inactive W1 W2 y) ∧
      μ {s | ∃ Z w', (rejection_sampling_z lib rng N y W1 W2).run (s, e) = (.ok (some Z), w')}
        = ∑ j ∈ Finset.Icc N (50 * N), ((50 * N).choose j : ℝ≥0∞) * p ^ j * (1 - p) ^ (50 * N - j) := by
  obtain ⟨B, hB, hlt, law⟩ := rejection_law μ hl rng N y W1 W2 e hU hrun h0 hne
  have hΩm : MeasurableSet (inactive W1 W2 y) := inactive_measurable W1 W2 y
  have hsub : inactive W1 W2 y ⊆ Set.Icc (fun j => (B j).1) fun j => (B j).2 :=
    fun z hz => ⟨fun j => ((hB j).2.2 z hz).1, fun j => ((hB j).2.2 z hz).2⟩
  refine ⟨B, boxLaw (fun j => (B j).1) (fun j => (B j).2) (inactive W1 W2 y), hB, ?_, ?_⟩
  · have h1 : ∏ j, ENNReal.ofReal ((B j).2 - (B j).1) ≠ 0 := Finset.prod_ne_zero_iff.mpr fun j _ => by
      rw [Ne, ENNReal.ofReal_eq_zero, not_le]
      linarith [hlt j]
    have h2 : ∏ j, ENNReal.ofReal ((B j).2 - (B j).1) ≠ ⊤ := ENNReal.prod_ne_top fun j _ => ENNReal.ofReal_ne_top
    rw [boxLaw_eq hlt, Measure.smul_apply, Measure.restrict_apply hΩm, smul_eq_mul, Set.inter_eq_self_of_subset_left hsub, Real.volume_Icc_pi,
      mul_comm, ← mul_assoc, ENNReal.mul_inv_cancel h1 h2, one_mul]
  · have h1 := law (fun _ => Set.univ) fun _ => MeasurableSet.univ
    rw [acc_binomial _ hΩm] at h1
    rw [← h1]
    simp

/-- The hypotheses are met: the square with the first coordinate active, `y = 1/2`, any number of samples, a generator whose states are the
numbers it returns; the polytope has volume 2. -/
example (N : ℕ) : ∃ (lib : Model.Domains.Lib) (rng : Rng (Fin (50 * N) → Fin 1 → ℝ)) (W1 W2 : Matrix (Fin 2) (Fin 1) ℝ), QPLibOK lib.qp ∧
    HasLaw (fun s i j => (rng.uniform (50 * N) 1 s).1 i j) (unifMatrix (50 * N) 1) (unifMatrix (50 * N) 1) ∧
    volume (inactive W1 W2 fun _ => (1 / 2 : ℝ)) = 2 ∧
    ∀ (e : Files × Unit) (s : Fin (50 * N) → Fin 1 → ℝ), ∃ r w', (rejection_sampling_z lib rng N (fun _ => (1 / 2 : ℝ)) W1 W2).run (s, e) = (.ok r, w') := by
  obtain ⟨qp, h1, -, h2⟩ := exists_solver
  let lib : Model.Domains.Lib := ⟨qp, fun l => l, fun _ => .error .exception⟩
  let rng : Rng (Fin (50 * N) → Fin 1 → ℝ) := ⟨fun _ => 0, fun r c s => (0, s),
    fun r c s => (Matrix.of fun i j => if h : (i : ℕ) < 50 * N ∧ (j : ℕ) < 1 then s ⟨i, h.1⟩ ⟨j, h.2⟩ else 0, s), fun n s => (0, s)⟩
  let W1 : Matrix (Fin 2) (Fin 1) ℝ := Matrix.of fun i _ => if i = 0 then 1 else 0
  let W2 : Matrix (Fin 2) (Fin 1) ℝ := Matrix.of fun i _ => if i = 1 then 1 else 0
  have e : ∀ z, z ∈ inactive W1 W2 (fun _ => (1 / 2 : ℝ)) ↔ -1 ≤ z 0 ∧ z 0 ≤ 1 := by
    intro z
    simp only [inactive, Set.mem_setOf_eq, Fin.forall_fin_two, Fin.sum_univ_one, W1, W2, Matrix.of_apply]
    norm_num
  refine ⟨lib, rng, W1, W2, h1, ?_, ?_, fun ef s => ?_⟩
  · have e1 : (fun (s : Fin (50 * N) → Fin 1 → ℝ) (i : Fin (50 * N)) (j : Fin 1) => (rng.uniform (50 * N) 1 s).1 i j) = id := by
      funext s i j
      change (if h : (i : ℕ) < 50 * N ∧ (j : ℕ) < 1 then s ⟨i, h.1⟩ ⟨j, h.2⟩ else 0) = s i j
      rw [dif_pos ⟨i.2, j.2⟩]
    rw [e1]
    exact ⟨aemeasurable_id, Measure.map_id⟩
  · have e2 : inactive W1 W2 (fun _ => (1 / 2 : ℝ)) = Set.Icc (fun _ => (-1 : ℝ)) fun _ => 1 := by
      ext z
      rw [e]
      simp [Pi.le_def]
    rw [e2, Real.volume_Icc_pi]
    norm_num
  · obtain ⟨B, hB⟩ := box_ok (lib := lib) (rng := rng) (A := polyA W2) (b := polyB (W1.mulVec fun _ => 1 / 2)) (w := (s, ef)) rfl
      fun c hc => h2 _ _ _ _ rng c _ _ _ (by
        rw [ineqSet_poly]
        obtain ⟨i, rfl | rfl⟩ := hc
        · refine ⟨fun _ => -1, (e _).mpr (by norm_num), fun z hz => ?_⟩
          have := (e z).mp hz
          fin_cases i
          simp [linObj]
          linarith [this.1]
        · refine ⟨fun _ => 1, (e _).mpr (by norm_num), fun z hz => ?_⟩
          have := (e z).mp hz
          fin_cases i
          simp [linObj]
          linarith [this.2])
    exact rejection_ok hB

end Props
