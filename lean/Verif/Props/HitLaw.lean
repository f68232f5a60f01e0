import Verif.Props.RejectionLaw
import Verif.Props.SamplersMore

/-!
# Property C109: a step of hit-and-run is uniform on the chord and preserves the uniform distribution
-/

open Py Model.Domains Model.QPSolver Model.Misc Spec Proofs.Run MeasureTheory ProbabilityTheory
open scoped ENNReal

namespace Props

variable {S E : Type} {m n k N : ℕ}

/-- The chord of `Ω` through `z` in direction `d`, as a set of steps. -/
def chord (Ω : Set (Fin k → ℝ)) (z d : Fin k → ℝ) : Set ℝ := {t | z + t • d ∈ Ω}

/-- The mean of `φ` over the chord. -/
noncomputable def afterHit (Ω : Set (Fin k → ℝ)) (d : Fin k → ℝ) (φ : (Fin k → ℝ) → ℝ≥0∞) (z : Fin k → ℝ) : ℝ≥0∞ :=
  (∫⁻ t in chord Ω z d, φ (z + t • d)) / volume (chord Ω z d)

/-! ## The uniform distribution is preserved -/

theorem chord_measurable {Ω : Set (Fin k → ℝ)} (hΩ : MeasurableSet Ω) (z d : Fin k → ℝ) : MeasurableSet (chord Ω z d) :=
  (by fun_prop : Measurable fun t : ℝ => z + t • d) hΩ

theorem chord_volume {Ω : Set (Fin k → ℝ)} (hΩ : MeasurableSet Ω) (z d : Fin k → ℝ) :
    volume (chord Ω z d) = ∫⁻ t : ℝ, Ω.indicator 1 (z + t • d) := by
  rw [← lintegral_indicator_one (chord_measurable hΩ z d)]
  rfl

theorem chord_translate (Ω : Set (Fin k → ℝ)) (z d : Fin k → ℝ) (t : ℝ) : volume (chord Ω (z + t • d) d) = volume (chord Ω z d) := by
  have e : chord Ω (z + t • d) d = (fun s => t + s) ⁻¹' chord Ω z d := by
    ext s
    simp only [chord, Set.mem_setOf_eq, Set.mem_preimage, add_smul, add_assoc]
  rw [e, measure_preimage_add]

theorem chord_volume_measurable {Ω : Set (Fin k → ℝ)} (hΩ : MeasurableSet Ω) (d : Fin k → ℝ) :
    Measurable fun z => volume (chord Ω z d) := by
  simp only [chord_volume hΩ]
  exact Measurable.lintegral_prod_left' (f := fun p : ℝ × (Fin k → ℝ) => Ω.indicator (1 : (Fin k → ℝ) → ℝ≥0∞) (p.2 + p.1 • d))
    ((measurable_one.indicator hΩ).comp (by fun_prop))

theorem slide_preserving (d : Fin k → ℝ) : MeasurePreserving (fun p : ℝ × (Fin k → ℝ) => (-p.1, p.2 + p.1 • d))
    ((volume : Measure ℝ).prod volume) ((volume : Measure ℝ).prod volume) := by
  refine (Measure.measurePreserving_neg (volume : Measure ℝ)).skew_product (g := fun (t : ℝ) (z : Fin k → ℝ) => z + t • d) (by fun_prop)
    (Filter.Eventually.of_forall fun t => ?_)
  exact map_add_right_eq_self volume (t • d)

theorem hit_reversible {Ω : Set (Fin k → ℝ)} (hΩ : MeasurableSet Ω) (d : Fin k → ℝ) {φ ψ : (Fin k → ℝ) → ℝ≥0∞} (hφ : Measurable φ)
    (hψ : Measurable ψ) :
    ∫⁻ z in Ω, φ z * afterHit Ω d ψ z = ∫⁻ z in Ω, ψ z * afterHit Ω d φ z := by
  have hm : ∀ {φ ψ : (Fin k → ℝ) → ℝ≥0∞}, Measurable φ → Measurable ψ →
      Measurable fun p : ℝ × (Fin k → ℝ) => Ω.indicator φ p.2 * Ω.indicator ψ (p.2 + p.1 • d) * (volume (chord Ω p.2 d))⁻¹ :=
    fun hφ hψ => (((hφ.indicator hΩ).comp measurable_snd).mul ((hψ.indicator hΩ).comp (by fun_prop))).mul
      (((chord_volume_measurable hΩ d).comp measurable_snd).inv)
  have key : ∀ {φ ψ : (Fin k → ℝ) → ℝ≥0∞}, Measurable φ → Measurable ψ → ∫⁻ z in Ω, φ z * afterHit Ω d ψ z
      = ∫⁻ p, Ω.indicator φ p.2 * Ω.indicator ψ (p.2 + p.1 • d) * (volume (chord Ω p.2 d))⁻¹
        ∂((volume : Measure ℝ).prod (volume : Measure (Fin k → ℝ))) := by
    intro φ ψ hφ hψ
    rw [lintegral_prod_symm _ (hm hφ hψ).aemeasurable, ← lintegral_indicator hΩ]
    refine lintegral_congr fun z => ?_
    have hi : Measurable fun t : ℝ => Ω.indicator ψ (z + t • d) := (hψ.indicator hΩ).comp (by fun_prop)
    by_cases hz : z ∈ Ω
    · simp only [Set.indicator_of_mem hz]
      rw [lintegral_mul_const _ (show Measurable fun t : ℝ => φ z * Ω.indicator ψ (z + t • d) from measurable_const.mul hi),
        lintegral_const_mul _ hi, mul_assoc]
      unfold afterHit
      rw [← lintegral_indicator (chord_measurable hΩ z d), ENNReal.div_eq_inv_mul, mul_comm (volume (chord Ω z d))⁻¹]
      rfl
    · simp only [Set.indicator_of_notMem hz, zero_mul, lintegral_zero]
  rw [key hφ hψ, key hψ hφ, ← (slide_preserving d).lintegral_comp (hm hφ hψ)]
  refine lintegral_congr fun p => ?_
  dsimp only
  rw [chord_translate, neg_smul, add_neg_cancel_right, mul_comm (Ω.indicator φ _)]

/-- The points of `Ω` whose chord has no length form a null set. -/
theorem short_null {Ω : Set (Fin k → ℝ)} (hΩ : MeasurableSet Ω) (d : Fin k → ℝ) : volume {z | z ∈ Ω ∧ volume (chord Ω z d) = 0} = 0 := by
  set B := {z | z ∈ Ω ∧ volume (chord Ω z d) = 0} with hB
  have hBm : MeasurableSet B := hΩ.inter (chord_volume_measurable hΩ d (measurableSet_singleton 0))
  have h0 : ∀ z, volume (chord B z d) = 0 := by
    intro z
    by_cases hne : (chord B z d).Nonempty
    · obtain ⟨t, ht⟩ := hne
      have h1 : volume (chord Ω (z + t • d) d) = 0 := ht.2
      rw [chord_translate] at h1
      exact measure_mono_null (fun s hs => hs.1) h1
    · rw [Set.not_nonempty_iff_eq_empty.mp hne, measure_empty]
  have hm : Measurable fun p : ℝ × (Fin k → ℝ) => B.indicator (1 : (Fin k → ℝ) → ℝ≥0∞) (p.2 + p.1 • d) :=
    (measurable_one.indicator hBm).comp (by fun_prop)
  have h1 : ∫⁻ p, B.indicator (1 : (Fin k → ℝ) → ℝ≥0∞) (p.2 + p.1 • d) ∂((volume : Measure ℝ).prod (volume : Measure (Fin k → ℝ))) = 0 := by
    rw [lintegral_prod_symm _ hm.aemeasurable]
    simp only [← chord_volume hBm, h0, lintegral_zero]
  rw [lintegral_prod _ hm.aemeasurable] at h1
  have h2 : ∀ t : ℝ, ∫⁻ z : Fin k → ℝ, B.indicator 1 (z + t • d) = volume B := fun t => by
    rw [lintegral_add_right_eq_self (fun z => B.indicator (1 : (Fin k → ℝ) → ℝ≥0∞) z) (t • d), lintegral_indicator_one hBm]
  simp only [h2, lintegral_const, Real.volume_univ] at h1
  by_contra hc
  rw [ENNReal.mul_top hc] at h1
  exact ENNReal.top_ne_zero h1

theorem inactive_chord_bounded (W1 : Matrix (Fin m) (Fin n) ℝ) (W2 : Matrix (Fin m) (Fin k) ℝ) (y : Fin n → ℝ) (z d : Fin k → ℝ)
    (hd : ∃ i, ∑ j, W2 i j * d j ≠ 0) : volume (chord (inactive W1 W2 y) z d) ≠ ∞ := by
  obtain ⟨i, hi⟩ := hd
  set a := ∑ j, W1 i j * y j + ∑ j, W2 i j * z j with ha
  set g := ∑ j, W2 i j * d j with hg
  have hsub : chord (inactive W1 W2 y) z d ⊆ Set.Icc (-((1 + |a|) / |g|)) ((1 + |a|) / |g|) := by
    intro t ht
    have h1 := ht i
    have h2 : ∑ j, W1 i j * y j + ∑ j, W2 i j * (z + t • d) j = a + t * g := by
      simp only [ha, hg, Pi.add_apply, Pi.smul_apply, smul_eq_mul, mul_add, Finset.sum_add_distrib, Finset.mul_sum, add_assoc]
      congr 2
      exact Finset.sum_congr rfl fun j _ => by ring
    rw [h2] at h1
    have h3 : |t * g| ≤ 1 + |a| := by
      rw [abs_le]
      constructor <;> linarith [h1.1, h1.2, le_abs_self a, neg_abs_le a]
    rw [abs_mul, ← le_div_iff₀ (abs_pos.mpr hi)] at h3
    exact abs_le.mp h3
  exact ne_top_of_le_ne_top (by rw [Real.volume_Icc]; exact ENNReal.ofReal_ne_top) (measure_mono hsub)

/-- C109: for any direction, moving to a uniform point of the chord satisfies detailed balance for the uniform distribution. -/
theorem C109_reversible (W1 : Matrix (Fin m) (Fin n) ℝ) (W2 : Matrix (Fin m) (Fin k) ℝ) (y : Fin n → ℝ) (d : Fin k → ℝ)
    {φ ψ : (Fin k → ℝ) → ℝ≥0∞} (hφ : Measurable φ) (hψ : Measurable ψ) :
    ∫⁻ z in inactive W1 W2 y, φ z * afterHit (inactive W1 W2 y) d ψ z
      = ∫⁻ z in inactive W1 W2 y, ψ z * afterHit (inactive W1 W2 y) d φ z := hit_reversible (inactive_measurable W1 W2 y) d hφ hψ

/-- C109: for any direction that `W₂` does not annihilate, moving to a uniform point of the chord preserves the uniform distribution. -/
theorem C109_stationary (W1 : Matrix (Fin m) (Fin n) ℝ) (W2 : Matrix (Fin m) (Fin k) ℝ) (y : Fin n → ℝ) (d : Fin k → ℝ)
    (hd : ∃ i, ∑ j, W2 i j * d j ≠ 0) {φ : (Fin k → ℝ) → ℝ≥0∞} (hφ : Measurable φ) :
    ∫⁻ z in inactive W1 W2 y, afterHit (inactive W1 W2 y) d φ z = ∫⁻ z in inactive W1 W2 y, φ z := by
  have hΩ := inactive_measurable W1 W2 y
  have h := C109_reversible W1 W2 y d (φ := fun _ => 1) measurable_const hφ
  simp only [one_mul] at h
  rw [h]
  refine lintegral_congr_ae ?_
  have hn : ∀ᵐ z ∂(volume.restrict (inactive W1 W2 y)), volume (chord (inactive W1 W2 y) z d) ≠ 0 := by
    rw [ae_restrict_iff' hΩ, ae_iff]
    have := short_null hΩ d
    refine measure_mono_null (fun z hz => ?_) this
    simp only [Set.mem_setOf_eq, ne_eq, Classical.not_imp, not_not] at hz
    exact hz
  filter_upwards [hn] with z hz
  unfold afterHit
  rw [lintegral_const, Measure.restrict_apply_univ, one_mul, ENNReal.div_self hz (inactive_chord_bounded W1 W2 y z d hd), mul_one]

/-! ## The step of the code -/

/-- The chord of a polytope `b ≤ A z`, and the step from a point with slack in every row. -/
theorem hitStep_run (rng : Rng S) {r : ℕ} (A : Matrix (Fin r) (Fin k) ℝ) (b : Fin r → ℝ) (z0 d : Fin k → ℝ)
    (hs : ∀ i, b i < A.mulVec z0 i - sqrtEps) (hg : ∀ i, A.mulVec d i ≠ 0) (hp : ∃ i, 0 < A.mulVec d i) (hn : ∃ i, A.mulVec d i < 0) :
    ∃ lo hi : ℝ, lo < 0 ∧ 0 < hi ∧ chord {z | ∀ i, b i ≤ A.mulVec z i} z0 d = Set.Icc lo hi ∧
      ∀ w : S × E, (hitStep rng A b z0 d).run w
        = (.ok (some (z0 + (lo + (hi - lo) * (((rng.uniform 1 1 w.1).1 0 0 + 1) / 2)) • d)), ((rng.uniform 1 1 w.1).2, w.2)) := by
  classical
  have hsq : 0 ≤ sqrtEps := Real.sqrt_nonneg _
  have hneg : ∀ l, b l - A.mulVec z0 l < -sqrtEps := fun l => by linarith [hs l]
  have hneg0 : ∀ l, b l - A.mulVec z0 l < 0 := fun l => by linarith [hneg l]
  set q : Fin r → ℝ := fun i => (b i - A.mulVec z0 i) / A.mulVec d i with hq
  set lmin := ((List.finRange r).filter fun i => decide (A.mulVec d i ≤ 0 ∧ b i - A.mulVec z0 i < -sqrtEps)).map q with hlmin
  set lmax := ((List.finRange r).filter fun i => decide (A.mulVec d i > 0 ∧ b i - A.mulVec z0 i < -sqrtEps)).map q with hlmax
  have mmin : ∀ v, v ∈ lmin ↔ ∃ i, A.mulVec d i < 0 ∧ q i = v := fun v => by
    rw [hlmin, List.mem_map]
    refine exists_congr fun i => and_congr_left fun _ => ?_
    simp only [List.mem_filter, List.mem_finRange, true_and, decide_eq_true_eq]
    exact ⟨fun h => lt_of_le_of_ne h.1 (hg i), fun h => ⟨h.le, hneg i⟩⟩
  have mmax : ∀ v, v ∈ lmax ↔ ∃ i, 0 < A.mulVec d i ∧ q i = v := fun v => by
    rw [hlmax, List.mem_map]
    refine exists_congr fun i => and_congr_left fun _ => ?_
    simp only [List.mem_filter, List.mem_finRange, true_and, decide_eq_true_eq]
    exact ⟨fun h => h.1, fun h => ⟨h, hneg i⟩⟩
  have amin : ∃ hi, aminList lmin = .ok hi := by
    obtain ⟨i, hi⟩ := hn
    have hne : lmin ≠ [] := List.ne_nil_of_mem ((mmin _).mpr ⟨i, hi, rfl⟩)
    have hpos : 0 < lmin.length := List.length_pos_iff.mpr hne
    obtain ⟨a, -, ha⟩ := Finset.exists_min_image (Finset.univ : Finset (Fin lmin.length)) (fun i => lmin.get i) ⟨⟨0, hpos⟩, Finset.mem_univ _⟩
    exact ⟨lmin.get a, Np.amin_eq_ok_iff.mpr ⟨⟨a, rfl⟩, fun l => ha l (Finset.mem_univ l)⟩⟩
  have amax : ∃ lo, amaxList lmax = .ok lo := by
    obtain ⟨i, hi⟩ := hp
    have hne : lmax ≠ [] := List.ne_nil_of_mem ((mmax _).mpr ⟨i, hi, rfl⟩)
    have hpos : 0 < lmax.length := List.length_pos_iff.mpr hne
    obtain ⟨a, -, ha⟩ := Finset.exists_max_image (Finset.univ : Finset (Fin lmax.length)) (fun i => lmax.get i) ⟨⟨0, hpos⟩, Finset.mem_univ _⟩
    exact ⟨lmax.get a, Np.amax_eq_ok_iff.mpr ⟨⟨a, rfl⟩, fun l => ha l (Finset.mem_univ l)⟩⟩
  obtain ⟨hi, hhi⟩ := amin
  obtain ⟨lo, hlo⟩ := amax
  obtain ⟨⟨a, ha⟩, hmin⟩ := Np.amin_eq_ok_iff.mp hhi
  obtain ⟨⟨c, hc⟩, hmax⟩ := Np.amax_eq_ok_iff.mp hlo
  obtain ⟨ia, hia, hqa⟩ := (mmin hi).mp (ha ▸ List.get_mem _ a)
  obtain ⟨ic, hic, hqc⟩ := (mmax lo).mp (hc ▸ List.get_mem _ c)
  have hle : ∀ i, A.mulVec d i < 0 → hi ≤ q i := fun i h => by
    obtain ⟨l, hl⟩ := List.get_of_mem ((mmin _).mpr ⟨i, h, rfl⟩)
    rw [← hl]
    exact hmin l
  have hge : ∀ i, 0 < A.mulVec d i → q i ≤ lo := fun i h => by
    obtain ⟨l, hl⟩ := List.get_of_mem ((mmax _).mpr ⟨i, h, rfl⟩)
    rw [← hl]
    exact hmax l
  refine ⟨lo, hi, ?_, ?_, ?_, fun w => ?_⟩
  · rw [← hqc]
    exact div_neg_of_neg_of_pos (hneg0 ic) hic
  · rw [← hqa]
    exact div_pos_of_neg_of_neg (hneg0 ia) hia
  · ext t
    have hlin : ∀ i, A.mulVec (z0 + t • d) i = A.mulVec z0 i + t * A.mulVec d i := fun i => by
      rw [Matrix.mulVec_add, Matrix.mulVec_smul]
      rfl
    simp only [chord, Set.mem_setOf_eq, hlin, Set.mem_Icc]
    constructor
    · intro h
      constructor
      · rw [← hqc, hq]
        simp only
        rw [div_le_iff₀ hic]
        linarith [h ic]
      · rw [← hqa, hq]
        simp only
        rw [le_div_iff_of_neg hia]
        linarith [h ia]
    · rintro ⟨h1, h2⟩ i
      rcases lt_or_gt_of_ne (hg i) with h | h
      · have h3 := h2.trans (hle i h)
        rw [hq] at h3
        simp only at h3
        rw [le_div_iff_of_neg h] at h3
        linarith
      · have h3 := (hge i h).trans h1
        rw [hq] at h3
        simp only at h3
        rw [div_le_iff₀ h] at h3
        linarith
  · unfold hitStep
    dsimp only
    rw [PyM.run_bind_ok (show (PyM.lift (aminList lmin)).run w = (.ok hi, w) by rw [hhi]; rfl),
      PyM.run_bind_ok (show (PyM.lift (amaxList lmax)).run w = (.ok lo, w) by rw [hlo]; rfl),
      PyM.run_bind_ok (show (Rng.draw (rng.uniform 1 1)).run w = (.ok (rng.uniform 1 1 w.1).1, ((rng.uniform 1 1 w.1).2, w.2)) from rfl)]
    rw [if_neg (fun hc => by
      obtain ⟨i, -, h⟩ := hc
      exact hg i h)]
    rfl

theorem polytope_eq (W1 : Matrix (Fin m) (Fin n) ℝ) (W2 : Matrix (Fin m) (Fin k) ℝ) (y : Fin n → ℝ) :
    {z | ∀ i, polyB (W1.mulVec y) i ≤ (polyA W2).mulVec z i} = inactive W1 W2 y :=
  Set.ext fun z => (mem_inactive W1 W2 y z).symm

theorem poly_slack {W1 : Matrix (Fin m) (Fin n) ℝ} {W2 : Matrix (Fin m) (Fin k) ℝ} {y : Fin n → ℝ} {z : Fin k → ℝ}
    (hz : ∀ i, |∑ j, W1 i j * y j + ∑ j, W2 i j * z j| < 1 - sqrtEps) (l : Fin (m + m)) :
    polyB (W1.mulVec y) l < (polyA W2).mulVec z l - sqrtEps := by
  refine Fin.addCases (fun l => ?_) (fun l => ?_) l
  · rw [polyA_left, polyB_left]
    linarith [(abs_lt.mp (hz l)).1]
  · rw [polyA_right, polyB_right]
    linarith [(abs_lt.mp (hz l)).2]

/-- C109: from a point at which every constraint has a slack of more than `sqrt(eps)`, in a direction parallel to no face, the ends of
the step are the ends of the chord, one behind and one ahead, and one uniform number chooses the point between them. -/
theorem C109_step_partial (rng : Rng S) (W1 : Matrix (Fin m) (Fin n) ℝ) (W2 : Matrix (Fin m) (Fin k) ℝ) (y : Fin n → ℝ) (z0 d : Fin k → ℝ)
    (hm : 0 < m) (hs : ∀ i, |∑ j, W1 i j * y j + ∑ j, W2 i j * z0 j| < 1 - sqrtEps) (hd : ∀ i, ∑ j, W2 i j * d j ≠ 0) :
    ∃ lo hi : ℝ, lo < 0 ∧ 0 < hi ∧ chord (inactive W1 W2 y) z0 d = Set.Icc lo hi ∧
      ∀ w : S × E, (hitStep rng (polyA W2) (polyB (W1.mulVec y)) z0 d).run w
        = (.ok (some (z0 + (lo + (hi - lo) * (((rng.uniform 1 1 w.1).1 0 0 + 1) / 2)) • d)), ((rng.uniform 1 1 w.1).2, w.2)) := by
  rw [← polytope_eq]
  have e : (0 : ℝ) < ∑ j, W2 ⟨0, hm⟩ j * d j ∨ ∑ j, W2 ⟨0, hm⟩ j * d j < 0 := (lt_or_gt_of_ne (hd ⟨0, hm⟩)).symm
  refine hitStep_run rng (polyA W2) (polyB (W1.mulVec y)) z0 d (poly_slack hs) (fun i => ?_) ?_ ?_
  · refine Fin.addCases (fun l => ?_) (fun l => ?_) i
    · rw [polyA_left]
      exact hd l
    · rw [polyA_right]
      exact neg_ne_zero.mpr (hd l)
  · rcases e with h | h
    · exact ⟨Fin.castAdd m ⟨0, hm⟩, by rwa [polyA_left]⟩
    · exact ⟨Fin.natAdd m ⟨0, hm⟩, by rw [polyA_right]; linarith⟩
  · rcases e with h | h
    · exact ⟨Fin.natAdd m ⟨0, hm⟩, by rw [polyA_right]; linarith⟩
    · exact ⟨Fin.castAdd m ⟨0, hm⟩, by rwa [polyA_left]⟩

/-- The affine image of a uniform number. -/
theorem affine_unif {lo hi : ℝ} (h : lo < hi) (B : Set ℝ) (hB : MeasurableSet B) :
    ((2 : ℝ≥0∞)⁻¹ • volume.restrict (Set.Icc (-1 : ℝ) 1)) ((fun u => lo + (hi - lo) * ((u + 1) / 2)) ⁻¹' B) * volume (Set.Icc lo hi)
      = volume (Set.Icc lo hi ∩ B) := by
  set F : ℝ → ℝ := fun u => lo + (hi - lo) * ((u + 1) / 2) with hF
  have hc : 0 < (hi - lo) / 2 := by linarith
  have hFm : Measurable F := by fun_prop
  have e1 : F = (fun t => (hi + lo) / 2 + t) ∘ fun u => (hi - lo) / 2 * u := by
    funext u
    simp only [hF, Function.comp_apply]
    ring
  have e2 : F ⁻¹' Set.Icc lo hi = Set.Icc (-1) 1 := by
    ext u
    simp only [Set.mem_preimage, Set.mem_Icc, hF]
    constructor
    · rintro ⟨h1, h2⟩
      constructor <;> nlinarith
    · rintro ⟨h1, h2⟩
      constructor <;> nlinarith
  have e3 : ∀ C : Set ℝ, volume (F ⁻¹' C) = ENNReal.ofReal (((hi - lo) / 2)⁻¹) * volume C := fun C => by
    rw [e1, Set.preimage_comp, Real.volume_preimage_mul_left hc.ne', measure_preimage_add, abs_of_pos (inv_pos.mpr hc)]
  rw [Measure.smul_apply, smul_eq_mul, Measure.restrict_apply (hFm hB), ← e2, ← Set.preimage_inter, e3, Real.volume_Icc, Set.inter_comm B]
  have e4 : (2 : ℝ≥0∞)⁻¹ = ENNReal.ofReal (2⁻¹) := by
    rw [ENNReal.ofReal_inv_of_pos (by norm_num)]
    norm_num
  rw [e4, ← mul_assoc, ← ENNReal.ofReal_mul (by norm_num), mul_right_comm, ← ENNReal.ofReal_mul (by positivity)]
  have e5 : 2⁻¹ * ((hi - lo) / 2)⁻¹ * (hi - lo) = 1 := by
    have : hi - lo ≠ 0 := by linarith
    field_simp
  rw [e5, ENNReal.ofReal_one, one_mul]

/-- C109: there the new point is uniformly distributed on the chord: the chance of a set is the share of the chord in it. -/
theorem C109_uniform_partial [MeasurableSpace S] (μ : Measure S) (rng : Rng S) (W1 : Matrix (Fin m) (Fin n) ℝ) (W2 : Matrix (Fin m) (Fin k) ℝ)
    (y : Fin n → ℝ) (z0 d : Fin k → ℝ) (e : E)
    (hU : HasLaw (fun s => (rng.uniform 1 1 s).1 0 0) ((2 : ℝ≥0∞)⁻¹ • volume.restrict (Set.Icc (-1 : ℝ) 1)) μ)
    (hm : 0 < m) (hs : ∀ i, |∑ j, W1 i j * y j + ∑ j, W2 i j * z0 j| < 1 - sqrtEps) (hd : ∀ i, ∑ j, W2 i j * d j ≠ 0)
    (T : Set (Fin k → ℝ)) (hT : MeasurableSet T) :
    μ {s | ∃ z1 w', (hitStep rng (polyA W2) (polyB (W1.mulVec y)) z0 d).run (s, e) = (.ok (some z1), w') ∧ z1 ∈ T}
      = volume {t : ℝ | z0 + t • d ∈ inactive W1 W2 y ∧ z0 + t • d ∈ T} / volume {t : ℝ | z0 + t • d ∈ inactive W1 W2 y} := by
  obtain ⟨lo, hi, hlo, hhi, hch, hrun⟩ := C109_step_partial (E := E) rng W1 W2 y z0 d hm hs hd
  have hlt : lo < hi := hlo.trans hhi
  have hB : MeasurableSet (chord T z0 d) := chord_measurable hT z0 d
  have hF : Measurable fun u : ℝ => lo + (hi - lo) * ((u + 1) / 2) := by fun_prop
  have e1 : {s | ∃ z1 w', (hitStep rng (polyA W2) (polyB (W1.mulVec y)) z0 d).run (s, e) = (.ok (some z1), w') ∧ z1 ∈ T}
      = (fun s => (rng.uniform 1 1 s).1 0 0) ⁻¹' ((fun u => lo + (hi - lo) * ((u + 1) / 2)) ⁻¹' chord T z0 d) := by
    ext s
    simp only [Set.mem_setOf_eq, hrun, Prod.mk.injEq, Except.ok.injEq, Option.some.injEq]
    constructor
    · rintro ⟨z1, w', ⟨rfl, -⟩, h⟩
      exact h
    · intro h
      exact ⟨_, _, ⟨rfl, rfl⟩, h⟩
  have e2 : {t : ℝ | z0 + t • d ∈ inactive W1 W2 y ∧ z0 + t • d ∈ T} = Set.Icc lo hi ∩ chord T z0 d := by
    rw [← hch]
    rfl
  have e3 : {t : ℝ | z0 + t • d ∈ inactive W1 W2 y} = Set.Icc lo hi := hch
  rw [e1, e2, e3, ← affine_unif hlt _ hB, ENNReal.mul_div_cancel_right]
  · exact hU.measure_eq (hF hB)
  · rw [Real.volume_Icc]
    exact (ENNReal.ofReal_pos.mpr (by linarith)).ne'
  · rw [Real.volume_Icc]
    exact ENNReal.ofReal_ne_top

/-- C109 fails: if a row of `W₂` is zero, no direction gives a point at all, although the chord is as good as any. -/
theorem C109_zero_row (rng : Rng S) (W1 : Matrix (Fin m) (Fin n) ℝ) (W2 : Matrix (Fin m) (Fin k) ℝ) (y : Fin n → ℝ) (z0 d : Fin k → ℝ)
    (i : Fin m) (hi : ∀ j, W2 i j = 0) (hs : ∀ i, |∑ j, W1 i j * y j + ∑ j, W2 i j * z0 j| < 1 - sqrtEps) (w w' : S × E) (z1 : Fin k → ℝ) :
    (hitStep rng (polyA W2) (polyB (W1.mulVec y)) z0 d).run w ≠ (.ok (some z1), w') := by
  classical
  intro h
  obtain ⟨emax, w1, -, h⟩ := bind_inv h
  obtain ⟨emin, w2, -, h⟩ := bind_inv h
  obtain ⟨U, w3, -, h⟩ := bind_inv h
  have h0 : (polyA W2).mulVec d (Fin.castAdd m i) = 0 := by
    rw [polyA_left]
    simp [hi]
  rw [if_pos ⟨Fin.castAdd m i, by
    simp only [List.mem_filter, List.mem_finRange, true_and, decide_eq_true_eq]
    exact ⟨h0.le, by linarith [poly_slack hs (Fin.castAdd m i)]⟩, h0⟩] at h
  exact absurd (pure_inv h).1 (by simp)

/-- C109 is false: on the square with the first coordinate active, at `y = 1/2` and `z = 0`, the chord is `[-1, 1]` and the step gives no
point. -/
theorem C109_refuted : ∃ (W1 W2 : Matrix (Fin 2) (Fin 1) ℝ) (y z0 d : Fin 1 → ℝ),
    (∀ i, |∑ j, W1 i j * y j + ∑ j, W2 i j * z0 j| < 1 - sqrtEps) ∧ {t : ℝ | z0 + t • d ∈ inactive W1 W2 y} = Set.Icc (-1) 1 ∧
    ∀ (S E : Type) (rng : Rng S) (w w' : S × E) (z1 : Fin 1 → ℝ),
      (hitStep rng (polyA W2) (polyB (W1.mulVec y)) z0 d).run w ≠ (.ok (some z1), w') := by
  have hs : ∀ i, |∑ j, (Matrix.of fun i _ => if i = 0 then 1 else 0 : Matrix (Fin 2) (Fin 1) ℝ) i j * (1 / 2)
      + ∑ j, (Matrix.of fun i _ => if i = 1 then 1 else 0 : Matrix (Fin 2) (Fin 1) ℝ) i j * 0| < 1 - sqrtEps := by
    intro i
    rw [sqrtEps_eq]
    fin_cases i <;> norm_num [abs_of_pos]
  refine ⟨Matrix.of fun i _ => if i = 0 then 1 else 0, Matrix.of fun i _ => if i = 1 then 1 else 0, fun _ => 1 / 2, fun _ => 0,
    fun _ => 1, hs, ?_, fun S E rng w w' z1 => ?_⟩
  · ext t
    simp only [inactive, Set.mem_setOf_eq, Set.mem_Icc, Fin.forall_fin_two, Fin.sum_univ_one, Matrix.of_apply]
    norm_num
  · exact C109_zero_row rng _ _ _ _ _ 0 (fun j => by simp) hs w w' z1

/-! ## The hypotheses can be met -/

/-- The square with the active direction `(3/5, 4/5)`: at `y = 0`, `z = 0` the constraints have slack and no face is parallel to the
inactive direction. -/
example : (∀ i, |∑ j, (!![3 / 5; 4 / 5] : Matrix (Fin 2) (Fin 1) ℝ) i j * (fun _ => 0 : Fin 1 → ℝ) j
      + ∑ j, (!![-(4 / 5); 3 / 5] : Matrix (Fin 2) (Fin 1) ℝ) i j * (fun _ => 0 : Fin 1 → ℝ) j| < 1 - sqrtEps) ∧
    ∀ i, ∑ j, (!![-(4 / 5); 3 / 5] : Matrix (Fin 2) (Fin 1) ℝ) i j * (fun _ => 1 : Fin 1 → ℝ) j ≠ 0 := by
  rw [sqrtEps_eq]
  constructor
  · intro i
    fin_cases i <;> norm_num
  · intro i
    fin_cases i <;> norm_num

/-- A generator whose state is the next number has the law asked for. -/
example : ∃ rng : Rng ℝ, HasLaw (fun s => (rng.uniform 1 1 s).1 0 0) ((2 : ℝ≥0∞)⁻¹ • volume.restrict (Set.Icc (-1 : ℝ) 1))
    ((2 : ℝ≥0∞)⁻¹ • volume.restrict (Set.Icc (-1 : ℝ) 1)) :=
  ⟨⟨fun _ => 0, fun _ _ s => (0, s), fun _ _ s => (Matrix.of fun _ _ => s, s), fun _ s => (0, s)⟩, HasLaw.id⟩

end Props
