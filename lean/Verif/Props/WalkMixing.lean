import Mathlib.Probability.ProductMeasure
import Mathlib.Probability.Independence.InfinitePi
import Verif.Proofs.GaussDensity
import Verif.Props.Samplers
import Verif.Props.WalkLaw

/-!
# Property C148: the random walk converges to the uniform distribution
-/

open Py Model.Domains Model.QPSolver Model.Misc Spec Proofs.Run Proofs.GaussDensity MeasureTheory ProbabilityTheory
open scoped ENNReal NNReal

namespace Props

variable {S E : Type} {m n k N : ℕ}

/-- A lower bound for the density of the end of a normal step of size `σ` per squared distance `ρ`. -/
noncomputable def stepDensity (k : ℕ) (σ ρ : ℝ) : ℝ := (√(2 * Real.pi) * σ)⁻¹ ^ k * Real.exp (-ρ / (2 * σ ^ 2))

theorem stepDensity_pos {σ : ℝ} (hσ : 0 < σ) (ρ : ℝ) : 0 < stepDensity k σ ρ := by
  unfold stepDensity
  have : 0 < √(2 * Real.pi) := Real.sqrt_pos.mpr (by positivity)
  positivity

/-- The law of the proposal. -/
theorem proposal_law (z : Fin k → ℝ) (σ : ℝ) : MeasurePreserving (fun ξ : Fin k → ℝ => z + σ • ξ) (stdNormal k)
    (Measure.pi fun j => gaussianReal (z j) (NNReal.mk (σ ^ 2) (sq_nonneg σ))) := by
  have h : ∀ j, MeasurePreserving (fun t : ℝ => z j + σ * t) (gaussianReal 0 1) (gaussianReal (z j) (NNReal.mk (σ ^ 2) (sq_nonneg σ))) := fun j => by
    refine ⟨by fun_prop, ?_⟩
    have e : (fun t : ℝ => z j + σ * t) = (fun t => z j + t) ∘ fun t => σ * t := rfl
    rw [e, ← Measure.map_map (by fun_prop) (by fun_prop), gaussianReal_map_const_mul, gaussianReal_map_const_add, mul_zero, zero_add, mul_one]
  exact measurePreserving_pi (fun _ : Fin k => gaussianReal 0 1) _ h

/-- Every part of the set is reached in one move. -/
theorem afterMove_ge {Ω : Set (Fin k → ℝ)} (hΩ : MeasurableSet Ω) {σ : ℝ} (hσ : 0 < σ) {ρ : ℝ} (hρ : ∀ x ∈ Ω, ∀ z ∈ Ω, ∑ j, (x j - z j) ^ 2 ≤ ρ)
    {φ : (Fin k → ℝ) → ℝ≥0∞} (hφ : Measurable φ) {z : Fin k → ℝ} (hz : z ∈ Ω) :
    ENNReal.ofReal (stepDensity k σ ρ) * ∫⁻ x in Ω, φ x ≤ afterMove Ω σ φ z := by
  have hv : (NNReal.mk (σ ^ 2) (sq_nonneg σ) : ℝ≥0) ≠ 0 := by
    intro h
    have := congrArg NNReal.toReal h
    exact (pow_pos hσ 2).ne' this
  have h1 : ∫⁻ ξ, Ω.indicator φ (z + σ • ξ) ∂stdNormal k ≤ afterMove Ω σ φ z := by
    unfold afterMove
    refine lintegral_mono fun ξ => ?_
    unfold moved
    by_cases h : z + σ • ξ ∈ Ω
    · rw [Set.indicator_of_mem h, if_pos h]
    · rw [Set.indicator_of_notMem h]
      exact zero_le
  refine le_trans ?_ h1
  have hm : Measurable fun x : Fin k → ℝ => ∏ j, gaussianPDF (z j) (NNReal.mk (σ ^ 2) (sq_nonneg σ)) (x j) :=
    Finset.measurable_fun_prod _ fun j _ => (measurable_gaussianPDF _ _).comp (measurable_pi_apply j)
  rw [(proposal_law z σ).lintegral_comp (hφ.indicator hΩ), pi_gaussian z hv,
    lintegral_withDensity_eq_lintegral_mul _ hm (hφ.indicator hΩ),
    ← lintegral_const_mul _ hφ, ← lintegral_indicator hΩ]
  refine lintegral_mono fun x => ?_
  by_cases hx : x ∈ Ω
  · rw [Set.indicator_of_mem hx, Pi.mul_apply, Set.indicator_of_mem hx]
    refine mul_le_mul_left ?_ _
    rw [prod_pdf]
    refine ENNReal.ofReal_le_ofReal ?_
    unfold stepDensity
    have e : √(2 * Real.pi * ((NNReal.mk (σ ^ 2) (sq_nonneg σ) : ℝ≥0) : ℝ)) = √(2 * Real.pi) * σ := by
      rw [NNReal.coe_mk, Real.sqrt_mul (by positivity), Real.sqrt_sq hσ.le]
    rw [e]
    refine mul_le_mul_of_nonneg_left (Real.exp_le_exp.mpr ?_) (by positivity)
    rw [NNReal.coe_mk]
    exact div_le_div_of_nonneg_right (neg_le_neg (hρ x hx z hz)) (by positivity)
  · rw [Set.indicator_of_notMem hx]
    exact zero_le

theorem moved_mem {Ω : Set (Fin k → ℝ)} {σ : ℝ} {z ξ : Fin k → ℝ} (hz : z ∈ Ω) : moved Ω σ z ξ ∈ Ω := by
  unfold moved
  split_ifs with h
  · exact h
  · exact hz

theorem afterMove_stationary {Ω : Set (Fin k → ℝ)} (hΩ : MeasurableSet Ω) (σ : ℝ) {φ : (Fin k → ℝ) → ℝ≥0∞} (hφ : Measurable φ) :
    ∫⁻ z in Ω, afterMove Ω σ φ z = ∫⁻ z in Ω, φ z := by
  have h := reversible hΩ σ (φ := fun _ => 1) measurable_const hφ
  simp only [one_mul] at h
  rw [h]
  refine lintegral_congr fun z => ?_
  unfold afterMove
  simp

theorem iterate_measurable {Ω : Set (Fin k → ℝ)} (hΩ : MeasurableSet Ω) (σ : ℝ) {φ : (Fin k → ℝ) → ℝ≥0∞} (hφ : Measurable φ) (t : ℕ) :
    Measurable ((afterMove Ω σ)^[t] φ) := by
  induction t with
  | zero => exact hφ
  | succ t ih =>
    rw [Function.iterate_succ_apply']
    exact afterMove_measurable hΩ σ ih

theorem iterate_stationary {Ω : Set (Fin k → ℝ)} (hΩ : MeasurableSet Ω) (σ : ℝ) {φ : (Fin k → ℝ) → ℝ≥0∞} (hφ : Measurable φ) (t : ℕ) :
    ∫⁻ z in Ω, (afterMove Ω σ)^[t] φ z = ∫⁻ z in Ω, φ z := by
  induction t with
  | zero => rfl
  | succ t ih =>
    rw [Function.iterate_succ_apply', afterMove_stationary hΩ σ (iterate_measurable hΩ σ hφ t), ih]

section mixing

variable {Ω : Set (Fin k → ℝ)} {σ ρ : ℝ}

theorem volume_le (hΩ : MeasurableSet Ω) (hσ : 0 < σ) (hρ : ∀ x ∈ Ω, ∀ z ∈ Ω, ∑ j, (x j - z j) ^ 2 ≤ ρ) {z : Fin k → ℝ} (hz : z ∈ Ω) :
    volume Ω ≠ ⊤ ∧ stepDensity k σ ρ * volume.real Ω ≤ 1 := by
  have h := afterMove_ge hΩ hσ hρ (φ := fun _ => 1) measurable_const hz
  have h1 : afterMove Ω σ (fun _ => 1) z = 1 := by
    unfold afterMove
    simp
  rw [h1, lintegral_const, one_mul, Measure.restrict_apply_univ] at h
  have hp := stepDensity_pos (k := k) hσ ρ
  have ht : volume Ω ≠ ⊤ := by
    intro ht
    rw [ht, ENNReal.mul_top (by simpa using hp)] at h
    exact absurd h (by simp)
  refine ⟨ht, ?_⟩
  have := ENNReal.toReal_mono ENNReal.one_ne_top h
  rwa [ENNReal.toReal_mul, ENNReal.toReal_ofReal hp.le, ENNReal.toReal_one] at this

/-- After `t` moves the law of the state dominates the uniform distribution up to a factor that tends to one. -/
theorem iterate_ge (hΩ : MeasurableSet Ω) (hσ : 0 < σ) (hρ : ∀ x ∈ Ω, ∀ z ∈ Ω, ∑ j, (x j - z j) ^ 2 ≤ ρ) (hV : volume Ω ≠ 0)
    {φ : (Fin k → ℝ) → ℝ≥0∞} (hφ : Measurable φ) (t : ℕ) {z : Fin k → ℝ} (hz : z ∈ Ω) :
    ENNReal.ofReal (1 - (1 - stepDensity k σ ρ * volume.real Ω) ^ t) * ((∫⁻ x in Ω, φ x) / volume Ω) ≤ (afterMove Ω σ)^[t] φ z := by
  obtain ⟨hT, h1⟩ := volume_le hΩ hσ hρ hz
  have h0 : 0 ≤ stepDensity k σ ρ * volume.real Ω := mul_nonneg (stepDensity_pos hσ ρ).le measureReal_nonneg
  set ε := stepDensity k σ ρ * volume.real Ω with hε
  have hεE : ENNReal.ofReal ε = ENNReal.ofReal (stepDensity k σ ρ) * volume Ω := by
    rw [hε, ENNReal.ofReal_mul (stepDensity_pos hσ ρ).le, ofReal_measureReal hT]
  set U := (∫⁻ x in Ω, φ x) / volume Ω with hU
  induction t generalizing z with
  | zero => simp
  | succ t ih =>
    rw [Function.iterate_succ_apply']
    set ψ := (afterMove Ω σ)^[t] φ with hψd
    have hψ : Measurable ψ := iterate_measurable hΩ σ hφ t
    have hκ : 0 ≤ 1 - (1 - ε) ^ t := sub_nonneg.mpr (pow_le_one₀ (by linarith) (by linarith))
    set a := ENNReal.ofReal (1 - (1 - ε) ^ t) * U with ha
    have hd : Measurable fun x => ψ x - a := hψ.sub measurable_const
    -- the constant comes out of the expectation
    have e1 : afterMove Ω σ ψ z = afterMove Ω σ (fun x => ψ x - a) z + a := by
      have e2 : afterMove Ω σ ψ z = ∫⁻ ξ, ((ψ (moved Ω σ z ξ) - a) + a) ∂stdNormal k :=
        lintegral_congr fun ξ => (tsub_add_cancel_of_le (ih (moved_mem hz))).symm
      rw [e2, lintegral_add_right _ measurable_const, lintegral_const, measure_univ, mul_one]
      rfl
    have e3 : ∫⁻ x in Ω, φ x = (∫⁻ x in Ω, (ψ x - a)) + a * volume Ω := by
      rw [← iterate_stationary hΩ σ hφ t, ← hψd]
      have : ∫⁻ x in Ω, ψ x = ∫⁻ x in Ω, ((ψ x - a) + a) :=
        setLIntegral_congr_fun hΩ fun x hx => (tsub_add_cancel_of_le (ih hx)).symm
      rw [this, lintegral_add_right _ measurable_const, lintegral_const, Measure.restrict_apply_univ]
    have h2 := afterMove_ge hΩ hσ hρ hd hz
    have h3 : ENNReal.ofReal ε * U ≤ afterMove Ω σ (fun x => ψ x - a) z + ENNReal.ofReal ε * a := by
      have e4 : ENNReal.ofReal ε * U = ENNReal.ofReal (stepDensity k σ ρ) * ∫⁻ x in Ω, φ x := by
        rw [hεE, hU, mul_assoc, ENNReal.mul_div_cancel hV hT]
      have e7 : ENNReal.ofReal (stepDensity k σ ρ) * (a * volume Ω) = ENNReal.ofReal ε * a := by
        rw [hεE, mul_comm a, mul_assoc]
      rw [e4, e3, mul_add, e7]
      exact add_le_add_left h2 _
    have e5 : a = ENNReal.ofReal ε * a + ENNReal.ofReal (1 - ε) * a := by
      rw [← add_mul, ← ENNReal.ofReal_add h0 (by linarith), add_sub_cancel, ENNReal.ofReal_one, one_mul]
    have e6 : ENNReal.ofReal (1 - (1 - ε) ^ (t + 1)) * U = ENNReal.ofReal ε * U + ENNReal.ofReal (1 - ε) * a := by
      rw [ha, ← mul_assoc, ← add_mul, ← ENNReal.ofReal_mul (by linarith), ← ENNReal.ofReal_add h0 (mul_nonneg (by linarith) hκ)]
      congr 2
      ring
    rw [e6, e1]
    calc ENNReal.ofReal ε * U + ENNReal.ofReal (1 - ε) * a ≤ (afterMove Ω σ (fun x => ψ x - a) z + ENNReal.ofReal ε * a) + ENNReal.ofReal (1 - ε) * a :=
          add_le_add_left h3 _
      _ = afterMove Ω σ (fun x => ψ x - a) z + a := by rw [add_assoc, ← e5]

end mixing

/-! ## The law of the chain -/

/-- The chain as a function of the steps drawn. -/
noncomputable def path (Ω : Set (Fin k → ℝ)) (σ : ℝ) (z : Fin k → ℝ) : (t : ℕ) → (Fin t → Fin k → ℝ) → Fin k → ℝ
  | 0, _ => z
  | t + 1, ξ => moved Ω σ (path Ω σ z t fun i => ξ i.castSucc) (ξ (Fin.last t))

theorem chain_path (rng : Rng S) (Ω : Set (Fin k → ℝ)) (σ : ℝ) (g : S) (z : Fin k → ℝ) (t : ℕ) :
    chain rng Ω σ g z t = path Ω σ z t fun i j => (rng.normal k 1 (stateAfter (rng.normal k 1) g i)).1 j 0 := by
  induction t with
  | zero => rfl
  | succ t ih =>
    rw [chain, path, ih]
    rfl

theorem path_measurable {Ω : Set (Fin k → ℝ)} (hΩ : MeasurableSet Ω) (σ : ℝ) (z : Fin k → ℝ) (t : ℕ) : Measurable (path Ω σ z t) := by
  induction t with
  | zero => exact measurable_const
  | succ t ih =>
    have h1 : Measurable fun ξ : Fin (t + 1) → Fin k → ℝ => path Ω σ z t fun i => ξ i.castSucc := ih.comp (by fun_prop)
    exact (moved_measurable hΩ σ).comp ((measurable_pi_apply (Fin.last t)).prodMk h1)

theorem path_law {Ω : Set (Fin k → ℝ)} (hΩ : MeasurableSet Ω) (σ : ℝ) (z : Fin k → ℝ) (t : ℕ) {φ : (Fin k → ℝ) → ℝ≥0∞} (hφ : Measurable φ) :
    ∫⁻ ξ, φ (path Ω σ z t ξ) ∂(Measure.pi fun _ : Fin t => stdNormal k) = (afterMove Ω σ)^[t] φ z := by
  induction t generalizing φ with
  | zero => simp [path]
  | succ t ih =>
    rw [Function.iterate_succ_apply, ← ih (afterMove_measurable hΩ σ hφ)]
    have hm : Measurable fun p : (Fin k → ℝ) × (Fin t → Fin k → ℝ) => φ (moved Ω σ (path Ω σ z t p.2) p.1) :=
      hφ.comp ((moved_measurable hΩ σ).comp (measurable_fst.prodMk ((path_measurable hΩ σ z t).comp measurable_snd)))
    have h := (measurePreserving_piFinSuccAbove (fun _ : Fin (t + 1) => stdNormal k) (Fin.last t)).lintegral_comp hm
    rw [lintegral_prod_symm' _ hm] at h
    have e : ∀ ξ : Fin (t + 1) → Fin k → ℝ, φ (path Ω σ z (t + 1) ξ)
        = (fun p : (Fin k → ℝ) × (Fin t → Fin k → ℝ) => φ (moved Ω σ (path Ω σ z t p.2) p.1)) (MeasurableEquiv.piFinSuccAbove (fun _ => Fin k → ℝ) (Fin.last t) ξ) := fun ξ => by
      have e2 : (MeasurableEquiv.piFinSuccAbove (fun _ : Fin (t + 1) => Fin k → ℝ) (Fin.last t) ξ) = (ξ (Fin.last t), fun i => ξ i.castSucc) := by
        refine Prod.ext rfl (funext fun i => ?_)
        change ξ ((Fin.last t).succAbove i) = ξ i.castSucc
        rw [Fin.succAbove_last]
      rw [e2]
      rfl
    simp only [e]
    exact h

/-- The steps that the generator gives from the state `g` on. -/
def steps (rng : Rng S) (k T : ℕ) (g : S) : Fin T → Fin k → ℝ := fun i j => (rng.normal k 1 (stateAfter (rng.normal k 1) g i)).1 j 0

theorem mixing_path {Ω : Set (Fin k → ℝ)} (hΩ : MeasurableSet Ω) {σ : ℝ} (hσ : 0 < σ) {ρ : ℝ} (hρ : ∀ x ∈ Ω, ∀ z ∈ Ω, ∑ j, (x j - z j) ^ 2 ≤ ρ) (hV : volume Ω ≠ 0)
    [MeasurableSpace S] {μ : Measure S} {t : ℕ} {X : S → Fin t → Fin k → ℝ} (hμ : MeasurePreserving X μ (Measure.pi fun _ => stdNormal k)) {z : Fin k → ℝ}
    (hz : z ∈ Ω) {A : Set (Fin k → ℝ)} (hA : MeasurableSet A) :
    |μ.real {g | path Ω σ z t (X g) ∈ A} - volume.real (A ∩ Ω) / volume.real Ω| ≤ (1 - stepDensity k σ ρ * volume.real Ω) ^ t := by
  obtain ⟨hT, h1⟩ := volume_le hΩ hσ hρ hz
  have h0 : 0 ≤ stepDensity k σ ρ * volume.real Ω := mul_nonneg (stepDensity_pos hσ ρ).le measureReal_nonneg
  have hVr : 0 < volume.real Ω := (ENNReal.toReal_pos hV hT)
  set κ := (1 - stepDensity k σ ρ * volume.real Ω) ^ t with hκ
  have hκ1 : κ ≤ 1 := pow_le_one₀ (by linarith) (by linarith)
  have hκ0 : 0 ≤ κ := pow_nonneg (by linarith) _
  have hprob : IsProbabilityMeasure μ := ⟨by
    have := hμ.measure_preimage (s := Set.univ) MeasurableSet.univ.nullMeasurableSet
    rw [Set.preimage_univ] at this
    rw [this]
    exact measure_univ⟩
  -- one side
  have side : ∀ B : Set (Fin k → ℝ), MeasurableSet B → (1 - κ) * (volume.real (B ∩ Ω) / volume.real Ω) ≤ μ.real {g | path Ω σ z t (X g) ∈ B} := fun B hB => by
    have h2 := iterate_ge hΩ hσ hρ hV (φ := B.indicator 1) (measurable_one.indicator hB) t hz
    rw [← path_law hΩ σ z t (measurable_one.indicator hB)] at h2
    have e1 : ∫⁻ x in Ω, B.indicator (1 : (Fin k → ℝ) → ℝ≥0∞) x = volume (B ∩ Ω) := by
      rw [lintegral_indicator_one hB, Measure.restrict_apply hB]
    have e2 : ∫⁻ ξ, B.indicator (1 : (Fin k → ℝ) → ℝ≥0∞) (path Ω σ z t ξ) ∂(Measure.pi fun _ : Fin t => stdNormal k) = μ {g | path Ω σ z t (X g) ∈ B} := by
      refine (hμ.lintegral_comp ((measurable_one.indicator hB).comp (path_measurable hΩ σ z t))).symm.trans ?_
      have hs : MeasurableSet (X ⁻¹' (path Ω σ z t ⁻¹' B)) := hμ.measurable (path_measurable hΩ σ z t hB)
      have : {g | path Ω σ z t (X g) ∈ B} = X ⁻¹' (path Ω σ z t ⁻¹' B) := rfl
      rw [this, ← lintegral_indicator_one hs]
      rfl
    rw [e1, e2] at h2
    have h3 := ENNReal.toReal_mono (measure_ne_top μ _) h2
    rwa [ENNReal.toReal_mul, ENNReal.toReal_ofReal (by linarith), ENNReal.toReal_div] at h3
  have hu0 : 0 ≤ volume.real (A ∩ Ω) / volume.real Ω := by positivity
  have hadd : volume.real (A ∩ Ω) / volume.real Ω + volume.real (Aᶜ ∩ Ω) / volume.real Ω = 1 := by
    rw [← add_div, div_eq_one_iff_eq hVr.ne', Set.inter_comm A, Set.inter_comm Aᶜ, ← Set.diff_eq]
    exact measureReal_inter_add_diff hA hT
  have hms : MeasurableSet {g | path Ω σ z t (X g) ∈ A} :=
    hμ.measurable (path_measurable hΩ σ z t hA)
  have hcompl : μ.real {g | path Ω σ z t (X g) ∈ Aᶜ} = 1 - μ.real {g | path Ω σ z t (X g) ∈ A} := by
    have := probReal_compl_eq_one_sub (μ := μ) hms
    rw [← this]
    rfl
  have s1 := side A hA
  have s2 := side Aᶜ hA.compl
  rw [hcompl] at s2
  have hu1 : volume.real (A ∩ Ω) / volume.real Ω ≤ 1 := by
    have : 0 ≤ volume.real (Aᶜ ∩ Ω) / volume.real Ω := by positivity
    linarith
  rw [abs_le]
  constructor <;> nlinarith

/-! ## C148 -/

/-- Two points of the polytope are no further apart than two corners of the cube. -/
theorem inactive_spread {W1 : Matrix (Fin m) (Fin n) ℝ} {W2 : Matrix (Fin m) (Fin k) ℝ} (hW : W2.transpose * W2 = 1) (y : Fin n → ℝ) :
    ∀ x ∈ inactive W1 W2 y, ∀ z ∈ inactive W1 W2 y, ∑ j, (x j - z j) ^ 2 ≤ 4 * m := by
  intro x hx z hz
  have e : ∑ j, (x j - z j) ^ 2 = ∑ i, (W2.mulVec (x - z) i) ^ 2 := by
    have : (x - z) ⬝ᵥ (x - z) = W2.mulVec (x - z) ⬝ᵥ W2.mulVec (x - z) := by
      rw [Matrix.dotProduct_mulVec, Matrix.vecMul_mulVec, hW, Matrix.vecMul_one]
    simpa only [dotProduct, Pi.sub_apply, ← pow_two] using this
  rw [e]
  have : ∀ i, (W2.mulVec (x - z) i) ^ 2 ≤ 4 := fun i => by
    have h1 := hx i
    have h2 := hz i
    have e3 : W2.mulVec (x - z) i = ∑ j, W2 i j * x j - ∑ j, W2 i j * z j := by
      rw [Matrix.mulVec_sub]
      rfl
    rw [e3]
    nlinarith
  calc ∑ i, (W2.mulVec (x - z) i) ^ 2 ≤ ∑ _i : Fin m, (4 : ℝ) := Finset.sum_le_sum fun i _ => this i
    _ = 4 * m := by rw [Finset.sum_const, Finset.card_univ, Fintype.card_fin, nsmul_eq_mul, mul_comm]

/-- **C148 (the states).** Suppose the numbers drawn are independent and standard normal, and the walk starts at a point `z0` of the polytope, with steps of any
size `σ > 0`. Then the law of the state after `t` moves differs from the uniform distribution, on every
measurable set, by at most `(1 - ε)^t`; `ε` is positive and is the volume of the polytope times a bound for the density of the steps. -/
theorem C148_states_partial [MeasurableSpace S] {μ : Measure S} {rng : Rng S} {W1 : Matrix (Fin m) (Fin n) ℝ} {W2 : Matrix (Fin m) (Fin k) ℝ} (hW : W2.transpose * W2 = 1)
    {y : Fin n → ℝ} (hV : volume (inactive W1 W2 y) ≠ 0) {z0 : Fin k → ℝ} (hz : z0 ∈ inactive W1 W2 y) {σ : ℝ} (hσ : 0 < σ) {t : ℕ}
    (hμ : MeasurePreserving (steps rng k t) μ (Measure.pi fun _ => stdNormal k)) :
    ∃ ε : ℝ, ε = (√(2 * Real.pi) * σ)⁻¹ ^ k * Real.exp (-(4 * m) / (2 * σ ^ 2)) * volume.real (inactive W1 W2 y) ∧ 0 < ε ∧ ε ≤ 1 ∧
      ∀ A : Set (Fin k → ℝ), MeasurableSet A →
        |μ.real {g | chain rng (inactive W1 W2 y) σ g z0 t ∈ A} - volume.real (A ∩ inactive W1 W2 y) / volume.real (inactive W1 W2 y)| ≤ (1 - ε) ^ t := by
  have hΩ := inactive_measurable W1 W2 y
  have hρ := inactive_spread (W1 := W1) hW y
  obtain ⟨hT, h1⟩ := volume_le hΩ hσ hρ hz
  exact ⟨_, rfl, mul_pos (stepDensity_pos hσ _) (ENNReal.toReal_pos hV hT), h1, fun A hA => by
    simp only [chain_path]
    exact mixing_path hΩ hσ hρ hV hμ hz hA⟩

/-- **C148 (the samples).** When the numbers drawn after the start are independent and standard normal, `random_walk_z` returns an array in which the numbers at the
positions `0 N + b, 1 N + b, ..., (k - 1) N + b`, counted along the rows, are for each `b < N` a point of the polytope whose law differs from the uniform distribution
by at most `(1 - ε)^(10 N + b + 1)`. With one inactive variable these are the rows; with more of them the rows are not points of the chain (C47). -/
theorem C148_samples_partial [MeasurableSpace S] {μ : Measure S} (lib : Model.Domains.Lib) {rng : Rng S} {W1 : Matrix (Fin m) (Fin n) ℝ} {W2 : Matrix (Fin m) (Fin k) ℝ}
    (hW : W2.transpose * W2 = 1) {y : Fin n → ℝ} (hV : volume (inactive W1 W2 y) ≠ 0) {z0 : Fin k → ℝ} (hz : z0 ∈ inactive W1 W2 y) {x0 : Fin m → ℝ}
    (hx : ∀ i, x0 i = ∑ j, W1 i j * y j + ∑ j, W2 i j * z0 j) (hx1 : ∃ i, x0 i ≠ 1) (hx2 : ∃ i, x0 i ≠ -1) {w w1 : S → S × Files × E}
    (h : ∀ g, (walkStart lib rng y W1 W2).run (w g) = (.ok z0, w1 g))
    (hμ : ∀ t, MeasurePreserving (fun g => steps rng k t (w1 g).1) μ (Measure.pi fun _ => stdNormal k)) :
    ∃ (σ ε : ℝ) (Z : S → Matrix (Fin N) (Fin k) ℝ), σ = min (√(∑ i, (x0 i - 1) ^ 2)) (√(∑ i, (x0 i - (-1)) ^ 2)) / 10 ∧
      ε = (√(2 * Real.pi) * σ)⁻¹ ^ k * Real.exp (-(4 * m) / (2 * σ ^ 2)) * volume.real (inactive W1 W2 y) ∧ 0 < ε ∧ ε ≤ 1 ∧
      (∀ g, ((random_walk_z lib rng N y W1 W2).run (w g)).1 = .ok (Z g)) ∧
      ∀ (b : Fin N) (r : Fin k → Fin N) (c : Fin k → Fin k), (∀ a, (r a : ℕ) * k + c a = a * N + b) →
        (∀ g, (fun a => Z g (r a) (c a)) ∈ inactive W1 W2 y) ∧
        ∀ A : Set (Fin k → ℝ), MeasurableSet A →
          |μ.real {g | (fun a => Z g (r a) (c a)) ∈ A} - volume.real (A ∩ inactive W1 W2 y) / volume.real (inactive W1 W2 y)| ≤ (1 - ε) ^ (10 * N + b + 1) := by
  have pos : ∀ v : ℝ, (∃ i, x0 i ≠ v) → 0 < √(∑ i, (x0 i - v) ^ 2) := fun v ⟨i, hi⟩ =>
    Real.sqrt_pos.mpr (Finset.sum_pos' (fun i _ => sq_nonneg _) ⟨i, Finset.mem_univ i, by have := sub_ne_zero.mpr hi; positivity⟩)
  set σ := min (√(∑ i, (x0 i - 1) ^ 2)) (√(∑ i, (x0 i - (-1)) ^ 2)) / 10 with hσd
  have hσ : 0 < σ := div_pos (lt_min (pos 1 hx1) (pos (-1) hx2)) (by norm_num)
  have hΩ := inactive_measurable W1 W2 y
  have hρ := inactive_spread (W1 := W1) hW y
  obtain ⟨hT, h1⟩ := volume_le hΩ hσ hρ hz
  choose Z hZ hZe using fun g => C103_chain (N := N) lib rng y W1 W2 (w g) (w1 g) z0 x0 (h g) hx
  refine ⟨σ, _, Z, rfl, rfl, mul_pos (stepDensity_pos hσ _) (ENNReal.toReal_pos hV hT), h1, fun g => by rw [hZ g], fun b r c hrc => ?_⟩
  have e : ∀ g, (fun a => Z g (r a) (c a)) = path (inactive W1 W2 y) σ z0 (10 * N + b + 1) (steps rng k (10 * N + b + 1) (w1 g).1) := fun g => by
    funext a
    rw [hZe g (r a) (c a) a b (hrc a), chain_path]
    rfl
  have hmem : ∀ (t : ℕ) (ξ : Fin t → Fin k → ℝ), path (inactive W1 W2 y) σ z0 t ξ ∈ inactive W1 W2 y := fun t => by
    induction t with
    | zero => exact fun _ => hz
    | succ t ih => exact fun ξ => moved_mem (ih _)
  refine ⟨fun g => by rw [e]; exact hmem _ _, fun A hA => ?_⟩
  simp only [e]
  exact mixing_path hΩ hσ hρ hV (hμ _) hz hA

/-! ## The corners -/

theorem chain_zero (rng : Rng S) (Ω : Set (Fin k → ℝ)) (g : S) (z : Fin k → ℝ) (t : ℕ) : chain rng Ω 0 g z t = z := by
  induction t with
  | zero => rfl
  | succ t ih =>
    rw [chain, ih, moved, zero_smul, add_zero, ite_self]

/-- **C148 fails at the corners.** If the starting point is the corner `(1, ..., 1)` or `(-1, ..., -1)` of the cube, all samples are copies of it. -/
theorem C148_corner (lib : Model.Domains.Lib) (rng : Rng S) (y : Fin n → ℝ) (W1 : Matrix (Fin m) (Fin n) ℝ) (W2 : Matrix (Fin m) (Fin k) ℝ)
    (w w1 : S × Files × E) (z0 : Fin k → ℝ) (h : (walkStart lib rng y W1 W2).run w = (.ok z0, w1)) {v : ℝ} (hv : v = 1 ∨ v = -1)
    (hx : ∀ i, ∑ j, W1 i j * y j + ∑ j, W2 i j * z0 j = v) :
    ∃ Z : Matrix (Fin N) (Fin k) ℝ, ((random_walk_z lib rng N y W1 W2).run w).1 = .ok Z ∧
      ∀ (i : Fin N) (j a : Fin k) (b : Fin N), (i : ℕ) * k + j = a * N + b → Z i j = z0 a := by
  obtain ⟨Z, hZ, hZe⟩ := C103_chain (N := N) lib rng y W1 W2 w w1 z0 (fun _ => v) h fun i => (hx i).symm
  refine ⟨Z, by rw [hZ], fun i j a b hab => ?_⟩
  have e : min (√(∑ _i : Fin m, (v - 1) ^ 2)) (√(∑ _i : Fin m, (v - (-1)) ^ 2)) / 10 = 0 := by
    rcases hv with rfl | rfl
    · simp
    · simp
      positivity
  rw [hZe i j a b hab, e, chain_zero]

/-- A solver that prefers the corner `(1, ..., 1)`. -/
theorem cornerSolver_exists : ∃ lib : Model.QPSolver.Lib, QPLibOK lib ∧ lib.hasGurobi = false ∧
    ∀ (n : ℕ) (p : LinProg n), IsMinimiser (linprogSet p) (linprogObj p) (fun _ => 1) → (lib.linprog p).success = true ∧ (lib.linprog p).x = fun _ => 1 := by
  classical
  obtain ⟨lib, hl, hg, -⟩ := qpLibOK_exists false
  refine ⟨{ lib with linprog := fun p => if IsMinimiser (linprogSet p) (linprogObj p) (fun _ => 1) then ⟨true, fun _ => 1⟩ else lib.linprog p }, ⟨?_, hl.optimize, hl.minimize⟩,
    hg, ?_⟩
  · intro n p hp
    dsimp only at hp ⊢
    by_cases h : IsMinimiser (linprogSet p) (linprogObj p) (fun _ => 1)
    · rw [if_pos h]
      exact h
    · rw [if_neg h] at hp ⊢
      exact hl.linprog p hp
  · intro n p h
    dsimp only
    rw [if_pos h]
    exact ⟨rfl, rfl⟩

/-- An orthonormal basis of the space, the first vector for the active variable. -/
noncomputable def cornerW1 : Matrix (Fin 3) (Fin 1) ℝ := !![8 / 9; 4 / 9; -1 / 9]
noncomputable def cornerW2 : Matrix (Fin 3) (Fin 2) ℝ := !![4 / 9, -1 / 9; -7 / 9, 4 / 9; 4 / 9, 8 / 9]

theorem corner_volume : volume (inactive cornerW1 cornerW2 fun _ => 11 / 9) ≠ 0 := by
  have hsub : Set.Icc (![-7 / 18 - 1 / 20, -1 / 36 - 1 / 20] : Fin 2 → ℝ) ![-7 / 18 + 1 / 20, -1 / 36 + 1 / 20] ⊆ inactive cornerW1 cornerW2 fun _ => 11 / 9 := by
    intro z hz
    have a1 := hz.1 0
    have a2 := hz.1 1
    have b1 := hz.2 0
    have b2 := hz.2 1
    simp at a1 a2 b1 b2
    intro i
    fin_cases i <;> simp [cornerW1, cornerW2, Fin.sum_univ_two] <;> constructor <;> linarith
  intro h
  have := measure_mono_null hsub h
  rw [Real.volume_Icc_pi] at this
  norm_num [Fin.prod_univ_two] at this

/-- **C148 is false.** The solver may start the walk at a corner although the polytope has a positive area: then `random_walk_z` returns copies of the starting point,
whatever numbers are drawn and however many samples are asked for. -/
theorem C148_refuted : ∃ (lib : Model.Domains.Lib) (W1 : Matrix (Fin 3) (Fin 1) ℝ) (W2 : Matrix (Fin 3) (Fin 2) ℝ) (y : Fin 1 → ℝ) (z0 : Fin 2 → ℝ), QPLibOK lib.qp ∧
    W1.transpose * W1 = 1 ∧ W2.transpose * W2 = 1 ∧ W1.transpose * W2 = 0 ∧ volume (inactive W1 W2 y) ≠ 0 ∧
    ∀ (S E : Type) (rng : Rng S) (N : ℕ) (w : S × Files × E), ∃ Z : Matrix (Fin N) (Fin 2) ℝ, ((random_walk_z lib rng N y W1 W2).run w).1 = .ok Z ∧
      ∀ (i : Fin N) (j a : Fin 2) (b : Fin N), (i : ℕ) * 2 + j = a * N + b → Z i j = z0 a := by
  obtain ⟨qp, hl, hg, hc⟩ := cornerSolver_exists
  refine ⟨⟨qp, fun l => l, fun _ => .error .exception⟩, cornerW1, cornerW2, fun _ => 11 / 9, ![1 / 9, 11 / 9], hl, ?_, ?_, ?_, corner_volume, fun S E rng N w => ?_⟩
  · ext i j
    fin_cases i; fin_cases j
    simp [cornerW1, Matrix.mul_apply, Fin.sum_univ_three]
    norm_num
  · ext i j
    fin_cases i <;> fin_cases j <;> simp [cornerW2, Matrix.mul_apply, Fin.sum_univ_three] <;> norm_num
  · ext i j
    fin_cases i; fin_cases j <;> simp [cornerW1, cornerW2, Matrix.mul_apply, Fin.sum_univ_three] <;> norm_num
  · have hstart : (walkStart (⟨qp, fun l => l, fun _ => .error .exception⟩ : Model.Domains.Lib) rng (fun _ => 11 / 9) cornerW1 cornerW2).run w
        = (.ok ![1 / 9, 11 / 9], w) := by
      unfold walkStart
      dsimp only
      rw [if_neg]
      · obtain ⟨⟨p, h1, h2, h3⟩, -⟩ := C65_linear_eq (E := E) (fun _ : Fin 3 => (0 : ℝ)) cornerW1.transpose (fun _ => 11 / 9) (fun _ => -1) (fun _ => 1) qp rng
        have hmin : IsMinimiser (linprogSet p) (linprogObj p) (fun _ => 1) := by
          rw [h2, h3]
          refine ⟨⟨fun i => ?_, fun j => ⟨by norm_num, le_rfl⟩⟩, fun x _ => ?_⟩
          · fin_cases i
            simp [cornerW1, Fin.sum_univ_three]
            norm_num
          · simp [linObj]
        obtain ⟨hs, hx⟩ := hc 3 p hmin
        have hrun : ((QPSolver.init qp).linear_program_eq qp rng (fun _ : Fin 3 => (0 : ℝ)) cornerW1.transpose (fun _ => 11 / 9) (fun _ => -1) fun _ => 1).run w
            = (.ok (fun _ => 1), w) := by
          unfold QPSolver.linear_program_eq QPSolver.dispatch
          have : (QPSolver.init qp).solver = "SCIPY" := by
            unfold QPSolver.init
            rw [hg]
            rfl
          rw [if_pos this, h1]
          unfold finishScipy
          rw [if_pos hs, hx]
          rfl
        rw [PyM.run_bind_ok hrun]
        refine Prod.ext (congrArg Except.ok ?_) rfl
        funext j
        fin_cases j <;> simp [cornerW2, Matrix.mulVec, dotProduct, Fin.sum_univ_three] <;> norm_num
      · rintro ⟨h1, -⟩
        have := h1 0
        simp [cornerW1, Matrix.mulVec, dotProduct] at this
        norm_num at this
    refine C148_corner _ rng _ _ _ w w _ hstart (.inl rfl) fun i => ?_
    fin_cases i <;> simp [cornerW1, cornerW2, Fin.sum_univ_two] <;> norm_num

/-! ## The hypotheses can be met -/

/-- A stream of vectors of steps. -/
def stepRng (k : ℕ) : Rng (ℕ → Fin k → ℝ) where
  seeded _ := 0
  normal r c s := (Matrix.of fun i _ => if h : (i : ℕ) < k then s 0 ⟨i, h⟩ else 0, fun i => s (i + 1))
  uniform _ _ s := (0, s)
  randint _ s := (0, s)

theorem stepRng_steps (k T : ℕ) : MeasurePreserving (steps (stepRng k) k T) (Measure.infinitePi fun _ : ℕ => stdNormal k) (Measure.pi fun _ => stdNormal k) := by
  have e : steps (stepRng k) k T = fun s i => s (i : ℕ) := by
    funext s i j
    have : ∀ (t : ℕ) (s : ℕ → Fin k → ℝ), stateAfter ((stepRng k).normal k 1) s t = fun i => s (i + t) := fun t => by
      induction t with
      | zero => exact fun s => rfl
      | succ t ih =>
        intro s
        rw [← stateAfter_one, ih]
        funext i
        change s (i + t + 1) = s (i + (t + 1))
        rfl
    unfold steps
    rw [this]
    simp [stepRng]
  rw [e]
  refine ⟨by fun_prop, ?_⟩
  have hi := iIndepFun_infinitePi (P := fun _ : ℕ => stdNormal k) (X := fun _ x => x) fun _ => measurable_id
  have h2 : iIndepFun (fun (i : Fin T) (ω : ℕ → Fin k → ℝ) => ω (i : ℕ)) (Measure.infinitePi fun _ : ℕ => stdNormal k) := hi.precomp (g := fun i : Fin T => (i : ℕ)) Fin.val_injective
  have h3 := (iIndepFun_iff_map_fun_eq_pi_map (ι := Fin T) (f := fun i (ω : ℕ → Fin k → ℝ) => ω (i : ℕ)) (fun i => (measurable_pi_apply (i : ℕ)).aemeasurable)).mp h2
  refine h3.trans ?_
  congr 1
  funext i
  exact (measurePreserving_eval_infinitePi (fun _ : ℕ => stdNormal k) (i : ℕ)).map_eq

/-- The square, with the first coordinate active, at `y = 1/2`. -/
example (lib : Model.Domains.Lib) (N : ℕ) (e : Files × E) :=
  C148_samples_partial (N := N) (E := E) (μ := Measure.infinitePi fun _ : ℕ => stdNormal 1) lib (rng := stepRng 1) (y := fun _ : Fin 1 => (1 / 2 : ℝ))
    (W1 := (Matrix.of fun i _ => if i = 0 then 1 else 0 : Matrix (Fin 2) (Fin 1) ℝ)) (W2 := (Matrix.of fun i _ => if i = 1 then 1 else 0 : Matrix (Fin 2) (Fin 1) ℝ))
    (by ext i j; fin_cases i; fin_cases j; simp [Matrix.mul_apply]) (by rw [square_volume]; norm_num) (z0 := fun _ => 0)
    (by intro i; fin_cases i <;> norm_num) (x0 := ![1 / 2, 0]) (by intro i; fin_cases i <;> simp) ⟨0, by norm_num⟩ ⟨0, by norm_num⟩
    (w := fun g => (g, e)) (w1 := fun g => (g, e)) (fun g => square_start lib _ _) (fun t => stepRng_steps 1 t)

end Props
