import Verif.Props.TensorExact
import Verif.Props.GaussMore
import Verif.Props.IntegralRules
import Verif.Proofs.MomentConv

/-!
# Property C120: the tensor-product Gauss rules converge

The rules are exact for polynomials only.  For other functions the sums converge to the integral as the numbers of
nodes grow, up to the effect of the threshold 1e-12 below which `g1d` sets nodes to zero (quadrature.py 242): no node is
moved up to `10^11` nodes per direction, and beyond that none by more than 1e-12.
-/

open Py Spec Model.Quadrature Proofs.Quadrature Proofs.MomentConv Polynomial MeasureTheory ProbabilityTheory Filter
open scoped Topology

namespace Props

/-! ## Rules as discrete measures -/

section Disc
variable {X : Type*} [MeasurableSpace X] [MeasurableSingletonClass X]

/-- The discrete measure with weights `w` in the points `x`. -/
noncomputable def disc {m : ℕ} (w : Fin m → ℝ) (x : Fin m → X) : Measure X := ∑ i, ENNReal.ofReal (w i) • Measure.dirac (x i)

instance {m : ℕ} (w : Fin m → ℝ) (x : Fin m → X) : IsFiniteMeasure (disc w x) := ⟨by
  simp [disc, Measure.coe_finsetSum]⟩

theorem disc_integrable {m : ℕ} (w : Fin m → ℝ) (x : Fin m → X) (f : X → ℝ) : Integrable f (disc w x) :=
  integrable_finsetSum_measure.mpr fun _ _ => (integrable_dirac (by simp)).smul_measure ENNReal.ofReal_ne_top

theorem disc_integral {m : ℕ} {w : Fin m → ℝ} (hw : ∀ i, 0 ≤ w i) (x : Fin m → X) (f : X → ℝ) : ∫ t, f t ∂(disc w x) = ∑ i, w i * f (x i) := by
  rw [disc, integral_finsetSum_measure fun i _ => (integrable_dirac (by simp)).smul_measure ENNReal.ofReal_ne_top]
  refine Finset.sum_congr rfl fun i _ => ?_
  rw [integral_smul_measure, integral_dirac, ENNReal.toReal_ofReal (hw i), smul_eq_mul]

theorem disc_prob {m : ℕ} {w : Fin m → ℝ} (hw : ∀ i, 0 ≤ w i) (hs : ∑ i, w i = 1) (x : Fin m → X) : IsProbabilityMeasure (disc w x) := ⟨by
  simp only [disc, Measure.coe_finsetSum, Measure.coe_smul, Finset.sum_apply, Pi.smul_apply, measure_univ, smul_eq_mul, mul_one]
  rw [← ENNReal.ofReal_sum_of_nonneg fun i _ => hw i, hs, ENNReal.ofReal_one]⟩

theorem disc_map {m : ℕ} (w : Fin m → ℝ) (y : Fin m → X) {ρ : X → X} (hρ : Measurable ρ) : disc w (fun i => ρ (y i)) = (disc w y).map ρ := by
  ext s hs
  rw [Measure.map_apply hρ hs]
  simp only [disc, Measure.coe_finsetSum, Measure.coe_smul, Finset.sum_apply, Pi.smul_apply, Measure.dirac_apply' _ hs, Measure.dirac_apply' _ (hρ hs)]
  rfl

end Disc

/-- A rule whose sums of products factor is a product measure. -/
theorem disc_pi {d m : ℕ} {M : Fin d → ℕ} {W : Fin m → ℝ} (hW : ∀ i, 0 ≤ W i) (x : Fin m → Fin d → ℝ) {w : (j : Fin d) → Fin (M j) → ℝ} (hw : ∀ j i, 0 ≤ w j i)
    (y : (j : Fin d) → Fin (M j) → ℝ)
    (hprod : ∀ f : Fin d → ℝ → ℝ, ∑ i, W i * ∏ j, f j (x i j) = ∏ j, ∑ i, w j i * f j (y j i)) :
    disc W x = Measure.pi fun j => disc (w j) (y j) := by
  refine (Measure.pi_eq fun s hs => ?_).symm
  have h1 : ∀ {X : Type} [MeasurableSpace X] [MeasurableSingletonClass X] {k : ℕ} {v : Fin k → ℝ} (z : Fin k → X) {t : Set X}, (∀ i, 0 ≤ v i) → MeasurableSet t →
      ((disc v z) t).toReal = ∑ i, v i * t.indicator 1 (z i) := by
    intro X _ _ k v z t hv ht
    rw [← disc_integral hv z, integral_indicator_one ht]
    rfl
  rw [← ENNReal.toReal_eq_toReal_iff' (measure_ne_top _ _) (ENNReal.prod_ne_top fun j _ => measure_ne_top _ _), ENNReal.toReal_prod]
  rw [h1 x hW (MeasurableSet.univ_pi hs)]
  simp only [fun j => h1 (y j) (hw j) (hs j)]
  rw [← hprod]
  refine Finset.sum_congr rfl fun i _ => ?_
  congr 1
  classical
  simp only [Set.indicator_apply, Set.mem_univ_pi, Pi.one_apply]
  by_cases h : ∀ j, x i j ∈ s j
  · rw [if_pos h, Finset.prod_congr rfl fun j _ => if_pos (h j), Finset.prod_const_one]
  · rw [if_neg h]
    push Not at h
    obtain ⟨j, hj⟩ := h
    exact (Finset.prod_eq_zero (Finset.mem_univ j) (if_neg hj)).symm

/-! ## What `g1d` does to the nodes of the ideal rule -/

open Classical in
/-- quadrature.py 242: nodes below 1e-12 are set to zero. -/
noncomputable def snap (t : ℝ) : ℝ := if |t| < 1e-12 then 0 else t

theorem snap_measurable : Measurable snap :=
  Measurable.ite (measurableSet_lt (by fun_prop) measurable_const) measurable_const measurable_id

theorem snap_near (t : ℝ) : |snap t - t| < 1e-12 := by
  unfold snap
  split_ifs with h
  · rwa [zero_sub, abs_neg]
  · rw [sub_self, abs_zero]
    norm_num

/-- The measure the rule of type `q` is meant for. -/
noncomputable def measOf : QuadType → Measure ℝ
  | .hermite => gaussianReal 0 1
  | .legendre => unifMeasure
  | .other => 0

/-- The tensor rule is a product of one-dimensional discrete measures with the right moments, with nodes moved by `snap`. -/
theorem gauss_pi {lib : Lib} (h : Proofs.Quadrature.LibOK lib) {q : QuadType} (hq : q = .hermite ∨ q = .legendre) {d : ℕ} (ns : Fin d → ℕ) (hns : ∀ j, 1 ≤ ns j) {r : Rule}
    {rs : List Rule} (h1 : List.Forall₂ (fun n ri => g1d lib n q = .ok ri) (List.ofFn fun j => Num.int (ns j)) rs) (h2 : IsTensor r rs)
    (hpos : ∀ i : Fin r.x.rows, 0 < r.w.get i 0) :
    ∃ μ : Fin d → ProbabilityMeasure ℝ, (∀ j, ∀ k : ℕ, Integrable (fun t : ℝ => t ^ k) (μ j : Measure ℝ)) ∧
      (∀ j, ∀ k < 2 * ns j, ∫ t, t ^ k ∂(μ j : Measure ℝ) = ∫ t, t ^ k ∂(measOf q)) ∧
      ∀ f : (Fin d → ℝ) → ℝ, Integrable (fun y => f fun j => snap (y j)) (Measure.pi fun j => (μ j : Measure ℝ)) ∧
        ∑ i : Fin r.x.rows, r.w.get i 0 * f (fun j : Fin d => r.x.get i j) = ∫ y, f (fun j => snap (y j)) ∂(Measure.pi fun j => (μ j : Measure ℝ)) := by
  have hq' : q ≠ .other := by rcases hq with rfl | rfl <;> simp
  obtain ⟨R, rfl, h3⟩ := forall₂_ofFn h1
  have h4 := fun j => g1d_full h hq' (hns j) (h3 j)
  choose y x w hx hw hy hxy hz hw0 hex _ using h4
  have hsum : ∀ j, ∑ i, w j i = 1 := fun j => by
    have := hex j 1 (by have := hns j; simp; omega)
    rw [LOf_one] at this
    simpa using this
  have hx' : ∀ j i, x j i = snap (y j i) := fun j i => by
    unfold snap
    split_ifs with hlt
    · exact hz j i hlt
    · rcases hxy j i with h5 | h5
      · exact h5
      · exact absurd h5.2 hlt
  have hdx : ∀ j, disc (w j) (x j) = (disc (w j) (y j)).map snap := fun j => by
    rw [← disc_map _ _ snap_measurable]
    exact congrArg _ (funext fun i => hx' j i)
  let μ : Fin d → ProbabilityMeasure ℝ := fun j => ⟨disc (w j) (y j), disc_prob (fun i => (hw0 j i).le) (hsum j) _⟩
  have hpi : disc (fun i : Fin r.x.rows => r.w.get i 0) (fun (i : Fin r.x.rows) (j : Fin d) => r.x.get i j)
      = (Measure.pi fun j => (μ j : Measure ℝ)).map fun y j => snap (y j) := by
    rw [Measure.pi_map_pi fun j => snap_measurable.aemeasurable]
    change _ = Measure.pi fun j => (disc (w j) (y j)).map snap
    simp only [← hdx]
    refine disc_pi (fun i => (hpos i).le) _ (fun j i => (hw0 j i).le) _ fun f => ?_
    rw [tensor_prod h2 f]
    exact Finset.prod_congr rfl fun j _ => isCol_sum (hx j) (hw j) (f j)
  have hm : Measurable fun (y : Fin d → ℝ) j => snap (y j) := measurable_pi_lambda _ fun j => snap_measurable.comp (measurable_pi_apply j)
  refine ⟨μ, fun j k => disc_integrable _ _ _, fun j k hk => ?_, fun f => ?_⟩
  · change ∫ t, t ^ k ∂(disc (w j) (y j)) = _
    rw [disc_integral (fun i => (hw0 j i).le)]
    have h5 := hex j (X ^ k) (by simpa using hk)
    simp only [eval_pow, eval_X] at h5
    rw [h5]
    rcases hq with rfl | rfl
    · rw [gaussL_def]
      simp [measOf]
    · rw [unifL_def]
      simp [measOf, (unifMeasure_pow k).2]
  · have h5 := disc_integrable (fun i : Fin r.x.rows => r.w.get i 0) (fun (i : Fin r.x.rows) (j : Fin d) => r.x.get i j) f
    have h6 := disc_integral (fun i => (hpos i).le) (fun (i : Fin r.x.rows) (j : Fin d) => r.x.get i j) f
    rw [hpi] at h5 h6
    exact ⟨(integrable_map_measure h5.aestronglyMeasurable hm.aemeasurable).mp h5, by rw [← h6, integral_map hm.aemeasurable h5.aestronglyMeasurable]⟩

/-! ## Convergence -/

/-- The sums over the rules converge, up to the shift of the nodes. -/
theorem gauss_tendsto {lib : Lib} (h : Proofs.Quadrature.LibOK lib) {q : QuadType} (hq : q = .hermite ∨ q = .legendre) {d : ℕ} (ns : ℕ → Fin d → ℕ) (h1 : ∀ N j, 1 ≤ ns N j)
    (hns : ∀ j, Tendsto (fun N => ns N j) atTop atTop) (r : ℕ → Rule)
    (hr : ∀ N, ∃ rs, List.Forall₂ (fun n ri => g1d lib n q = .ok ri) (List.ofFn fun j => Num.int (ns N j)) rs ∧ IsTensor (r N) rs)
    (hpos : ∀ N, ∀ i : Fin (r N).x.rows, 0 < (r N).w.get i 0) (ν : ProbabilityMeasure ℝ) (hν : (ν : Measure ℝ) = measOf q)
    (hexp : ∀ s : ℝ, Integrable (fun x => Real.exp (s * x)) (ν : Measure ℝ)) (hi : ∀ k : ℕ, Integrable (fun x : ℝ => x ^ k) (ν : Measure ℝ))
    {f : (Fin d → ℝ) → ℝ} (hf : Continuous f) (p s : MvPolynomial (Fin d) ℝ) (hp : ∀ y, |f y| ≤ MvPolynomial.eval y p)
    (hs : ∀ x y : Fin d → ℝ, (∀ j, |x j - y j| < 1e-12) → |f x - f y| ≤ MvPolynomial.eval y s) {ε : ℝ} (hε : 0 < ε) :
    ∀ᶠ N in atTop, |∑ i : Fin (r N).x.rows, (r N).w.get i 0 * f (fun j : Fin d => (r N).x.get i j) - ∫ y, f y ∂(Measure.pi fun _ : Fin d => (ν : Measure ℝ))|
      ≤ ∫ y, MvPolynomial.eval y s ∂(Measure.pi fun _ : Fin d => (ν : Measure ℝ)) + ε := by
  choose rs hrs hT using hr
  choose μ hμ1 hμ2 hμ3 using fun N => gauss_pi h hq (ns N) (h1 N) (hrs N) (hT N) (hpos N)
  have h2 := tendsto_pi (μ := μ) (ν := fun _ => ν) hμ1 (fun _ => hexp) (fun _ => hi) (fun j k => by
    filter_upwards [(hns j).eventually_gt_atTop k] with N hN
    rw [hν]
    exact hμ2 N j k (by omega)) hf p hp
  filter_upwards [(Metric.tendsto_nhds.mp h2.1) ε hε, h2.2 s] with N hN hS
  rw [(hμ3 N f).2, ← hS]
  have hfi : Integrable f (Measure.pi fun j => (μ N j : Measure ℝ)) :=
    (integral_poly _ (hμ1 N) p).1.mono' hf.aestronglyMeasurable (.of_forall hp)
  have h3 : |∫ y, f (fun j => snap (y j)) ∂(Measure.pi fun j => (μ N j : Measure ℝ)) - ∫ y, f y ∂(Measure.pi fun j => (μ N j : Measure ℝ))|
      ≤ ∫ y, MvPolynomial.eval y s ∂(Measure.pi fun j => (μ N j : Measure ℝ)) := by
    rw [← integral_sub (hμ3 N f).1 hfi, ← Real.norm_eq_abs]
    exact norm_integral_le_of_norm_le (integral_poly _ (hμ1 N) s).1 (.of_forall fun y => hs _ _ fun j => snap_near _)
  rw [Real.dist_eq] at hN
  rw [abs_lt] at hN
  rw [abs_le] at h3 ⊢
  constructor <;> linarith [hN.1, hN.2, h3.1, h3.2]

/-- C120: as the numbers of nodes grow, the sums over the Gauss-Hermite rules converge to the Gaussian integral for every continuous function of
polynomial growth, up to what a move of the nodes by 1e-12 can change. -/
theorem C120_hermite {lib : Lib} (h : Proofs.Quadrature.LibOK lib) {d : ℕ} (ns : ℕ → Fin d → ℕ) (h1 : ∀ N j, 1 ≤ ns N j) (hns : ∀ j, Tendsto (fun N => ns N j) atTop atTop)
    (r : ℕ → Rule) (hr : ∀ N, gauss_hermite lib (.list (List.ofFn fun j => .int (ns N j))) = .ok (r N))
    {f : (Fin d → ℝ) → ℝ} (hf : Continuous f) (p s : MvPolynomial (Fin d) ℝ) (hp : ∀ y, |f y| ≤ MvPolynomial.eval y p)
    (hs : ∀ x y : Fin d → ℝ, (∀ j, |x j - y j| < 1e-12) → |f x - f y| ≤ MvPolynomial.eval y s) {ε : ℝ} (hε : 0 < ε) :
    ∀ᶠ N in atTop, |∑ i : Fin (r N).x.rows, (r N).w.get i 0 * f (fun j : Fin d => (r N).x.get i j) - ∫ y, f y ∂(Measure.pi fun _ : Fin d => gaussianReal 0 1)|
      ≤ ∫ y, MvPolynomial.eval y s ∂(Measure.pi fun _ : Fin d => gaussianReal 0 1) + ε := by
  have e : ∀ N, List.ofFn (fun j => Num.int (ns N j)) = (List.ofFn fun j => (ns N j : ℤ)).map .int := fun N => by
    rw [List.map_ofFn]
    rfl
  refine gauss_tendsto h (.inl rfl) ns h1 hns r (fun N => (C24_tensor lib _ (r N)).1 (hr N)) (fun N => (C24_weights h _ (.inl (by rw [← e]; exact hr N))).2.2.1)
    ⟨gaussianReal 0 1, inferInstance⟩ rfl (fun s => integrable_exp_mul_gaussianReal s)
    (fun k => by simpa using Proofs.HermitePoly.integrable_poly (X ^ k)) hf p s hp hs hε

/-! ## The cube -/

theorem unif_cube (d : ℕ) : ∀ᵐ y ∂(Measure.pi fun _ : Fin d => unifMeasure), ∀ j, y j ∈ Set.Icc (-1 : ℝ) 1 := by
  have h0 : ∀ᵐ t ∂unifMeasure, t ∈ Set.Icc (-1 : ℝ) 1 := by
    unfold unifMeasure
    refine Measure.ae_smul_measure ?_ _
    filter_upwards [ae_restrict_mem measurableSet_Ioc] with t ht
    exact ⟨ht.1.le, ht.2⟩
  exact ae_all_iff.mpr fun j => (measurePreserving_eval (fun _ : Fin d => unifMeasure) j).quasiMeasurePreserving.ae h0

theorem unif_exp (s : ℝ) : Integrable (fun x => Real.exp (s * x)) unifMeasure := by
  unfold unifMeasure
  exact ((by fun_prop : Continuous fun x => Real.exp (s * x)).intervalIntegrable (-1) 1).1.integrable.smul_measure_nnreal

/-- The nearest point of the cube. -/
noncomputable def clip {d : ℕ} (y : Fin d → ℝ) (j : Fin d) : ℝ := max (-1) (min (y j) 1)

theorem clip_mem {d : ℕ} (y : Fin d → ℝ) (j : Fin d) : clip y j ∈ Set.Icc (-1 : ℝ) 1 :=
  ⟨le_max_left _ _, max_le (by norm_num) (min_le_right _ _)⟩

theorem clip_eq {d : ℕ} {y : Fin d → ℝ} (h : ∀ j, y j ∈ Set.Icc (-1 : ℝ) 1) : clip y = y := by
  funext j
  rw [clip, min_eq_left (h j).2, max_eq_right (h j).1]

theorem clip_continuous {d : ℕ} : Continuous (clip (d := d)) := by
  unfold clip
  fun_prop

theorem clip_near {d : ℕ} (x y : Fin d → ℝ) (j : Fin d) : |clip x j - clip y j| ≤ |x j - y j| := by
  unfold clip
  rw [max_comm, max_comm (-1)]
  refine (abs_max_sub_max_le_abs _ _ _).trans ((abs_min_sub_min_le_max (x j) 1 (y j) 1).trans ?_)
  rw [sub_self, abs_zero, max_eq_left (abs_nonneg _)]

/-- C120: as the numbers of nodes grow, the sums over the Gauss-Legendre rules converge to the mean over the cube for every function that is continuous on
the cube, up to its variation `ω` over distances of 1e-12. -/
theorem C120_legendre {lib : Lib} (h : Proofs.Quadrature.LibOK lib) {d : ℕ} (ns : ℕ → Fin d → ℕ) (h1 : ∀ N j, 1 ≤ ns N j) (hns : ∀ j, Tendsto (fun N => ns N j) atTop atTop)
    (r : ℕ → Rule) (hr : ∀ N, gauss_legendre lib (.list (List.ofFn fun j => .int (ns N j))) = .ok (r N))
    {f : (Fin d → ℝ) → ℝ} (hf : ContinuousOn f (Set.univ.pi fun _ => Set.Icc (-1) 1)) {ω : ℝ}
    (hω : ∀ x y : Fin d → ℝ, (∀ j, x j ∈ Set.Icc (-1 : ℝ) 1) → (∀ j, y j ∈ Set.Icc (-1 : ℝ) 1) → (∀ j, |x j - y j| < 1e-12) → |f x - f y| ≤ ω)
    {ε : ℝ} (hε : 0 < ε) :
    ∀ᶠ N in atTop, |∑ i : Fin (r N).x.rows, (r N).w.get i 0 * f (fun j : Fin d => (r N).x.get i j) - ∫ y, f y ∂(Measure.pi fun _ : Fin d => unifMeasure)|
      ≤ ω + ε := by
  have e : ∀ N, List.ofFn (fun j => Num.int (ns N j)) = (List.ofFn fun j => (ns N j : ℤ)).map .int := fun N => by
    rw [List.map_ofFn]
    rfl
  obtain ⟨M, hM⟩ := (isCompact_univ_pi fun _ : Fin d => isCompact_Icc (a := (-1 : ℝ)) (b := 1)).exists_bound_of_continuousOn hf
  have hmem : ∀ y : Fin d → ℝ, clip y ∈ Set.univ.pi fun _ : Fin d => Set.Icc (-1 : ℝ) 1 := fun y j _ => clip_mem y j
  have h2 := gauss_tendsto h (.inr rfl) ns h1 hns r (fun N => (C24_tensor lib _ (r N)).2 (hr N)) (fun N => (C24_weights h _ (.inr (by rw [← e]; exact hr N))).2.2.1)
    ⟨unifMeasure, inferInstance⟩ rfl unif_exp (fun k => (unifMeasure_pow k).1) (f := fun y => f (clip y)) (hf.comp_continuous clip_continuous hmem)
    (MvPolynomial.C M) (MvPolynomial.C ω) (fun y => by simpa using hM _ (hmem y))
    (fun x y hxy => by simpa using hω _ _ (clip_mem x) (clip_mem y) fun j => (clip_near x y j).trans_lt (hxy j)) hε
  filter_upwards [h2] with N hN
  have h3 : ∫ y, f (clip y) ∂(Measure.pi fun _ : Fin d => unifMeasure) = ∫ y, f y ∂(Measure.pi fun _ : Fin d => unifMeasure) :=
    integral_congr_ae (by filter_upwards [unif_cube d] with y hy; rw [clip_eq hy])
  have h4 : ∀ i : Fin (r N).x.rows, clip (fun j : Fin d => (r N).x.get i j) = fun j : Fin d => (r N).x.get i j := fun i => by
    refine clip_eq fun j => ?_
    have h5 : (r N).x.cols = d := by
      rw [(C24_weights h _ (.inr (by rw [← e]; exact hr N))).2.1, List.length_ofFn]
    have h6 := C95_cube h _ (by rw [← e]; exact hr N) i (Fin.cast h5.symm j)
    have h7 : (r N).x.get i j = (r N).x.val i (Fin.cast h5.symm j) := NpMat.get_of (r N).x.val i (Fin.cast h5.symm j)
    rw [h7]
    exact ⟨h6.1.le, h6.2.le⟩
  change |∑ i : Fin (r N).x.rows, (r N).w.get i 0 * f (clip fun j : Fin d => (r N).x.get i j) - ∫ y, f (clip y) ∂(Measure.pi fun _ : Fin d => unifMeasure)|
    ≤ ∫ y, MvPolynomial.eval y (MvPolynomial.C ω) ∂(Measure.pi fun _ : Fin d => unifMeasure) + ε at hN
  simp only [h4, h3, MvPolynomial.eval_C, integral_const, probReal_univ, one_smul] at hN
  exact hN

/-! ## The error for a given number of nodes -/

/-- The error of a rule with positive weights is at most twice that of an approximation for which it is exact. -/
theorem error_le {X : Type*} [MeasurableSpace X] (ν : Measure X) {m : ℕ} {w : Fin m → ℝ} (hw : ∀ i, 0 ≤ w i) (x : Fin m → X) {f p q : X → ℝ}
    (hf : AEStronglyMeasurable f ν) (hpi : Integrable p ν) (hqi : Integrable q ν) (hx : ∀ i, |f (x i) - p (x i)| ≤ q (x i)) (hν : ∀ᵐ y ∂ν, |f y - p y| ≤ q y)
    (hp : ∑ i, w i * p (x i) = ∫ y, p y ∂ν) (hq : ∑ i, w i * q (x i) = ∫ y, q y ∂ν) :
    |∑ i, w i * f (x i) - ∫ y, f y ∂ν| ≤ 2 * ∫ y, q y ∂ν := by
  have h1 : Integrable (fun y => f y - p y) ν := hqi.mono' (hf.sub hpi.aestronglyMeasurable) hν
  have hfi : Integrable f ν := (h1.add hpi).congr (.of_forall fun y => sub_add_cancel _ _)
  have h2 : |∫ y, f y ∂ν - ∫ y, p y ∂ν| ≤ ∫ y, q y ∂ν := by
    rw [← integral_sub hfi hpi, ← Real.norm_eq_abs]
    exact norm_integral_le_of_norm_le hqi hν
  have h3 : |∑ i, w i * f (x i) - ∑ i, w i * p (x i)| ≤ ∑ i, w i * q (x i) := by
    rw [← Finset.sum_sub_distrib]
    refine (Finset.abs_sum_le_sum_abs _ _).trans (Finset.sum_le_sum fun i _ => ?_)
    rw [← mul_sub, abs_mul, abs_of_nonneg (hw i)]
    exact mul_le_mul_of_nonneg_left (hx i) (hw i)
  rw [hp, hq] at h3
  rw [abs_le] at h2 h3 ⊢
  constructor <;> linarith [h2.1, h2.2, h3.1, h3.2]

/-- C120: with `N_j` nodes in direction `j` the error of the Gauss-Hermite rule is at most twice the mean error of the best approximation by a polynomial of
degree at most `2 N_j - 1` in variable `j`, measured by a polynomial bound of the same degrees. -/
theorem C120_hermite_error {lib : Lib} (h : Proofs.Quadrature.LibOK lib) {d : ℕ} (ns : Fin d → ℕ) (hns : ∀ j, 1 ≤ ns j ∧ ns j ≤ 10 ^ 11) {r : Rule}
    (hr : gauss_hermite lib (.list (List.ofFn fun j => .int (ns j))) = .ok r) {f : (Fin d → ℝ) → ℝ} (hf : Measurable f) (p q : MvPolynomial (Fin d) ℝ)
    (hp : ∀ j, p.degreeOf j ≤ 2 * ns j - 1) (hq : ∀ j, q.degreeOf j ≤ 2 * ns j - 1) (hfp : ∀ y, |f y - MvPolynomial.eval y p| ≤ MvPolynomial.eval y q) :
    |∑ i : Fin r.x.rows, r.w.get i 0 * f (fun j : Fin d => r.x.get i j) - ∫ y, f y ∂(Measure.pi fun _ : Fin d => gaussianReal 0 1)|
      ≤ 2 * ∫ y, MvPolynomial.eval y q ∂(Measure.pi fun _ : Fin d => gaussianReal 0 1) := by
  have hi : ∀ (_ : Fin d) (k : ℕ), Integrable (fun t : ℝ => t ^ k) (gaussianReal 0 1) := fun _ k => by
    simpa using Proofs.HermitePoly.integrable_poly (X ^ k)
  have hw := (C24_weights h (List.ofFn fun j => (ns j : ℤ)) (r := r) (.inl (by rw [List.map_ofFn]; exact hr))).2.2.1
  exact error_le _ (fun i => (hw i).le) (fun i (j : Fin d) => r.x.get i j) hf.aestronglyMeasurable (integral_poly _ hi p).1 (integral_poly _ hi q).1
    (fun i => hfp _) (.of_forall hfp) (C24_hermite_exact h ns hns hr p hp) (C24_hermite_exact h ns hns hr q hq)

/-- C120: the same for the Gauss-Legendre rule, where only the values inside the cube matter. -/
theorem C120_legendre_error {lib : Lib} (h : Proofs.Quadrature.LibOK lib) {d : ℕ} (ns : Fin d → ℕ) (hns : ∀ j, 1 ≤ ns j ∧ ns j ≤ 10 ^ 11) {r : Rule}
    (hr : gauss_legendre lib (.list (List.ofFn fun j => .int (ns j))) = .ok r) {f : (Fin d → ℝ) → ℝ} (hf : Measurable f) (p : MvPolynomial (Fin d) ℝ)
    (hp : ∀ j, p.degreeOf j ≤ 2 * ns j - 1) {δ : ℝ} (hfp : ∀ y : Fin d → ℝ, (∀ j, y j ∈ Set.Icc (-1 : ℝ) 1) → |f y - MvPolynomial.eval y p| ≤ δ) :
    |∑ i : Fin r.x.rows, r.w.get i 0 * f (fun j : Fin d => r.x.get i j) - ∫ y, f y ∂(Measure.pi fun _ : Fin d => unifMeasure)| ≤ 2 * δ := by
  have hr' : gauss_legendre lib (.list ((List.ofFn fun j => (ns j : ℤ)).map .int)) = .ok r := by rw [List.map_ofFn]; exact hr
  have hW := C24_weights h (List.ofFn fun j => (ns j : ℤ)) (r := r) (.inr hr')
  have hc : r.x.cols = d := by rw [hW.2.1, List.length_ofFn]
  have h1 := error_le (Measure.pi fun _ : Fin d => unifMeasure) (fun i => (hW.2.2.1 i).le) (fun i (j : Fin d) => r.x.get i j) hf.aestronglyMeasurable
    (p := fun y => MvPolynomial.eval y p) (q := fun _ => δ)
    (integral_poly _ (fun _ k => (unifMeasure_pow k).1) p).1 (integrable_const δ) (fun i => hfp _ fun j => ?_)
    (by filter_upwards [unif_cube d] with y hy; exact hfp y hy) (C24_legendre_exact h ns hns hr p hp)
    (by rw [← Finset.sum_mul, hW.2.2.2, integral_const, probReal_univ, one_mul, one_smul])
  · simpa using h1
  · have h6 := C95_cube h _ hr' i (Fin.cast hc.symm j)
    have h7 : r.x.get i j = r.x.val i (Fin.cast hc.symm j) := NpMat.get_of r.x.val i (Fin.cast hc.symm j)
    rw [h7]
    exact ⟨h6.1.le, h6.2.le⟩

open Model.Integrals in
/-- C120: the error of `av_integrate` on an unbounded domain, for functions and surfaces on the active variables: with `N` points at most twice the mean
error of an approximation by a polynomial of degree at most `2k-1` in each active variable, for every `k` with `k^n < N`. -/
theorem C120_av_integrate {S E : Type} {n k : ℕ} {a : Model.ActiveSurfaces.AVMap S E} {V1 : Matrix (Fin (n + k)) (Fin n) ℝ} {V2 : Matrix (Fin (n + k)) (Fin k) ℝ}
    (h : Split a.subspaces V1 V2)
    (hd : a.dom = .unbounded) (hn : 1 ≤ n) {lib : Model.Integrals.Lib} (hq : Proofs.Quadrature.LibOK lib.base.quad) (rng : Rng S) {N : ℤ} (hN : 1 ≤ N)
    (hN' : N ≤ 10 ^ 11) (hs : (n : ℤ) * 2 ^ n * N ≤ 2 ^ 45) (hroot : DoubleRoot N n (lib.base.root N n)) {w w' : S × Model.QPSolver.Files × E} {mu : ℝ} {K : ℕ}
    (hK : (K : ℤ) ^ n < N) {f : (Fin n → ℝ) → ℝ} (hf : Measurable f) (p q : MvPolynomial (Fin n) ℝ)
    (hp : ∀ j, p.degreeOf j ≤ 2 * K - 1) (hq' : ∀ j, q.degreeOf j ≤ 2 * K - 1) (hfp : ∀ y, |f y - MvPolynomial.eval y p| ≤ MvPolynomial.eval y q) :
    (∀ g : (m : ℕ) → (Fin m → ℝ) → ℝ, (∀ y, g n y = f y) →
      (av_integrate lib rng (.fn fun m y => pure (g m y)) (some a) (.int N)).run w = (.ok mu, w') →
      |mu - ∫ y, f y ∂(Measure.pi fun _ : Fin n => gaussianReal 0 1)| ≤ 2 * ∫ y, MvPolynomial.eval y q ∂(Measure.pi fun _ : Fin n => gaussianReal 0 1)) ∧
    (∀ s : Arr → Except Err (NpVec × Option NpMat),
      (∀ (G : ℕ) (Y : Matrix (Fin G) (Fin n) ℝ), ∃ d, s (.mat (NpMat.of Y)) = .ok (NpVec.of fun i => f (Y i), d)) →
      (av_integrate lib rng (.surface s) (some a) (.int N)).run w = (.ok mu, w') →
      |mu - ∫ y, f y ∂(Measure.pi fun _ : Fin n => gaussianReal 0 1)| ≤ 2 * ∫ y, MvPolynomial.eval y q ∂(Measure.pi fun _ : Fin n => gaussianReal 0 1)) := by
  have hi : ∀ (_ : Fin n) (k : ℕ), Integrable (fun t : ℝ => t ^ k) (gaussianReal 0 1) := fun _ k => by
    simpa using Proofs.HermitePoly.integrable_poly (X ^ k)
  have key : ∀ (G : ℕ) (Yp : Matrix (Fin G) (Fin n) ℝ) (Yw : Fin G → ℝ) (w0 : S × Model.QPSolver.Files × E),
      (av_quadrature_rule lib rng a N).run w = (.ok ⟨NpMat.of Yp, NpMat.of (Matrix.of fun i (_ : Fin 1) => Yw i)⟩, w0) →
      |∑ i, Yw i * f (Yp i) - ∫ y, f y ∂(Measure.pi fun _ : Fin n => gaussianReal 0 1)|
        ≤ 2 * ∫ y, MvPolynomial.eval y q ∂(Measure.pi fun _ : Fin n => gaussianReal 0 1) := by
    intro G Yp Yw w0 hr
    obtain ⟨-, q', h1, h2, h3, -, -, -, h5, -, h4⟩ := C60_rule_partial hd h.w1 hn hq rng hN hs hroot hr
    have hn0 : n ≠ 0 := by omega
    have hle : K ≤ q' := by
      have := lt_of_pow_lt_pow_left₀ n (by positivity) (hK.trans_le h3)
      omega
    have hq11 : q' ≤ 10 ^ 11 := by
      have a1 : (q' : ℤ) ≤ (q' : ℤ) ^ n := le_self_pow₀ (by exact_mod_cast h1) hn0
      have a2 := a1.trans (h2.trans hN')
      exact_mod_cast a2
    have e1 : ∀ i : Fin G, (NpMat.of (Matrix.of fun i (_ : Fin 1) => Yw i)).get i 0 = Yw i := fun i => NpMat.get_of _ i 0
    have e2 : ∀ (i : Fin G) (j : Fin n), (NpMat.of Yp).get i j = Yp i j := fun i j => NpMat.get_of _ i j
    have hw : ∀ i : Fin G, 0 ≤ Yw i := fun i => by
      have := (h5 i).le
      rwa [e1] at this
    have h6 : ∀ p : MvPolynomial (Fin n) ℝ, (∀ j, p.degreeOf j ≤ 2 * K - 1) →
        ∑ i, Yw i * MvPolynomial.eval (Yp i) p = ∫ y, MvPolynomial.eval y p ∂(Measure.pi fun _ : Fin n => gaussianReal 0 1) := fun p hp => by
      rw [← h4 hq11 p fun j => (hp j).trans (by omega)]
      refine Finset.sum_congr (s₁ := (Finset.univ : Finset (Fin G))) rfl fun i _ => ?_
      rw [e1]
      simp only [e2]
    exact error_le _ hw (fun i => Yp i) hf.aestronglyMeasurable (integral_poly _ hi p).1 (integral_poly _ hi q).1
      (fun i => hfp _) (.of_forall hfp) (h6 p hp) (h6 q hq')
  have hb : ∀ b, a.dom = .bounded b → b.n = n := fun b hb => by rw [hd] at hb; cases hb
  constructor
  · intro g hg hr
    obtain ⟨G, Yp, Yw, v, w0, h1, h2, h3⟩ := (C57_av_integrate h hb lib rng N w w' mu).1 _ hr
    have h4 := (calls_det h2 (Spec.calls_pure (g n) (Np.rows Yp) w0)).1
    have h5 : ∀ i, v i = f (Yp i) := by
      intro i
      rw [← hg]
      have : List.ofFn v = List.ofFn fun i => g n (Yp i) := by
        rw [h4, Np.rows, List.map_map, List.ofFn_eq_map]
        rfl
      exact congrFun (List.ofFn_injective this) i
    have h6 := key G Yp Yw w0 h1
    rw [h3]
    simpa only [h5] using h6
  · intro s hs hr
    obtain ⟨G, Yp, Yw, v, d, h1, h2, h3⟩ := (C57_av_integrate h hb lib rng N w w' mu).2 _ hr
    obtain ⟨d', h4⟩ := hs G Yp
    have h5 := (Prod.mk.inj (Except.ok.inj (h2.symm.trans h4))).1
    have h6 : v = fun i => f (Yp i) := by
      have : (⟨G, v⟩ : NpVec) = ⟨G, fun i => f (Yp i)⟩ := h5
      injection this
    rw [h3, h6]
    exact key G Yp Yw w' h1

/-! ## Examples -/

/-- C120: the mean of the absolute value of a coordinate of a Gaussian pair, by rules with `N + 1` nodes in each direction. -/
example : ∃ (lib : Lib) (r : ℕ → Rule), Proofs.Quadrature.LibOK lib ∧ (∀ N, gauss_hermite lib (.list (List.ofFn fun _ : Fin 2 => .int ((N + 1 : ℕ) : ℤ))) = .ok (r N)) ∧
    ∀ᶠ N in atTop, |∑ i : Fin (r N).x.rows, (r N).w.get i 0 * |(r N).x.get i 0| - ∫ y : Fin 2 → ℝ, |y 0| ∂(Measure.pi fun _ : Fin 2 => gaussianReal 0 1)| ≤ 2e-12 := by
  obtain ⟨lib, h1, h2⟩ := quadLib_exists
  have h3 : ∀ N : ℕ, ∃ r, gauss_hermite lib (.list (List.ofFn fun _ : Fin 2 => .int ((N + 1 : ℕ) : ℤ))) = .ok r := fun N =>
    ((C24_cases lib).2.2.2.2.2 h2 [((N + 1 : ℕ) : ℤ), ((N + 1 : ℕ) : ℤ)]).1
  choose r hr using h3
  refine ⟨lib, r, h1, hr, ?_⟩
  have h4 := C120_hermite h1 (fun N (_ : Fin 2) => N + 1) (fun N j => by omega) (fun j => tendsto_add_atTop_nat 1) r hr (f := fun y => |y 0|) (by fun_prop)
    (1 + MvPolynomial.X 0 ^ 2) (MvPolynomial.C 1e-12) (fun y => by
      simp only [abs_abs, map_add, map_one, map_pow, MvPolynomial.eval_X]
      rw [abs_le]
      constructor <;> nlinarith)
    (fun x y hxy => by
      rw [MvPolynomial.eval_C]
      exact (abs_abs_sub_abs_le_abs_sub _ _).trans (hxy 0).le) (ε := 1e-12) (by norm_num)
  filter_upwards [h4] with N hN
  simp only [MvPolynomial.eval_C, integral_const, probReal_univ, one_smul] at hN
  refine hN.trans (by norm_num)

/-- C120: the same over the square. -/
example : ∃ (lib : Lib) (r : ℕ → Rule), Proofs.Quadrature.LibOK lib ∧ (∀ N, gauss_legendre lib (.list (List.ofFn fun _ : Fin 2 => .int ((N + 1 : ℕ) : ℤ))) = .ok (r N)) ∧
    ∀ᶠ N in atTop, |∑ i : Fin (r N).x.rows, (r N).w.get i 0 * |(r N).x.get i 0| - ∫ y : Fin 2 → ℝ, |y 0| ∂(Measure.pi fun _ : Fin 2 => unifMeasure)| ≤ 2e-12 := by
  obtain ⟨lib, h1, h2⟩ := quadLib_exists
  have h3 : ∀ N : ℕ, ∃ r, gauss_legendre lib (.list (List.ofFn fun _ : Fin 2 => .int ((N + 1 : ℕ) : ℤ))) = .ok r := fun N =>
    ((C24_cases lib).2.2.2.2.2 h2 [((N + 1 : ℕ) : ℤ), ((N + 1 : ℕ) : ℤ)]).2
  choose r hr using h3
  refine ⟨lib, r, h1, hr, ?_⟩
  have h4 := C120_legendre h1 (fun N (_ : Fin 2) => N + 1) (fun N j => by omega) (fun j => tendsto_add_atTop_nat 1) r hr (f := fun y => |y 0|)
    (by fun_prop) (ω := 1e-12) (fun x y _ _ hxy => (abs_abs_sub_abs_le_abs_sub _ _).trans (hxy 0).le) (ε := 1e-12) (by norm_num)
  filter_upwards [h4] with N hN
  refine hN.trans (by norm_num)

/-- C120: with two nodes, the absolute value against `(1 + t^2) / 2`; the error is at most one on the interval. -/
example {lib : Lib} (h : Proofs.Quadrature.LibOK lib) {r : Rule} (hr : gauss_legendre lib (.list [.int 2]) = .ok r) :
    |∑ i : Fin r.x.rows, r.w.get i 0 * |r.x.get i 0| - ∫ y : Fin 1 → ℝ, |y 0| ∂(Measure.pi fun _ : Fin 1 => unifMeasure)| ≤ 1 := by
  have h1 := C120_legendre_error h (d := 1) (fun _ => 2) (fun _ => by norm_num) (r := r) (by simpa [List.ofFn_succ] using hr) (f := fun y => |y 0|) (by fun_prop)
    (MvPolynomial.C (1 / 2) * MvPolynomial.X 0 ^ 2 + MvPolynomial.C (1 / 2)) (fun j => by
      refine (MvPolynomial.degreeOf_add_le _ _ _).trans (max_le ?_ (by simp [MvPolynomial.degreeOf_C]))
      refine (MvPolynomial.degreeOf_C_mul_le _ _ _).trans ((MvPolynomial.degreeOf_pow_le _ _ _).trans ?_)
      rw [Subsingleton.elim j 0]
      simp [MvPolynomial.degreeOf_X]) (δ := 1 / 2) (fun y hy => by
      simp only [map_add, map_mul, map_pow, MvPolynomial.eval_C, MvPolynomial.eval_X]
      have h2 : |y 0| ≤ 1 := abs_le.mpr (hy 0)
      have h3 := sq_abs (y 0)
      rw [abs_le]
      constructor <;> nlinarith [abs_nonneg (y 0)])
  simpa using h1

/-- C120: with three nodes against the Gaussian distribution; the mean of `1 + t^2` is 2. -/
example {lib : Lib} (h : Proofs.Quadrature.LibOK lib) {r : Rule} (hr : gauss_hermite lib (.list [.int 3]) = .ok r) :
    |∑ i : Fin r.x.rows, r.w.get i 0 * Real.cos (r.x.get i 0) - ∫ y : Fin 1 → ℝ, Real.cos (y 0) ∂(Measure.pi fun _ : Fin 1 => gaussianReal 0 1)|
      ≤ 2 * ∫ y : Fin 1 → ℝ, MvPolynomial.eval y (MvPolynomial.C (1 / 2) * MvPolynomial.X 0 ^ 2) ∂(Measure.pi fun _ : Fin 1 => gaussianReal 0 1) := by
  refine C120_hermite_error h (d := 1) (fun _ => 3) (fun _ => by norm_num) (r := r) (by simpa [List.ofFn_succ] using hr) (f := fun y => Real.cos (y 0)) (by fun_prop)
    1 _ (fun j => ?_) (fun j => ?_) (fun y => ?_)
  · rw [← MvPolynomial.C_1, MvPolynomial.degreeOf_C]
    omega
  · refine (MvPolynomial.degreeOf_C_mul_le _ _ _).trans ((MvPolynomial.degreeOf_pow_le _ _ _).trans ?_)
    rw [Subsingleton.elim j 0]
    simp [MvPolynomial.degreeOf_X]
  · simp only [map_one, map_mul, map_pow, MvPolynomial.eval_C, MvPolynomial.eval_X]
    have h1 := Real.one_sub_sq_div_two_le_cos (x := y 0)
    have h2 := Real.cos_le_one (y 0)
    rw [abs_le]
    constructor <;> linarith

open Model.Integrals in
/-- C120: `av_integrate` of the cosine with four points on a one-dimensional unbounded domain. -/
example {S E : Type} {lib : Model.Integrals.Lib} (hq : Proofs.Quadrature.LibOK lib.base.quad) (hroot : DoubleRoot 4 1 (lib.base.root 4 1)) (rng : Rng S)
    (w w' : S × Model.QPSolver.Files × E) (mu : ℝ)
    (h : (av_integrate lib rng (.fn fun _ y => pure (∏ j, Real.cos (y j))) (some ⟨.unbounded, toySubspaces, toyZ S E⟩) (.int 4)).run w = (.ok mu, w')) :
    |mu - ∫ y : Fin 1 → ℝ, Real.cos (y 0) ∂(Measure.pi fun _ : Fin 1 => gaussianReal 0 1)|
      ≤ 2 * ∫ y : Fin 1 → ℝ, MvPolynomial.eval y (MvPolynomial.C (1 / 2) * MvPolynomial.X 0 ^ 2) ∂(Measure.pi fun _ : Fin 1 => gaussianReal 0 1) := by
  refine (C120_av_integrate (a := ⟨.unbounded, toySubspaces, toyZ S E⟩) toySplit rfl le_rfl hq rng (N := 4) (by norm_num) (by norm_num) (by norm_num)
    hroot (w := w) (w' := w') (mu := mu) (K := 3) (by norm_num) (f := fun y => Real.cos (y 0)) (by fun_prop) 1 _ (fun j => ?_) (fun j => ?_) (fun y => ?_)).1
    (fun _ y => ∏ j, Real.cos (y j)) (fun y => by rw [Fin.prod_univ_one]) h
  · rw [← MvPolynomial.C_1, MvPolynomial.degreeOf_C]
    omega
  · refine (MvPolynomial.degreeOf_C_mul_le _ _ _).trans ((MvPolynomial.degreeOf_pow_le _ _ _).trans ?_)
    rw [Subsingleton.elim j 0]
    simp [MvPolynomial.degreeOf_X]
  · simp only [map_one, map_mul, map_pow, MvPolynomial.eval_C, MvPolynomial.eval_X]
    have h1 := Real.one_sub_sq_div_two_le_cos (x := y 0)
    have h2 := Real.cos_le_one (y 0)
    rw [abs_le]
    constructor <;> linarith

end Props
