import Mathlib.Analysis.InnerProductSpace.PiL2
import Mathlib.MeasureTheory.Integral.IntervalIntegral.FundThmCalculus
import Mathlib.MeasureTheory.Integral.Prod
import Mathlib.MeasureTheory.Measure.Haar.InnerProductSpace
import Mathlib.MeasureTheory.Measure.Haar.NormedSpace
import Verif.Proofs.Rotation

/-!
# Deviation from the mean on compact convex sets
-/

open MeasureTheory Set

namespace Proofs.ConvexPoincare

variable {n k m : ℕ}

/-! ## Lebesgue measure in orthogonal coordinates -/

theorem rotate_volume {V1 : Matrix (Fin (n + k)) (Fin n) ℝ} {V2 : Matrix (Fin (n + k)) (Fin k) ℝ}
    (h11 : ∀ a b, ∑ i, V1 i a * V1 i b = if a = b then 1 else 0) (h12 : ∀ a b, ∑ i, V1 i a * V2 i b = 0)
    (h22 : ∀ a b, ∑ i, V2 i a * V2 i b = if a = b then 1 else 0) :
    MeasurePreserving (fun p : (Fin n → ℝ) × (Fin k → ℝ) => V1.mulVec p.1 + V2.mulVec p.2) volume volume := by
  have hon : Orthonormal ℝ (Proofs.Rotation.vecs V1 V2) := by
    rw [orthonormal_iff_ite]
    rintro (a | a) (b | b)
    · simp only [Proofs.Rotation.vecs, PiLp.inner_apply, RCLike.inner_apply, conj_trivial, Sum.inl.injEq]
      rw [← h11 a b]
      exact Finset.sum_congr rfl fun i _ => mul_comm _ _
    · simp only [Proofs.Rotation.vecs, PiLp.inner_apply, RCLike.inner_apply, conj_trivial, reduceCtorEq, if_false]
      rw [← h12 a b]
      exact Finset.sum_congr rfl fun i _ => mul_comm _ _
    · simp only [Proofs.Rotation.vecs, PiLp.inner_apply, RCLike.inner_apply, conj_trivial, reduceCtorEq, if_false]
      rw [← h12 b a]
    · simp only [Proofs.Rotation.vecs, PiLp.inner_apply, RCLike.inner_apply, conj_trivial, Sum.inr.injEq]
      rw [← h22 a b]
      exact Finset.sum_congr rfl fun i _ => mul_comm _ _
  have hcard : Fintype.card (Fin n ⊕ Fin k) = Module.finrank ℝ (EuclideanSpace ℝ (Fin (n + k))) := by simp
  let b : OrthonormalBasis (Fin n ⊕ Fin k) ℝ (EuclideanSpace ℝ (Fin (n + k))) :=
    OrthonormalBasis.mk hon (hon.linearIndependent.span_eq_top_of_card_eq_finrank' hcard).ge
  have hb : ∀ i, b i = Proofs.Rotation.vecs V1 V2 i := fun i => by rw [OrthonormalBasis.coe_mk]
  have h1 := b.measurePreserving_repr_symm
  have h2 := PiLp.volume_preserving_toLp (Fin n ⊕ Fin k)
  have h3 := PiLp.volume_preserving_ofLp (Fin (n + k))
  have h4 := (volume_measurePreserving_sumPiEquivProdPi (fun _ : Fin n ⊕ Fin k => ℝ)).symm
  have h5 := h3.comp (h1.comp (h2.comp h4))
  have e : (fun p : (Fin n → ℝ) × (Fin k → ℝ) => V1.mulVec p.1 + V2.mulVec p.2)
      = WithLp.ofLp ∘ b.repr.symm ∘ WithLp.toLp 2 ∘ (MeasurableEquiv.sumPiEquivProdPi fun _ : Fin n ⊕ Fin k => ℝ).symm := by
    funext p i
    simp only [Function.comp_apply]
    rw [← b.sum_repr_symm]
    simp only [Fintype.sum_sum_type, hb, Proofs.Rotation.vecs]
    rw [WithLp.ofLp_add]
    simp only [Pi.add_apply, Matrix.mulVec, dotProduct, WithLp.ofLp_sum, Finset.sum_apply, WithLp.ofLp_smul, Pi.smul_apply, smul_eq_mul]
    congr 1 <;> refine Finset.sum_congr rfl fun j _ => mul_comm _ _
  rw [e]
  exact h5

/-! ## Along a segment -/

variable {f : (Fin k → ℝ) → ℝ} {df : (Fin k → ℝ) → Fin k → ℝ}

theorem sq_integral_le {φ : ℝ → ℝ} (hφ : Continuous φ) : (∫ t in (0 : ℝ)..1, φ t) ^ 2 ≤ ∫ t in (0 : ℝ)..1, φ t ^ 2 := by
  set c := ∫ t in (0 : ℝ)..1, φ t with hc
  have h0 : 0 ≤ ∫ t in (0 : ℝ)..1, (φ t - c) ^ 2 := intervalIntegral.integral_nonneg zero_le_one fun t _ => sq_nonneg _
  have h1 : ∫ t in (0 : ℝ)..1, (φ t - c) ^ 2 = (∫ t in (0 : ℝ)..1, φ t ^ 2) - c ^ 2 := by
    have e : ∀ t, (φ t - c) ^ 2 = φ t ^ 2 - 2 * c * φ t + c ^ 2 := fun t => by ring
    simp only [e]
    rw [intervalIntegral.integral_add, intervalIntegral.integral_sub, intervalIntegral.integral_const_mul, ← hc, intervalIntegral.integral_const]
    · simp
      ring
    all_goals exact Continuous.intervalIntegrable (by fun_prop) _ _
  linarith

theorem sq_diff_le (hd : ∀ x, HasFDerivAt f (∑ j, df x j • (ContinuousLinearMap.proj j : (Fin k → ℝ) →L[ℝ] ℝ)) x)
    (hc : ∀ j, Continuous fun x => df x j) (x y : Fin k → ℝ) :
    (f x - f y) ^ 2 ≤ (∑ j, (x j - y j) ^ 2) * ∫ t in (0 : ℝ)..1, ∑ j, df (x + t • (y - x)) j ^ 2 := by
  have hcont : ∀ j, Continuous fun t : ℝ => df (x + t • (y - x)) j := fun j => (hc j).comp (by fun_prop)
  have hder : ∀ t : ℝ, HasDerivAt (fun t : ℝ => f (x + t • (y - x))) (∑ j, df (x + t • (y - x)) j * (y j - x j)) t := by
    intro t
    have h1 : HasDerivAt (fun t : ℝ => x + t • (y - x)) (y - x) t := by
      simpa using ((hasDerivAt_id t).smul_const (y - x)).const_add x
    refine ((hd (x + t • (y - x))).comp_hasDerivAt t h1).congr_deriv ?_
    simp
  have h1 : ∫ t in (0 : ℝ)..1, ∑ j, df (x + t • (y - x)) j * (y j - x j) = f y - f x := by
    have := intervalIntegral.integral_eq_sub_of_hasDerivAt (fun t _ => hder t)
      (Continuous.intervalIntegrable (continuous_finsetSum _ fun j _ => (hcont j).mul continuous_const) 0 1)
    rw [this]
    simp
  have h2 := sq_integral_le (φ := fun t => ∑ j, df (x + t • (y - x)) j * (y j - x j)) (continuous_finsetSum _ fun j _ => (hcont j).mul continuous_const)
  rw [h1] at h2
  have h3 : (f x - f y) ^ 2 = (f y - f x) ^ 2 := by ring
  rw [h3, ← intervalIntegral.integral_const_mul]
  refine h2.trans (intervalIntegral.integral_mono_on zero_le_one ?_ ?_ fun t _ => ?_)
  · exact Continuous.intervalIntegrable ((continuous_finsetSum _ fun j _ => (hcont j).mul continuous_const).pow 2) _ _
  · exact Continuous.intervalIntegrable (continuous_const.mul (continuous_finsetSum _ fun j _ => (hcont j).pow 2)) _ _
  · have := Finset.sum_mul_sq_le_sq_mul_sq Finset.univ (fun j => df (x + t • (y - x)) j) fun j => y j - x j
    refine this.trans_eq ?_
    rw [mul_comm]
    congr 1
    exact Finset.sum_congr rfl fun j _ => by ring

/-! ## Segments between random points -/

variable {G : (Fin k → ℝ) → ℝ} {K : Set (Fin k → ℝ)}

theorem half_bound (hG : Continuous G) (h0 : ∀ x, 0 ≤ G x) (hK : IsCompact K) (hc : Convex ℝ K) {s : ℝ} (hs : 1 / 2 ≤ s) (hs1 : s ≤ 1)
    {x : Fin k → ℝ} (hx : x ∈ K) : ∫ y in K, G ((1 - s) • x + s • y) ≤ 2 ^ k * ∫ y in K, G y := by
  have hs0 : 0 < s := by linarith
  have hH : Integrable (K.indicator G) := (hG.continuousOn.integrableOn_compact hK).integrable_indicator hK.measurableSet
  have hH' : Integrable fun y => K.indicator G ((1 - s) • x + s • y) :=
    (Integrable.comp_smul (f := fun u => K.indicator G ((1 - s) • x + u)) (hH.comp_add_left ((1 - s) • x)) hs0.ne')
  calc ∫ y in K, G ((1 - s) • x + s • y) = ∫ y in K, K.indicator G ((1 - s) • x + s • y) := by
        refine setIntegral_congr_fun hK.measurableSet fun y hy => ?_
        have hmem : (1 - s) • x + s • y ∈ K := hc hx hy (by linarith) hs0.le (by ring)
        exact (indicator_of_mem hmem G).symm
    _ ≤ ∫ y, K.indicator G ((1 - s) • x + s • y) :=
        setIntegral_le_integral hH' (Filter.Eventually.of_forall fun y => indicator_nonneg (fun u _ => h0 u) _)
    _ = |(s ^ k)⁻¹| * ∫ u, K.indicator G ((1 - s) • x + u) := by
        have := Measure.integral_comp_smul (volume : Measure (Fin k → ℝ)) (fun u => K.indicator G ((1 - s) • x + u)) s
        rwa [Module.finrank_fin_fun, smul_eq_mul] at this
    _ = |(s ^ k)⁻¹| * ∫ y in K, G y := by
        rw [integral_add_left_eq_self (fun u => K.indicator G u), integral_indicator hK.measurableSet]
    _ ≤ 2 ^ k * ∫ y in K, G y := by
        refine mul_le_mul_of_nonneg_right ?_ (setIntegral_nonneg hK.measurableSet fun y _ => h0 y)
        rw [abs_of_pos (by positivity), ← inv_pow]
        refine pow_le_pow_left₀ (by positivity) ?_ k
        rw [inv_le_comm₀ hs0 two_pos]
        linarith

theorem pair_bound (hG : Continuous G) (h0 : ∀ x, 0 ≤ G x) (hK : IsCompact K) (hc : Convex ℝ K) {t : ℝ} (ht : t ∈ Icc (0 : ℝ) 1) :
    ∫ p in K ×ˢ K, G (p.1 + t • (p.2 - p.1)) ≤ 2 ^ k * (volume.real K * ∫ y in K, G y) := by
  have e : ∀ x y : Fin k → ℝ, x + t • (y - x) = (1 - t) • x + t • y := fun x y => by module
  have hi : IntegrableOn (fun p : (Fin k → ℝ) × (Fin k → ℝ) => G (p.1 + t • (p.2 - p.1))) (K ×ˢ K) (volume.prod volume) :=
    (hG.comp (by fun_prop : Continuous fun p : (Fin k → ℝ) × (Fin k → ℝ) => p.1 + t • (p.2 - p.1))).continuousOn.integrableOn_compact (hK.prod hK)
  have hcst : ∀ C : ℝ, ∫ _x in K, C = volume.real K * C := fun C => by rw [setIntegral_const, smul_eq_mul]
  have hic : IntegrableOn (fun _ : Fin k → ℝ => 2 ^ k * ∫ y in K, G y) K := integrableOn_const hK.measure_lt_top.ne
  have hi2 := hi
  rw [IntegrableOn, ← Measure.prod_restrict] at hi2
  rcases le_total (1 / 2) t with h | h
  · rw [Measure.volume_eq_prod, setIntegral_prod _ hi]
    refine (setIntegral_mono_on hi2.integral_prod_left hic hK.measurableSet fun x hx => ?_).trans_eq ((hcst _).trans (by ring))
    simp only [e]
    exact half_bound hG h0 hK hc h ht.2 hx
  · rw [Measure.volume_eq_prod, ← Measure.prod_restrict, integral_prod_symm _ hi2]
    refine (setIntegral_mono_on hi2.integral_prod_right hic hK.measurableSet fun x hx => ?_).trans_eq ((hcst _).trans (by ring))
    simp only [e]
    have := half_bound hG h0 hK hc (s := 1 - t) (by linarith) (by linarith [ht.1]) hx
    simpa only [sub_sub_cancel, add_comm] using this

theorem pairs (hd : ∀ x, HasFDerivAt f (∑ j, df x j • (ContinuousLinearMap.proj j : (Fin k → ℝ) →L[ℝ] ℝ)) x)
    (hcd : ∀ j, Continuous fun x => df x j) (hK : IsCompact K) (hc : Convex ℝ K) {D : ℝ} (hD : ∀ x ∈ K, ∀ y ∈ K, ∑ j, (x j - y j) ^ 2 ≤ D) :
    ∫ p in K ×ˢ K, (f p.1 - f p.2) ^ 2 ≤ 2 ^ k * D * (volume.real K * ∫ y in K, ∑ j, df y j ^ 2) := by
  rcases K.eq_empty_or_nonempty with rfl | ⟨x0, hx0⟩
  · simp
  have hD0 : 0 ≤ D := (Finset.sum_nonneg fun j _ => sq_nonneg _).trans (hD x0 hx0 x0 hx0)
  have hf : Continuous f := continuous_iff_continuousAt.mpr fun x => (hd x).continuousAt
  have hG : Continuous fun x => ∑ j, df x j ^ 2 := continuous_finsetSum _ fun j _ => (hcd j).pow 2
  have hG0 : ∀ x, 0 ≤ ∑ j, df x j ^ 2 := fun x => Finset.sum_nonneg fun j _ => sq_nonneg _
  have hKK : MeasurableSet (K ×ˢ K) := hK.measurableSet.prod hK.measurableSet
  have hjoint : Continuous fun q : ((Fin k → ℝ) × (Fin k → ℝ)) × ℝ => ∑ j, df (q.1.1 + q.2 • (q.1.2 - q.1.1)) j ^ 2 :=
    hG.comp (by fun_prop)
  have hint : Integrable (fun q : ((Fin k → ℝ) × (Fin k → ℝ)) × ℝ => ∑ j, df (q.1.1 + q.2 • (q.1.2 - q.1.1)) j ^ 2)
      ((volume.restrict (K ×ˢ K)).prod (volume.restrict (Icc (0 : ℝ) 1))) := by
    rw [Measure.prod_restrict]
    exact hjoint.continuousOn.integrableOn_compact ((hK.prod hK).prod isCompact_Icc)
  have e1 : ∀ p : (Fin k → ℝ) × (Fin k → ℝ), ∫ t in (0 : ℝ)..1, ∑ j, df (p.1 + t • (p.2 - p.1)) j ^ 2
      = ∫ t in Icc (0 : ℝ) 1, ∑ j, df (p.1 + t • (p.2 - p.1)) j ^ 2 := fun p => by
    rw [intervalIntegral.integral_of_le zero_le_one, integral_Icc_eq_integral_Ioc]
  calc ∫ p in K ×ˢ K, (f p.1 - f p.2) ^ 2
      ≤ ∫ p in K ×ˢ K, D * ∫ t in Icc (0 : ℝ) 1, ∑ j, df (p.1 + t • (p.2 - p.1)) j ^ 2 := by
        refine setIntegral_mono_on ?_ (hint.integral_prod_left.const_mul D) hKK fun p hp => ?_
        · exact (((hf.comp continuous_fst).sub (hf.comp continuous_snd)).pow 2).continuousOn.integrableOn_compact (hK.prod hK)
        · refine (sq_diff_le hd hcd p.1 p.2).trans ?_
          rw [e1]
          exact mul_le_mul_of_nonneg_right (hD _ hp.1 _ hp.2) (setIntegral_nonneg measurableSet_Icc fun t _ => hG0 _)
    _ = D * ∫ t in Icc (0 : ℝ) 1, ∫ p in K ×ˢ K, ∑ j, df (p.1 + t • (p.2 - p.1)) j ^ 2 := by
        rw [integral_const_mul, integral_integral_swap hint]
    _ ≤ D * ∫ _t in Icc (0 : ℝ) 1, 2 ^ k * (volume.real K * ∫ y in K, ∑ j, df y j ^ 2) := by
        refine mul_le_mul_of_nonneg_left (setIntegral_mono_on hint.integral_prod_right (integrableOn_const (by simp)) measurableSet_Icc
          fun t ht => ?_) hD0
        exact pair_bound hG hG0 hK hc ht
    _ = _ := by
        rw [setIntegral_const]
        simp
        ring

/-- The deviation from the mean. -/
theorem poincare (hd : ∀ x, HasFDerivAt f (∑ j, df x j • (ContinuousLinearMap.proj j : (Fin k → ℝ) →L[ℝ] ℝ)) x)
    (hcd : ∀ j, Continuous fun x => df x j) (hK : IsCompact K) (hc : Convex ℝ K) {D : ℝ} (hD : ∀ x ∈ K, ∀ y ∈ K, ∑ j, (x j - y j) ^ 2 ≤ D) :
    2 * ∫ x in K, (f x - (∫ y in K, f y) / volume.real K) ^ 2 ≤ 2 ^ k * D * ∫ y in K, ∑ j, df y j ^ 2 := by
  have hf : Continuous f := continuous_iff_continuousAt.mpr fun x => (hd x).continuousAt
  rcases eq_or_ne (volume.real K) 0 with hv | hv
  · have hz : volume K = 0 := by
      rwa [measureReal_eq_zero_iff hK.measure_lt_top.ne] at hv
    rw [setIntegral_measure_zero _ hz, setIntegral_measure_zero _ hz]
    simp
  have hv0 : 0 < volume.real K := lt_of_le_of_ne measureReal_nonneg (Ne.symm hv)
  have h1 := pairs hd hcd hK hc hD
  have i1 : IntegrableOn f K := hf.continuousOn.integrableOn_compact hK
  have i2 : IntegrableOn (fun x => f x ^ 2) K := (hf.pow 2).continuousOn.integrableOn_compact hK
  have ic : ∀ c : ℝ, IntegrableOn (fun _ : Fin k → ℝ => c) K := fun c => integrableOn_const hK.measure_lt_top.ne
  have hquad : ∀ a b c : ℝ, ∫ x in K, (a * f x ^ 2 - b * f x + c) = a * (∫ x in K, f x ^ 2) - b * (∫ x in K, f x) + volume.real K * c := by
    intro a b c
    have j : Integrable (fun x => a * f x ^ 2 - b * f x) (volume.restrict K) := (i2.const_mul a).sub (i1.const_mul b)
    rw [integral_add j (ic c), integral_sub (i2.const_mul a) (i1.const_mul b), integral_const_mul, integral_const_mul, setIntegral_const, smul_eq_mul]
  have hdev : ∀ c : ℝ, ∫ x in K, (f x - c) ^ 2 = (∫ x in K, f x ^ 2) - 2 * c * (∫ x in K, f x) + volume.real K * c ^ 2 := by
    intro c
    have e : ∀ x, (f x - c) ^ 2 = 1 * f x ^ 2 - 2 * c * f x + c ^ 2 := fun x => by ring
    simp only [e]
    rw [hquad, one_mul]
  have hpair : ∫ p in K ×ˢ K, (f p.1 - f p.2) ^ 2 = 2 * (volume.real K * ∫ x in K, f x ^ 2) - 2 * (∫ x in K, f x) ^ 2 := by
    have hi : IntegrableOn (fun p : (Fin k → ℝ) × (Fin k → ℝ) => (f p.1 - f p.2) ^ 2) (K ×ˢ K) (volume.prod volume) :=
      (((hf.comp continuous_fst).sub (hf.comp continuous_snd)).pow 2).continuousOn.integrableOn_compact (hK.prod hK)
    rw [Measure.volume_eq_prod, setIntegral_prod _ hi]
    have e : ∀ x, ∫ y in K, (f x - f y) ^ 2 = volume.real K * f x ^ 2 - 2 * (∫ y in K, f y) * f x + ∫ y in K, f y ^ 2 := by
      intro x
      have := hdev (f x)
      have e2 : ∀ y, (f x - f y) ^ 2 = (f y - f x) ^ 2 := fun y => by ring
      simp only [e2]
      rw [this]
      ring
    simp only [e]
    rw [hquad]
    ring
  rw [hpair] at h1
  refine le_of_mul_le_mul_left ?_ hv0
  rw [hdev]
  calc volume.real K * (2 * ((∫ x in K, f x ^ 2) - 2 * ((∫ y in K, f y) / volume.real K) * (∫ x in K, f x)
        + volume.real K * ((∫ y in K, f y) / volume.real K) ^ 2))
      = 2 * (volume.real K * ∫ x in K, f x ^ 2) - 2 * (∫ x in K, f x) ^ 2 := by
        field_simp
        ring
    _ ≤ _ := h1
    _ = _ := by ring

/-- No number is closer than the mean. -/
theorem dev_min (hf : Continuous f) (hK : IsCompact K) (c : ℝ) :
    ∫ x in K, (f x - (∫ y in K, f y) / volume.real K) ^ 2 ≤ ∫ x in K, (f x - c) ^ 2 := by
  rcases eq_or_ne (volume.real K) 0 with hv | hv
  · have hz : volume K = 0 := by
      rwa [measureReal_eq_zero_iff hK.measure_lt_top.ne] at hv
    rw [setIntegral_measure_zero _ hz, setIntegral_measure_zero _ hz]
  have hv0 : 0 < volume.real K := lt_of_le_of_ne measureReal_nonneg (Ne.symm hv)
  have i1 : IntegrableOn f K := hf.continuousOn.integrableOn_compact hK
  have i2 : IntegrableOn (fun x => f x ^ 2) K := (hf.pow 2).continuousOn.integrableOn_compact hK
  have ic : ∀ c : ℝ, IntegrableOn (fun _ : Fin k → ℝ => c) K := fun c => integrableOn_const hK.measure_lt_top.ne
  have hdev : ∀ c : ℝ, ∫ x in K, (f x - c) ^ 2 = (∫ x in K, f x ^ 2) - 2 * c * (∫ x in K, f x) + volume.real K * c ^ 2 := by
    intro c
    have e : ∀ x, (f x - c) ^ 2 = f x ^ 2 - 2 * c * f x + c ^ 2 := fun x => by ring
    have j : Integrable (fun x => f x ^ 2 - 2 * c * f x) (volume.restrict K) := i2.sub (i1.const_mul (2 * c))
    simp only [e]
    rw [integral_add j (ic _), integral_sub i2 (i1.const_mul (2 * c)), integral_const_mul, setIntegral_const, smul_eq_mul]
  rw [hdev, hdev]
  have e : (∫ x in K, f x ^ 2) - 2 * c * (∫ x in K, f x) + volume.real K * c ^ 2
      - ((∫ x in K, f x ^ 2) - 2 * ((∫ y in K, f y) / volume.real K) * (∫ x in K, f x) + volume.real K * ((∫ y in K, f y) / volume.real K) ^ 2)
      = volume.real K * (c - (∫ y in K, f y) / volume.real K) ^ 2 := by
    field_simp
    ring
  have := mul_nonneg hv0.le (sq_nonneg (c - (∫ y in K, f y) / volume.real K))
  linarith

end Proofs.ConvexPoincare
