import Verif.Proofs.Directions
import Verif.Props.ZonotopeVertices

/-!
# Property C115: how likely random directions miss a vertex
-/

open Py Model.Domains Model.Subspaces Model.QPSolver Spec Proofs.Rotation Proofs.Directions MeasureTheory ProbabilityTheory

namespace Props

variable {S E Ω : Type} {m n : ℕ} [MeasurableSpace Ω] {μ : Measure Ω}

/-- All directions that `zonotope_vertices` may draw, by round and row. -/
def draws (rng : Rng S) (Nsamples n maxcount : ℕ) (s : S) (p : Fin (maxcount + 2) × Fin Nsamples) : Fin n → ℝ :=
  (rng.normal Nsamples n (rounds rng Nsamples n p.1 s)).1 p.2

/-- A sign vector has no zeros. -/
theorem signVectors_rows {W1 : Matrix (Fin m) (Fin n) ℝ} {x : Fin m → ℝ} (hx : x ∈ signVectors W1) (i : Fin m) : ∃ j, W1 i j ≠ 0 := by
  obtain ⟨z, hz⟩ := hx
  by_contra h
  push Not at h
  have h0 : ∑ j, W1 i j * z j = 0 := Finset.sum_eq_zero fun j _ => by rw [h, zero_mul]
  rcases hz i with ⟨h1, -⟩ | ⟨h1, -⟩ <;> linarith

theorem signVectors_val {W1 : Matrix (Fin m) (Fin n) ℝ} {x : Fin m → ℝ} (hx : x ∈ signVectors W1) (i : Fin m) : x i = 1 ∨ x i = -1 := by
  obtain ⟨z, hz⟩ := hx
  exact (hz i).imp And.right And.right

/-- The directions of a sign vector are those with its signs. -/
theorem mem_directions {W1 : Matrix (Fin m) (Fin n) ℝ} {x : Fin m → ℝ} (hx : x ∈ signVectors W1) (z : Fin n → ℝ) :
    z ∈ directions W1 x ↔ ∀ i, x i = Real.sign (∑ j, W1 i j * z j) := by
  refine forall_congr' fun i => ?_
  rcases signVectors_val hx i with h | h <;> rw [h] <;> rcases lt_trichotomy (∑ j, W1 i j * z j) 0 with h1 | h1 | h1
  · rw [Real.sign_of_neg h1]; constructor <;> intro h2 <;> linarith
  · rw [h1, Real.sign_zero]; norm_num
  · rw [Real.sign_of_pos h1]; constructor <;> intro h2 <;> linarith
  · rw [Real.sign_of_neg h1]; constructor <;> intro h2 <;> linarith
  · rw [h1, Real.sign_zero]; norm_num
  · rw [Real.sign_of_pos h1]; constructor <;> intro h2 <;> linarith

theorem mem_directions_neg {W1 : Matrix (Fin m) (Fin n) ℝ} {x : Fin m → ℝ} {z : Fin n → ℝ} :
    z ∈ directions W1 (-x) ↔ -z ∈ directions W1 x := by
  simp [directions]

/-- If no direction has a zero product, a sign vector is missing exactly when no direction, nor its negative, belongs to it. -/
theorem missing_iff {lib : Model.Domains.Lib} (hu : UniqueOK lib) (rng : Rng S) (W1 : Matrix (Fin m) (Fin n) ℝ) (Nsamples maxcount : ℕ)
    (hm : 1 ≤ m) (w w' : S × Files × Out × E) (v : Verts m n)
    (h : (zonotope_vertices lib rng W1 Nsamples maxcount).run w = (.ok v, w'))
    (hz : ∀ p i, ∑ j, W1 i j * draws rng Nsamples n maxcount w.1 p j ≠ 0) {x : Fin m → ℝ} (hx : x ∈ signVectors W1) :
    (¬ ∃ a, v.X a = x) ↔ ∀ p, draws rng Nsamples n maxcount w.1 p ∈ (directions W1 x ∪ directions W1 (-x))ᶜ := by
  obtain ⟨N, hN, hle, -, hall⟩ := C51_complete hu rng W1 Nsamples maxcount hm w w' v h fun q hq b i => hz (⟨q, by omega⟩, b) i
  obtain ⟨v', r, N', h1, hN', hr, hr', -, -, hneg, hsign, -, hdraw, -⟩ := C51_rows hu rng W1 Nsamples maxcount hm w
  have hNN : N = N' := by
    rw [C50_formula m n hm] at hN
    rw [hN']
    exact (Except.ok.inj hN).symm
  subst hNN
  rw [h] at h1
  have hv := Except.ok.inj (Prod.mk.inj h1).1
  subst hv
  constructor
  · intro hmiss p hp
    have hlt : v.num < N := lt_of_le_of_ne hle fun heq => hmiss ((hall heq x).mp hx)
    obtain ⟨b, hb⟩ := hdraw p.1 (by rw [hr' hlt]; omega) p.2
    rcases hp with hp | hp
    · exact hmiss ⟨b, funext fun i => (hb i).trans ((mem_directions hx _).mp hp i).symm⟩
    · obtain ⟨c, hc⟩ := hneg b
      refine hmiss ⟨c, funext fun i => ?_⟩
      rw [(mem_directions hx _).mp (mem_directions_neg.mp hp) i, hc, hb, ← sign_neg]
      simp [draws]
  · rintro hout ⟨a, ha⟩
    obtain ⟨z, ⟨q, hq, b, hb⟩, hs⟩ := hsign a
    have hzd : z ∈ directions W1 x := (mem_directions hx z).mpr fun i => by rw [← ha]; exact hs i
    refine hout (⟨q, by omega⟩, b) ?_
    rcases hb with hb | hb
    · left
      convert hzd using 1
      funext j
      exact (hb j).symm
    · right
      rw [mem_directions_neg]
      convert hzd using 1
      funext j
      exact (hb j).symm

/-- C115: for standard normal directions, the probability that a given sign vector is missing from the rows of `vertX`. -/
theorem C115_missing {lib : Model.Domains.Lib} (hu : UniqueOK lib) (rng : Rng S) (W1 : Matrix (Fin m) (Fin n) ℝ) (Nsamples maxcount : ℕ)
    (hm : 1 ≤ m) (w w' : Ω → S × Files × Out × E) (v : Ω → Verts m n)
    (h : ∀ ω, (zonotope_vertices lib rng W1 Nsamples maxcount).run (w ω) = (.ok (v ω), w' ω))
    (hlaw : HasLaw (fun ω => draws rng Nsamples n maxcount (w ω).1) (Measure.pi fun _ => normal n) μ)
    {x : Fin m → ℝ} (hx : x ∈ signVectors W1) :
    0 < (normal n).real (directions W1 x) ∧
      μ.real {ω | ¬ ∃ a, (v ω).X a = x} = (1 - 2 * (normal n).real (directions W1 x)) ^ (Nsamples * (maxcount + 2)) := by
  refine ⟨directions_pos hx, ?_⟩
  have hA : MeasurableSet (directions W1 x ∪ directions W1 (-x))ᶜ :=
    ((measurable_directions W1 x).union (measurable_directions W1 (-x))).compl
  have h1 := all_in hlaw hA
  rw [directions_compl W1 x hm, Fintype.card_prod, Fintype.card_fin, Fintype.card_fin, mul_comm (maxcount + 2)] at h1
  rw [← h1]
  refine measureReal_congr ?_
  filter_upwards [ties (signVectors_rows hx) hlaw] with ω hω
  exact propext (missing_iff hu rng W1 Nsamples maxcount hm (w ω) (w' ω) (v ω) (h ω) hω hx)

/-- C115: the probability that the hull of the rows of `vertY` is not the whole domain. -/
theorem C115_hull {lib : Model.Domains.Lib} (hu : UniqueOK lib) (rng : Rng S) (W1 : Matrix (Fin m) (Fin n) ℝ) (hrow : ∀ i, ∃ j, W1 i j ≠ 0)
    (Nsamples maxcount : ℕ) (hm : 1 ≤ m) (w w' : Ω → S × Files × Out × E) (v : Ω → Verts m n)
    (h : ∀ ω, (zonotope_vertices lib rng W1 Nsamples maxcount).run (w ω) = (.ok (v ω), w' ω))
    (hlaw : HasLaw (fun ω => draws rng Nsamples n maxcount (w ω).1) (Measure.pi fun _ => normal n) μ) :
    (signVectors W1).Finite ∧ μ.real {ω | convexHull ℝ (Set.range fun a => (v ω).Y a) ≠ zonotope W1} ≤
      ∑ᶠ x ∈ signVectors W1, (1 - 2 * (normal n).real (directions W1 x)) ^ (Nsamples * (maxcount + 2)) := by
  have hfin := Proofs.SignVectors.finite W1
  refine ⟨hfin, ?_⟩
  have hp := hlaw.isProbabilityMeasure
  rw [finsum_mem_eq_finite_toFinset_sum _ hfin]
  have hsub : {ω | convexHull ℝ (Set.range fun a => (v ω).Y a) ≠ zonotope W1} ⊆ ⋃ x ∈ hfin.toFinset, {ω | ¬ ∃ a, (v ω).X a = x} := by
    intro ω hω
    by_contra hnot
    refine hω ?_
    obtain ⟨v', r, N', h3, -, -, -, -, -, -, hsign, hY, -⟩ := C51_rows hu rng W1 Nsamples maxcount hm (w ω)
    have hv : v ω = v' := Except.ok.inj (Prod.mk.inj ((h ω).symm.trans h3)).1
    rw [hv]
    refine hull_eq_zonotope W1 hrow (fun a => v'.X a) (fun a => v'.Y a) hY (fun a => ?_) fun x hx => ?_
    · obtain ⟨z, -, hz'⟩ := hsign a
      exact sign_row_cube ⟨z, hz'⟩
    · by_contra hmiss
      refine hnot (Set.mem_biUnion (hfin.mem_toFinset.mpr hx) ?_)
      change ¬ ∃ a, (v ω).X a = x
      rw [hv]
      exact hmiss
  refine (measureReal_mono hsub (measure_ne_top _ _)).trans ((measureReal_biUnion_finset_le _ _).trans (Finset.sum_le_sum fun x hx => ?_))
  exact (C115_missing hu rng W1 Nsamples maxcount hm w w' v h hlaw (hfin.mem_toFinset.mp hx)).2.le

/-- C115: the bound tends to zero with the number of directions. -/
theorem C115_limit (W1 : Matrix (Fin m) (Fin n) ℝ) (hm : 1 ≤ m) :
    Filter.Tendsto (fun k : ℕ => ∑ᶠ x ∈ signVectors W1, (1 - 2 * (normal n).real (directions W1 x)) ^ k) Filter.atTop (nhds 0) := by
  have hfin := Proofs.SignVectors.finite W1
  simp only [finsum_mem_eq_finite_toFinset_sum _ hfin]
  rw [show (0 : ℝ) = ∑ _x ∈ hfin.toFinset, 0 by simp]
  refine tendsto_finsetSum _ fun x hx => tendsto_pow_atTop_nhds_zero_of_lt_one ?_ ?_
  · rw [← directions_compl W1 x hm]
    exact measureReal_nonneg
  · have := directions_pos (hfin.mem_toFinset.mp hx)
    linarith

/-- C115: the rows of `vertX` are almost surely distinct sign vectors, and their expected number. -/
theorem C115_expected {lib : Model.Domains.Lib} (hu : UniqueOK lib) (rng : Rng S) (W1 : Matrix (Fin m) (Fin n) ℝ) (hrow : ∀ i, ∃ j, W1 i j ≠ 0)
    (Nsamples maxcount : ℕ) (hm : 1 ≤ m) (w w' : Ω → S × Files × Out × E) (v : Ω → Verts m n)
    (h : ∀ ω, (zonotope_vertices lib rng W1 Nsamples maxcount).run (w ω) = (.ok (v ω), w' ω))
    (hlaw : HasLaw (fun ω => draws rng Nsamples n maxcount (w ω).1) (Measure.pi fun _ => normal n) μ) :
    (∀ᵐ ω ∂μ, Function.Injective (fun a => (v ω).X a) ∧ ∀ a, (v ω).X a ∈ signVectors W1) ∧
    ∫ ω, ((v ω).num : ℝ) ∂μ = ∑ᶠ x ∈ signVectors W1, (1 - (1 - 2 * (normal n).real (directions W1 x)) ^ (Nsamples * (maxcount + 2))) := by
  classical
  have hfin := Proofs.SignVectors.finite W1
  have hp := hlaw.isProbabilityMeasure
  have hrows : ∀ᵐ ω ∂μ, Function.Injective (fun a => (v ω).X a) ∧ ∀ a, (v ω).X a ∈ signVectors W1 := by
    filter_upwards [ties hrow hlaw] with ω hω
    have hz : ∀ q ≤ maxcount + 1, ∀ b i, ∑ j, W1 i j * (rng.normal Nsamples n (rounds rng Nsamples n q (w ω).1)).1 b j ≠ 0 :=
      fun q hq b i => hω (⟨q, by omega⟩, b) i
    obtain ⟨h0, -, -⟩ := run_facts hu rng W1 Nsamples maxcount hm (w ω) (w' ω) (v ω) (h ω) hz
    obtain ⟨v', r, N', h3, -, -, -, hinj, -, -, hsign, -, -⟩ := C51_rows hu rng W1 Nsamples maxcount hm (w ω)
    have hv : v ω = v' := Except.ok.inj (Prod.mk.inj ((h ω).symm.trans h3)).1
    rw [← hv] at hinj hsign
    refine ⟨fun a b hab => hinj a b hab (h0 a), fun a => ?_⟩
    obtain ⟨z, -, hz'⟩ := hsign a
    exact row_mem_signVectors ⟨z, hz'⟩ (h0 a)
  refine ⟨hrows, ?_⟩
  rw [finsum_mem_eq_finite_toFinset_sum _ hfin]
  -- the events, with measurable versions
  let A : (Fin m → ℝ) → Set (Fin n → ℝ) := fun x => (directions W1 x ∪ directions W1 (-x))ᶜ
  have hA : ∀ x, MeasurableSet (A x) := fun x => ((measurable_directions W1 x).union (measurable_directions W1 (-x))).compl
  let B : (Fin m → ℝ) → Set Ω := fun x => {ω | ∀ p, draws rng Nsamples n maxcount (w ω).1 p ∈ A x}
  have hB : ∀ x, NullMeasurableSet (B x) μ := fun x => by
    have e : B x = (fun ω => draws rng Nsamples n maxcount (w ω).1) ⁻¹' Set.pi Set.univ fun _ => A x := by
      ext ω
      simp [B]
    rw [e]
    exact hlaw.aemeasurable.nullMeasurableSet_preimage (MeasurableSet.univ_pi fun _ => hA x)
  have hnum : (fun ω => ((v ω).num : ℝ)) =ᵐ[μ] fun ω => ∑ x ∈ hfin.toFinset, (B x)ᶜ.indicator (fun _ => (1 : ℝ)) ω := by
    filter_upwards [ties hrow hlaw, hrows] with ω hω hr
    have e : ∀ x ∈ hfin.toFinset, (B x)ᶜ.indicator (fun _ => (1 : ℝ)) ω = if ∃ a, (v ω).X a = x then 1 else 0 := fun x hx => by
      have := missing_iff hu rng W1 Nsamples maxcount hm (w ω) (w' ω) (v ω) (h ω) hω (hfin.mem_toFinset.mp hx)
      rw [Set.indicator_apply]
      refine if_congr ?_ rfl rfl
      rw [Set.mem_compl_iff]
      change ¬ (∀ p, _) ↔ _
      rw [← this, not_not]
    rw [Finset.sum_congr rfl e, Finset.sum_boole]
    have : (hfin.toFinset.filter fun x => ∃ a, (v ω).X a = x) = Finset.univ.image fun a => (v ω).X a := by
      ext x
      simp only [Finset.mem_filter, hfin.mem_toFinset, Finset.mem_image, Finset.mem_univ, true_and]
      exact ⟨And.right, fun ⟨a, ha⟩ => ⟨ha ▸ hr.2 a, a, ha⟩⟩
    rw [this, Finset.card_image_of_injective _ hr.1, Finset.card_univ, Fintype.card_fin]
  rw [integral_congr_ae hnum, integral_finsetSum (f := fun x ω => (B x)ᶜ.indicator (fun _ => (1 : ℝ)) ω)]
  · refine Finset.sum_congr rfl fun x _ => ?_
    rw [integral_indicator₀ (hB x).compl, setIntegral_const, smul_eq_mul, mul_one, probReal_compl_eq_one_sub₀ (hB x)]
    have h1 := all_in hlaw (hA x)
    rw [directions_compl W1 x hm, Fintype.card_prod, Fintype.card_fin, Fintype.card_fin, mul_comm (maxcount + 2)] at h1
    rw [← h1]
  · intro x _
    exact (integrable_const (1 : ℝ)).indicator₀ (hB x).compl

/-- C115: if the matrix is not in general position the warning comes almost surely, after all draws; in general position the probability of
the warning has the same bound. -/
theorem C115_warning {lib : Model.Domains.Lib} (hu : UniqueOK lib) (rng : Rng S) (W1 : Matrix (Fin m) (Fin n) ℝ) (hrow : ∀ i, ∃ j, W1 i j ≠ 0)
    (Nsamples maxcount : ℕ) (hm : 1 ≤ m) (hn : 1 ≤ n) (w w' : Ω → S × Files × Out × E) (v : Ω → Verts m n)
    (h : ∀ ω, (zonotope_vertices lib rng W1 Nsamples maxcount).run (w ω) = (.ok (v ω), w' ω))
    (hlaw : HasLaw (fun ω => draws rng Nsamples n maxcount (w ω).1) (Measure.pi fun _ => normal n) μ) :
    (¬ GeneralPosition W1 → ∀ᵐ ω ∂μ, (w' ω).2.2.1 ≠ (w ω).2.2.1 ∧ (w' ω).1 = rounds rng Nsamples n (maxcount + 2) (w ω).1) ∧
    (GeneralPosition W1 → μ.real {ω | (w' ω).2.2.1 ≠ (w ω).2.2.1} ≤
      ∑ᶠ x ∈ signVectors W1, (1 - 2 * (normal n).real (directions W1 x)) ^ (Nsamples * (maxcount + 2))) := by
  have hp := hlaw.isProbabilityMeasure
  have hz : ∀ ω, (∀ p i, ∑ j, W1 i j * draws rng Nsamples n maxcount (w ω).1 p j ≠ 0) →
      ∀ q ≤ maxcount + 1, ∀ b i, ∑ j, W1 i j * (rng.normal Nsamples n (rounds rng Nsamples n q (w ω).1)).1 b j ≠ 0 :=
    fun ω hω q hq b i => hω (⟨q, by omega⟩, b) i
  refine ⟨fun hg => ?_, fun hg => ?_⟩
  · filter_upwards [ties hrow hlaw] with ω hω
    obtain ⟨N, -, -, h1, h2⟩ := C91_always_warns hu rng W1 Nsamples maxcount hm (w ω) (w' ω) (v ω) (h ω) (hz ω hω) hg
    refine ⟨?_, h2⟩
    rw [h1]
    simp
  · have hfin := Proofs.SignVectors.finite W1
    rw [finsum_mem_eq_finite_toFinset_sum _ hfin]
    have hsub : ∀ᵐ ω ∂μ, ω ∈ {ω | (w' ω).2.2.1 ≠ (w ω).2.2.1} → ω ∈ ⋃ x ∈ hfin.toFinset, {ω | ¬ ∃ a, (v ω).X a = x} := by
      filter_upwards [ties hrow hlaw] with ω hω hwarn
      by_contra hnot
      refine hwarn ((C91_general_position_partial hu rng W1 Nsamples maxcount hm hn (w ω) (w' ω) (v ω) (h ω) (hz ω hω) hg).mpr ?_)
      refine Set.Subset.antisymm (run_facts hu rng W1 Nsamples maxcount hm (w ω) (w' ω) (v ω) (h ω) (hz ω hω)).2.1 fun y hy => ?_
      obtain ⟨x, hx, rfl⟩ := (extreme_iff W1 hrow y).mp hy
      obtain ⟨v', r, N', h3, -, -, -, -, -, -, -, hY, -⟩ := C51_rows hu rng W1 Nsamples maxcount hm (w ω)
      have hv : v ω = v' := Except.ok.inj (Prod.mk.inj ((h ω).symm.trans h3)).1
      rw [← hv] at hY
      have : ∃ a, (v ω).X a = x := by
        by_contra hmiss
        exact hnot (Set.mem_biUnion (hfin.mem_toFinset.mpr hx) hmiss)
      obtain ⟨a, rfl⟩ := this
      exact ⟨a, funext fun j => (hY a j).trans (Finset.sum_congr rfl fun i _ => mul_comm _ _)⟩
    refine (ENNReal.toReal_mono (measure_ne_top _ _) (measure_mono_ae hsub)).trans
      ((measureReal_biUnion_finset_le _ _).trans (Finset.sum_le_sum fun x hx => ?_))
    exact (C115_missing hu rng W1 Nsamples maxcount hm w w' v h hlaw (hfin.mem_toFinset.mp hx)).2.le

/-- C115: in general position, the probability of more than `q + 1` draws. -/
theorem C115_rounds {lib : Model.Domains.Lib} (hu : UniqueOK lib) (rng : Rng S) (W1 : Matrix (Fin m) (Fin n) ℝ) (hg : GeneralPosition W1)
    (Nsamples maxcount : ℕ) (hm : 1 ≤ m) (w w' : Ω → S × Files × Out × E) (v : Ω → Verts m n)
    (h : ∀ ω, (zonotope_vertices lib rng W1 Nsamples maxcount).run (w ω) = (.ok (v ω), w' ω))
    (hlaw : HasLaw (fun ω => draws rng Nsamples n maxcount (w ω).1) (Measure.pi fun _ => normal n) μ) (q : ℕ) (hq : q ≤ maxcount) :
    μ.real {ω | ¬ ∃ r ≤ q, (w' ω).1 = rounds rng Nsamples n (r + 1) (w ω).1} ≤
      ∑ᶠ x ∈ signVectors W1, (1 - 2 * (normal n).real (directions W1 x)) ^ (Nsamples * (q + 1)) := by
  classical
  have hp := hlaw.isProbabilityMeasure
  have hfin := Proofs.SignVectors.finite W1
  rw [finsum_mem_eq_finite_toFinset_sum _ hfin]
  let s : Finset (Fin (maxcount + 2) × Fin Nsamples) := (Finset.univ.filter fun a : Fin (maxcount + 2) => (a : ℕ) ≤ q) ×ˢ Finset.univ
  have hs : s.card = Nsamples * (q + 1) := by
    have e : (Finset.univ.filter fun a : Fin (maxcount + 2) => (a : ℕ) ≤ q) = Finset.Iic ⟨q, by omega⟩ := by
      ext a
      simp [Fin.le_def]
    rw [Finset.card_product, e, Fin.card_Iic, Finset.card_univ, Fintype.card_fin, mul_comm]
  have hA : ∀ x, MeasurableSet (directions W1 x ∪ directions W1 (-x))ᶜ := fun x =>
    ((measurable_directions W1 x).union (measurable_directions W1 (-x))).compl
  have hsub : {ω | ¬ ∃ r ≤ q, (w' ω).1 = rounds rng Nsamples n (r + 1) (w ω).1} ⊆ ⋃ x ∈ hfin.toFinset,
      {ω | ∀ p ∈ s, draws rng Nsamples n maxcount (w ω).1 p ∈ (directions W1 x ∪ directions W1 (-x))ᶜ} := by
    intro ω hω
    by_contra hnot
    refine hω ?_
    obtain ⟨v', r, N, h3, hN, -, -, -, -, -, -, -, -, hstop⟩ := C51_rows hu rng W1 Nsamples maxcount hm (w ω)
    have hw : (w' ω).1 = rounds rng Nsamples n (r + 1) (w ω).1 := congrArg Prod.fst (Prod.mk.inj ((h ω).symm.trans h3)).2
    refine ⟨r, ?_, hw⟩
    by_contra hlt
    have hlt' := hstop q (by omega) hfin.toFinset fun x hx => ?_
    · have hcard : (signVectors W1).ncard = N := by
        obtain ⟨k, rfl⟩ : ∃ k, m = k + 1 := ⟨m - 1, by omega⟩
        rw [(Proofs.GeneralPosition.ncard_eq_iff W1).mpr hg, hN]
        simp
      rw [Set.ncard_eq_toFinset_card _ hfin] at hcard
      omega
    · have hx' := hfin.mem_toFinset.mp hx
      have : ∃ p ∈ s, draws rng Nsamples n maxcount (w ω).1 p ∈ directions W1 x ∪ directions W1 (-x) := by
        by_contra hno
        push Not at hno
        exact hnot (Set.mem_biUnion hx hno)
      obtain ⟨p, hps, hp'⟩ := this
      have hpq : (p.1 : ℕ) ≤ q := (Finset.mem_filter.mp (Finset.mem_product.mp hps).1).2
      rcases hp' with hp' | hp'
      · exact ⟨p.1, hpq, _, ⟨p.2, .inl fun _ => rfl⟩, (mem_directions hx' _).mp hp'⟩
      · exact ⟨p.1, hpq, _, ⟨p.2, .inr fun _ => rfl⟩, (mem_directions hx' _).mp (mem_directions_neg.mp hp')⟩
  refine (measureReal_mono hsub (measure_ne_top _ _)).trans ((measureReal_biUnion_finset_le _ _).trans (Finset.sum_le_sum fun x hx => ?_))
  rw [all_in_on hlaw (hA x) s, directions_compl W1 x hm, hs]

/-- A generator that reads its numbers from a stream of tables. -/
noncomputable def tapeRng : Rng (ℕ → ℕ → ℕ → ℝ) :=
  ⟨fun s => fun _ _ _ => 0, fun r c s => (Matrix.of fun i j => s 0 i j, fun k => s (k + 1)), fun r c s => (0, s), fun n s => (0, s)⟩

theorem rounds_tape (r c q : ℕ) (s : ℕ → ℕ → ℕ → ℝ) : rounds tapeRng r c q s = fun k => s (k + q) := by
  induction q generalizing s with
  | zero => rfl
  | succ q ih =>
    refine (ih _).trans ?_
    funext k
    change s (k + q + 1) = s (k + (q + 1))
    rfl

/-- The hypotheses are met: the tape holds independent normal numbers. -/
example (Nsamples maxcount : ℕ) (lib : Model.Domains.Lib) (hu : UniqueOK lib) :
    ∃ (μ : Measure (Fin (maxcount + 2) × Fin Nsamples → Fin 2 → ℝ))
      (w w' : (Fin (maxcount + 2) × Fin Nsamples → Fin 2 → ℝ) → (ℕ → ℕ → ℕ → ℝ) × Files × Out × Unit)
      (v : (Fin (maxcount + 2) × Fin Nsamples → Fin 2 → ℝ) → Verts 2 2),
      (∀ ω, (zonotope_vertices lib tapeRng (1 : Matrix (Fin 2) (Fin 2) ℝ) Nsamples maxcount).run (w ω) = (.ok (v ω), w' ω)) ∧
      HasLaw (fun ω => draws tapeRng Nsamples 2 maxcount (w ω).1) (Measure.pi fun _ => normal 2) μ ∧
      (∀ i, ∃ j, (1 : Matrix (Fin 2) (Fin 2) ℝ) i j ≠ 0) ∧ (fun _ => 1) ∈ signVectors (1 : Matrix (Fin 2) (Fin 2) ℝ) := by
  let tape : (Fin (maxcount + 2) × Fin Nsamples → Fin 2 → ℝ) → ℕ → ℕ → ℕ → ℝ := fun ω k i j =>
    if h : k < maxcount + 2 ∧ i < Nsamples ∧ j < 2 then ω (⟨k, h.1⟩, ⟨i, h.2.1⟩) ⟨j, h.2.2⟩ else 0
  have hrun : ∀ ω, ∃ v w', (zonotope_vertices lib tapeRng (1 : Matrix (Fin 2) (Fin 2) ℝ) Nsamples maxcount).run (tape ω, [], [], ()) = (.ok v, w') :=
    fun ω => by
      obtain ⟨v, r, N, h, -⟩ := C51_rows hu tapeRng (1 : Matrix (Fin 2) (Fin 2) ℝ) Nsamples maxcount (by omega) (tape ω, [], [], ())
      exact ⟨v, _, h⟩
  choose v w' h using hrun
  refine ⟨Measure.pi fun _ => normal 2, fun ω => (tape ω, [], [], ()), w', v, h, ?_, fun i => ⟨i, by simp⟩, fun _ => 1, fun i => .inl ?_⟩
  · have e : (fun ω => draws tapeRng Nsamples 2 maxcount (tape ω)) = id := by
      funext ω p j
      simp only [draws, rounds_tape]
      change tape ω (0 + p.1) p.2 j = ω p j
      rw [Nat.zero_add]
      exact dif_pos ⟨p.1.2, p.2.2, j.2⟩
    change HasLaw (fun ω => draws tapeRng Nsamples 2 maxcount (tape ω)) _ _
    rw [e]
    exact HasLaw.id
  · simp [Matrix.one_apply]

end Props
