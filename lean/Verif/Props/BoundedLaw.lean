import Mathlib.Analysis.Convex.Caratheodory
import Verif.Proofs.SampleMean
import Verif.Props.IntegrateLaw
import Verif.Props.RejectionLaw
import Verif.Props.Recovery

/-!
# Properties C113 and C114: random weights on bounded domains
-/

open Py Model.Misc Model.Subspaces Model.QPSolver Model.Domains Model.ResponseSurfaces Model.ActiveSurfaces Model.Quadrature
  Model.Integrals Spec Proofs.Run Proofs.SampleMean MeasureTheory ProbabilityTheory
open scoped ENNReal

namespace Props

variable {S E Ω : Type} {m n k : ℕ} [MeasurableSpace Ω] {μ : Measure Ω}

/-- The uniform distribution on the cube `[-1, 1]^m`. -/
noncomputable def cubeLaw (m : ℕ) : Measure (Fin m → ℝ) := Measure.pi fun _ => (2 : ℝ≥0∞)⁻¹ • volume.restrict (Set.Icc (-1 : ℝ) 1)

instance (m : ℕ) : IsProbabilityMeasure (cubeLaw m) :=
  inferInstanceAs (IsProbabilityMeasure (Measure.pi fun _ : Fin m => Proofs.Accept.unif))

instance (r c : ℕ) : IsProbabilityMeasure (unifMatrix r c) :=
  inferInstanceAs (IsProbabilityMeasure (Measure.pi fun _ : Fin r => cubeLaw c))

theorem cube_ae (m : ℕ) : ∀ᵐ u ∂(cubeLaw m), ∀ j, -1 ≤ u j ∧ u j ≤ 1 := by
  rw [ae_all_iff]
  intro j
  have h1 : ∀ᵐ t ∂Proofs.Accept.unif, -1 ≤ t ∧ t ≤ 1 := by
    refine Measure.ae_smul_measure ?_ _
    exact ae_restrict_mem measurableSet_Icc
  exact (Measure.quasiMeasurePreserving_eval (fun _ : Fin m => Proofs.Accept.unif) j).ae h1

/-! ## The cells of the interval -/

theorem measurable_cell (a b : ℝ) (K i : ℕ) : MeasurableSet (cell a b K i) := by
  unfold cell
  refine MeasurableSet.inter measurableSet_Ici (MeasurableSet.union measurableSet_Iio ?_)
  by_cases h : i + 1 = K
  · simp only [h, true_and]
    exact measurableSet_singleton b
  · simp only [h, false_and]
    exact MeasurableSet.empty

theorem measurable_image (V : Matrix (Fin m) (Fin n) ℝ) : Measurable fun (u : Fin m → ℝ) (j : Fin n) => ∑ i, u i * V i j :=
  measurable_pi_lambda _ fun j => Finset.measurable_sum _ fun i _ => (measurable_pi_apply i).mul_const _

theorem cell_disjoint {a b : ℝ} (hab : a ≤ b) {K : ℕ} {i j : Fin K} (hij : i ≠ j) {t : ℝ} (hi : t ∈ cell a b K i) : t ∉ cell a b K j := by
  intro hj
  have hK : (0 : ℝ) < K := by exact_mod_cast (Nat.zero_le _).trans_lt i.2
  have hh : 0 ≤ (b - a) / K := div_nonneg (by linarith) hK.le
  have key : ∀ p q : Fin K, (p : ℕ) < q → t ∈ cell a b K p → t ∈ cell a b K q → False := by
    intro p q hpq hp hq
    have h1 : ((p : ℕ) : ℝ) + 1 ≤ (q : ℕ) := by exact_mod_cast hpq
    have h2 := mul_le_mul_of_nonneg_right h1 hh
    rcases hp.2 with h | h
    · linarith [hq.1]
    · have := q.2
      omega
  rcases lt_or_gt_of_ne fun h : (i : ℕ) = j => hij (Fin.ext h) with h | h
  · exact key i j h hi hj
  · exact key j i h hj hi

theorem exists_cell {a b : ℝ} {K : ℕ} (hK : 0 < K) {t : ℝ} (ha : a ≤ t) (hb : t ≤ b) : ∃ i : Fin K, t ∈ cell a b K i := by
  have hK' : (0 : ℝ) < K := by exact_mod_cast hK
  rcases hb.eq_or_lt with rfl | hb
  · refine ⟨⟨K - 1, by omega⟩, ?_, .inr ⟨by simp; omega, rfl⟩⟩
    have h1 : ((K - 1 : ℕ) : ℝ) ≤ K := by exact_mod_cast Nat.sub_le _ _
    have h2 : 0 ≤ (t - a) / K := div_nonneg (by linarith) hK'.le
    have h3 := mul_le_mul_of_nonneg_right h1 h2
    rw [mul_div_cancel₀ _ hK'.ne'] at h3
    change a + ((K - 1 : ℕ) : ℝ) * _ ≤ t
    linarith
  · have hh : 0 < (b - a) / K := div_pos (by linarith) hK'
    have h0 : 0 ≤ (t - a) / ((b - a) / K) := div_nonneg (by linarith) hh.le
    have h1 : (⌊(t - a) / ((b - a) / K)⌋₊ : ℝ) ≤ (t - a) / ((b - a) / K) := Nat.floor_le h0
    have h2 := Nat.lt_floor_add_one ((t - a) / ((b - a) / K))
    rw [le_div_iff₀ hh] at h1
    rw [div_lt_iff₀ hh] at h2
    have h3 : ⌊(t - a) / ((b - a) / K)⌋₊ < K := by
      rw [Nat.floor_lt h0, div_lt_iff₀ hh, mul_div_cancel₀ _ hK'.ne']
      linarith
    exact ⟨⟨_, h3⟩, by change a + (_ : ℝ) * _ ≤ t; linarith, .inl (by change t < a + ((_ : ℝ) + 1) * _; linarith)⟩

/-! ## C113: the weights -/

open Classical in
/-- C113: with independent uniform samples the weights of the interval rule are unbiased: the mean of each is the probability that a uniform
point of the cube is mapped to the cell, the variance is that of a frequency, and large errors are improbable.  The nodes are not random. -/
theorem C113_interval {rng : Rng S} {b : Boundary} {V : Matrix (Fin m) (Fin 1) ℝ} {N : ℤ} {NX : ℕ} (hNX : 1 ≤ NX) {s : Ω → S} {F : E}
    (hU : HasLaw (fun ω i j => (rng.uniform NX m (s ω)).1 i j) (unifMatrix NX m) μ) {r : Ω → Rule}
    (hr : ∀ ω, ∃ w', (interval_quadrature_rule rng b (NpMat.of V) N NX).run (s ω, F) = (.ok (r ω), w')) :
    ∃ (lo hi : ℝ) (x : Matrix (Fin N.toNat) (Fin 1) ℝ), (NpMat.of b.verts.Y).item 0 0 = .ok lo ∧ (NpMat.of b.verts.Y).item 1 0 = .ok hi ∧
      (∀ ω, (r ω).x = NpMat.of x) ∧ ∀ i : Fin N.toNat, ∀ p, p = (cubeLaw m).real {u | ∑ j, u j * V j 0 ∈ cell lo hi N.toNat i} →
        ∫ ω, (r ω).w.get i 0 ∂μ = p ∧ Var[fun ω => (r ω).w.get i 0; μ] = p * (1 - p) / NX ∧
        ∀ ε, 0 < ε → μ.real {ω | ε ≤ |(r ω).w.get i 0 - p|} ≤ 1 / (4 * NX * ε ^ 2) := by
  have : IsProbabilityMeasure μ := hU.isProbabilityMeasure
  obtain ⟨ω0⟩ := nonempty_of_isProbabilityMeasure μ
  obtain ⟨w0, h0⟩ := hr ω0
  obtain ⟨K, lo, hi, x, wt0, hK, -, hlo, hhi, -, -, -, hx⟩ := C59_interval h0
  obtain rfl : N.toNat = K := by omega
  have key : ∀ ω, (r ω).x = NpMat.of (Matrix.of fun i (_ : Fin 1) => x i) ∧ ∀ i : Fin N.toNat, (r ω).w.get i 0
      = ((Finset.univ.filter fun t : Fin NX => (fun j => (rng.uniform NX m (s ω)).1 t j) ∈ {u | ∑ j, u j * V j 0 ∈ cell lo hi N.toNat i}).card : ℝ)
        / NX := by
    intro ω
    obtain ⟨w1, h1⟩ := hr ω
    obtain ⟨K', lo', hi', x', wt, hK', -, hlo', hhi', ex, ew, -, hx'⟩ := C59_interval h1
    obtain rfl : N.toNat = K' := by omega
    obtain rfl := Except.ok.inj (hlo.symm.trans hlo')
    obtain rfl := Except.ok.inj (hhi.symm.trans hhi')
    refine ⟨?_, fun i => ?_⟩
    · rw [ex]
      congr 2
      funext i _
      rw [(hx i).1, (hx' i).1]
    · rw [ew]
      exact (NpMat.get_of _ i 0).trans (hx' i).2
  refine ⟨lo, hi, _, hlo, hhi, fun ω => (key ω).1, fun i p hp => ?_⟩
  have hA : MeasurableSet {u : Fin m → ℝ | ∑ j, u j * V j 0 ∈ cell lo hi N.toNat i} :=
    ((measurable_pi_apply (0 : Fin 1)).comp (measurable_image V)) (measurable_cell lo hi N.toNat i)
  subst hp
  exact frequency (ν := cubeLaw m) hU hNX hA fun ω => (key ω).2 i

open Classical in
/-- C113: the same for the zonotope rule, for every simplex whose `find_simplex` region is measurable.  The triangulation is not random: the
design comes from a generator with a fixed seed. -/
theorem C113_zonotope {lib : Model.Integrals.Lib} {rng : Rng S} {b : Boundary} {V : Matrix (Fin m) (Fin b.n) ℝ} {N : ℤ} {NX : ℕ} (hNX : 1 ≤ NX)
    {s : Ω → S} {F : E} (hU : HasLaw (fun ω i j => (rng.uniform NX m (s ω)).1 i j) (unifMatrix NX m) μ) {r : Ω → Rule}
    (hr : ∀ ω, ∃ w', (zonotope_quadrature_rule lib rng b (NpMat.of V) N NX).run (s ω, F) = (.ok (r ω), w')) :
    ∃ (D : Matrix (Fin N.toNat) (Fin b.n) ℝ) (Tr : Tri (b.verts.num + N.toNat) b.n), lib.delaunay (Np.vstack b.verts.Y D) = .ok Tr ∧
      (∀ ω, (r ω).x.rows = Tr.nsimplex ∧ ∀ (t : Fin Tr.nsimplex) (j : Fin b.n),
        (r ω).x.get t j = (∑ i, Np.vstack b.verts.Y D (Tr.simplices t i) j) / (b.n + 1)) ∧
      (∀ ω (t : Fin Tr.nsimplex), (r ω).w.get t 0 = ((Finset.univ.filter fun i : Fin NX =>
        Tr.find_simplex (fun j => ∑ l, (rng.uniform NX m (s ω)).1 i l * V l j) = some t).card : ℝ) / NX) ∧
      ∀ t : Fin Tr.nsimplex, MeasurableSet {y | Tr.find_simplex y = some t} →
        ∀ p, p = (cubeLaw m).real {u | Tr.find_simplex (fun j => ∑ i, u i * V i j) = some t} →
        ∫ ω, (r ω).w.get t 0 ∂μ = p ∧ Var[fun ω => (r ω).w.get t 0; μ] = p * (1 - p) / NX ∧
        ∀ ε, 0 < ε → μ.real {ω | ε ≤ |(r ω).w.get t 0 - p|} ≤ 1 / (4 * NX * ε ^ 2) := by
  have : IsProbabilityMeasure μ := hU.isProbabilityMeasure
  obtain ⟨ω0⟩ := nonempty_of_isProbabilityMeasure μ
  obtain ⟨w0, h0⟩ := hr ω0
  obtain ⟨K, D, w1, Tr, -, hK, hD, -, hTr, -⟩ := C58_zonotope hNX h0
  obtain rfl : N.toNat = K := by omega
  have key : ∀ ω, ((r ω).x.rows = Tr.nsimplex ∧ ∀ (t : Fin Tr.nsimplex) (j : Fin b.n),
        (r ω).x.get t j = (∑ i, Np.vstack b.verts.Y D (Tr.simplices t i) j) / (b.n + 1)) ∧
      ∀ t : Fin Tr.nsimplex, (r ω).w.get t 0 = ((Finset.univ.filter fun i : Fin NX =>
        Tr.find_simplex (fun j => ∑ l, (rng.uniform NX m (s ω)).1 i l * V l j) = some t).card : ℝ) / NX := by
    intro ω
    obtain ⟨w2, h2⟩ := hr ω
    obtain ⟨K', D', w3, Tr', pt, hK', hD', e3, hTr', -, hpt, hrows, -, hx, hw, -⟩ := C58_zonotope hNX h2
    obtain rfl : N.toNat = K' := by omega
    have e1 : D' = D := by
      have := C18_maximin_reproducible lib.base.des rng b.verts.Y N.toNat (s ω, F) (s ω0, F)
      rw [hD, hD'] at this
      exact Except.ok.inj this
    subst e1 e3
    obtain rfl := Except.ok.inj (hTr.symm.trans hTr')
    refine ⟨⟨hrows, hx⟩, fun t => ?_⟩
    rw [hw]
    have : ∀ i, pt i = fun j => ∑ l, (rng.uniform NX m (s ω)).1 i l * V l j := fun i => funext fun j => hpt i j j rfl
    simp only [this]
  refine ⟨D, Tr, hTr, fun ω => (key ω).1, fun ω => (key ω).2, fun t ht p hp => ?_⟩
  subst hp
  have hA : MeasurableSet {u : Fin m → ℝ | Tr.find_simplex (fun j => ∑ i, u i * V i j) = some t} := (measurable_image V) ht
  exact frequency (ν := cubeLaw m) hU hNX hA fun ω => ((key ω).2 t).trans (by congr!)

/-! ## C114: the integral over the active variables -/

theorem av_fn_inv {a : AVMap S E} {V1 : Matrix (Fin (n + k)) (Fin n) ℝ} {V2 : Matrix (Fin (n + k)) (Fin k) ℝ} (h : Split a.subspaces V1 V2)
    (hdom : ∀ b, a.dom = .bounded b → b.n = n) {lib : Model.Integrals.Lib} {rng : Rng S} {N : ℤ} {w w' : S × Files × E} {mu : ℝ}
    {g : (m : ℕ) → (Fin m → ℝ) → ℝ} (hr : (av_integrate lib rng (.fn fun m y => pure (g m y)) (some a) (.int N)).run w = (.ok mu, w')) :
    ∃ r w0, (av_quadrature_rule lib rng a N).run w = (.ok r, w0) ∧ mu = ∑ i : Fin r.x.rows, r.w.get i 0 * g n fun j => r.x.get i j := by
  obtain ⟨G, Yp, Yw, v, w0, h1, h2, h3⟩ := (C57_av_integrate h hdom lib rng N w w' mu).1 _ hr
  refine ⟨_, w0, h1, h3.trans ?_⟩
  have h4 := calls_values (F := g n) (fun x st => ⟨st, rfl⟩) h2
  rw [Np.rows, List.map_map, ← List.ofFn_eq_map] at h4
  have h5 := List.ofFn_injective h4
  refine Finset.sum_congr rfl fun i _ => ?_
  have e1 : (NpMat.of (Matrix.of fun i (_ : Fin 1) => Yw i)).get i 0 = Yw i := NpMat.get_of _ i 0
  have e2 : (fun j : Fin n => (NpMat.of Yp).get i j) = Yp i := funext fun j => NpMat.get_of Yp i j
  refine Eq.trans ?_ (congrArg₂ (fun x y => x * g n y) e1 e2).symm
  rw [h5]
  rfl

/-- C114: `av_integrate` on the interval that is the image of the cube, with `N` nodes and 10000 independent uniform samples, of a function `g`
with Lipschitz constant `L` on the interval `[-R, R]`: the result has finite second moment, the mean of the result differs from the mean of `g(W1ᵀ x)` over the cube by at most
`L R / N`, and the mean square error is at most `(L R / N)² + (L R)² / 10000`. -/
theorem C114_interval {a : AVMap S E} {V : Matrix (Fin (1 + k)) (Fin 1) ℝ} {V2 : Matrix (Fin (1 + k)) (Fin k) ℝ} (h : Split a.subspaces V V2)
    {X : Matrix (Fin 2) (Fin (1 + k)) ℝ} (hdom : a.dom = .bounded ⟨1 + k, 1, ⟨2, (interval_endpoints V).1, X⟩, none, none⟩)
    {lib : Model.Integrals.Lib} {rng : Rng S} {N : ℤ} (hN : 1 ≤ N) {s : Ω → S} {F : Files × E}
    (hU : HasLaw (fun ω i j => (rng.uniform 10000 (1 + k) (s ω)).1 i j) (unifMatrix 10000 (1 + k)) μ) {g : (m : ℕ) → (Fin m → ℝ) → ℝ}
    (hg : Measurable (g 1)) {L R : ℝ} (hR : R = ∑ i, |V i 0|)
    (hL : ∀ y y' : Fin 1 → ℝ, |y 0| ≤ R → |y' 0| ≤ R → |g 1 y - g 1 y'| ≤ L * |y 0 - y' 0|) {mu : Ω → ℝ}
    (hmu : ∀ ω, ∃ w', (av_integrate lib rng (.fn fun m y => pure (g m y)) (some a) (.int N)).run (s ω, F) = (.ok (mu ω), w'))
    {I : ℝ} (hI : I = ∫ x, g 1 (fun j => ∑ i, V i j * x i) ∂(cubeLaw (1 + k))) :
    MemLp mu 2 μ ∧ |∫ ω, mu ω ∂μ - I| ≤ L * R / N ∧ ∫ ω, (mu ω - I) ^ 2 ∂μ ≤ (L * R / N) ^ 2 + (L * R) ^ 2 / 10000 := by
  classical
  have hR0 : 0 ≤ R := by rw [hR]; exact Finset.sum_nonneg fun i _ => abs_nonneg _
  have hL0 : R ≠ 0 → 0 ≤ L := fun hne => by
    have hRp : 0 < R := lt_of_le_of_ne hR0 (Ne.symm hne)
    have := hL (fun _ => R) (fun _ => 0) (by rw [abs_of_pos hRp]) (by simpa using hR0)
    have h1 := (abs_nonneg _).trans this
    rw [sub_zero, abs_of_pos hRp] at h1
    exact nonneg_of_mul_nonneg_left h1 hRp
  set K := N.toNat with hKdef
  have hKN : ((K : ℕ) : ℝ) = (N : ℝ) := by
    have : ((K : ℕ) : ℤ) = N := by omega
    exact_mod_cast this
  have hK : 0 < K := by omega
  have hK' : (0 : ℝ) < K := by exact_mod_cast hK
  have e1 : (interval_endpoints V).1 0 0 = -R := by rw [interval_eq, hR]; rfl
  have e2 : (interval_endpoints V).1 1 0 = R := by rw [interval_eq, hR]; rfl
  have i0 : (NpMat.of (interval_endpoints V).1).item 0 0 = .ok (-R) :=
    (by simp [NpMat.item, NpMat.get, NpMat.of] : _ = Except.ok _).trans (congrArg Except.ok e1)
  have i1 : (NpMat.of (interval_endpoints V).1).item 1 0 = .ok R :=
    (by simp [NpMat.item, NpMat.get, NpMat.of] : _ = Except.ok _).trans (congrArg Except.ok e2)
  -- the result in terms of the samples
  let x : Fin K → ℝ := fun i => ((-R + (i : ℕ) * ((R - -R) / K)) + (-R + ((i : ℕ) + 1) * ((R - -R) / K))) / 2
  let A : Fin K → Set (Fin (1 + k) → ℝ) := fun i => {u | ∑ j, u j * V j 0 ∈ cell (-R) R K i}
  have hq : ∀ ω, mu ω = ∑ i : Fin K, ((Finset.univ.filter fun t : Fin 10000 => (fun j => (rng.uniform 10000 (1 + k) (s ω)).1 t j) ∈ A i).card : ℝ)
      / (10000 : ℕ) * g 1 fun _ => x i := by
    intro ω
    obtain ⟨w', h1⟩ := hmu ω
    obtain ⟨r, w0, h2, h3⟩ := av_fn_inv h (fun b hb => by rw [hdom] at hb; cases hb; rfl) h1
    have h4 : (av_quadrature_rule lib rng a N).run (s ω, F) = (interval_quadrature_rule rng
        ⟨1 + k, 1, ⟨2, (interval_endpoints V).1, X⟩, none, none⟩ (NpMat.of V) N 10000).run (s ω, F) := by
      unfold av_quadrature_rule
      rw [h.w1, hdom]
      rfl
    rw [h4] at h2
    obtain ⟨K', lo, hi, x', wt, hK1, -, hlo, hhi, ex, ew, -, hx⟩ := C59_interval h2
    obtain rfl : K = K' := by omega
    obtain rfl := Except.ok.inj (i0.symm.trans hlo)
    obtain rfl := Except.ok.inj (i1.symm.trans hhi)
    obtain ⟨rx, rw'⟩ := r
    change rx = _ at ex
    change rw' = _ at ew
    subst ex ew
    rw [h3]
    refine Finset.sum_congr (s₁ := (Finset.univ : Finset (Fin K))) rfl fun i _ => ?_
    have e3 : (NpMat.of (Matrix.of fun i (_ : Fin 1) => wt i)).get i 0 = wt i := NpMat.get_of _ i 0
    have e4 : (fun j : Fin 1 => (NpMat.of (Matrix.of fun i (_ : Fin 1) => x' i)).get i j) = fun _ => x i := funext fun j =>
      (NpMat.get_of (Matrix.of fun i (_ : Fin 1) => x' i) i j).trans (hx i).1
    refine (congrArg₂ (fun p q => p * g 1 q) e3 e4).trans ?_
    beta_reduce
    rw [(hx i).2]
    rfl
  have hA : ∀ i, MeasurableSet (A i) := fun i =>
    ((measurable_pi_apply (0 : Fin 1)).comp (measurable_image V)) (measurable_cell (-R) R K i)
  have hxR : ∀ i, |x i| ≤ R := by
    intro i
    have h1 : ((i : ℕ) : ℝ) + 1 ≤ K := by exact_mod_cast i.2
    have h2 : (0 : ℝ) ≤ (i : ℕ) := Nat.cast_nonneg _
    have hh : 0 ≤ (R - -R) / K := div_nonneg (by linarith) hK'.le
    have h3 := mul_le_mul_of_nonneg_right h1 hh
    rw [mul_div_cancel₀ _ hK'.ne'] at h3
    have h4 := mul_nonneg h2 hh
    rw [abs_le]
    simp only [x]
    constructor <;> linarith
  have hIm : ∀ u : Fin (1 + k) → ℝ, (fun j => ∑ i, V i j * u i) = fun _ : Fin 1 => ∑ i, u i * V i 0 := fun u => by
    funext j
    rw [Subsingleton.elim j 0]
    exact Finset.sum_congr rfl fun i _ => mul_comm _ _
  have hF : Measurable fun u : Fin (1 + k) → ℝ => g 1 fun j => ∑ i, V i j * u i := by
    have : (fun u : Fin (1 + k) → ℝ => g 1 fun j => ∑ i, V i j * u i) = fun u => g 1 fun j => ∑ i, u i * V i j := by
      funext u
      simp only [mul_comm]
    rw [this]
    exact hg.comp (measurable_image V)
  have hcov : ∀ᵐ u ∂(cubeLaw (1 + k)), ∃ i, u ∈ A i ∧ |(g 1 fun _ => x i) - g 1 fun j => ∑ i, V i j * u i| ≤ L * R / N := by
    filter_upwards [cube_ae (1 + k)] with u hu
    have hb : |∑ i, u i * V i 0| ≤ R := by
      rw [hR]
      refine (Finset.abs_sum_le_sum_abs _ _).trans (Finset.sum_le_sum fun i _ => ?_)
      rw [abs_mul]
      exact mul_le_of_le_one_left (abs_nonneg _) (abs_le.mpr (hu i))
    obtain ⟨i, hi⟩ := exists_cell hK (abs_le.mp hb).1 (abs_le.mp hb).2
    refine ⟨i, hi, ?_⟩
    rw [hIm]
    refine (hL _ _ (hxR i) hb).trans ?_
    have hd : |x i - ∑ i, u i * V i 0| ≤ R / K := by
      have h2 : ∑ i, u i * V i 0 ≤ -R + ((i : ℕ) + 1) * ((R - -R) / K) := by
        rcases hi.2 with h5 | ⟨h5, h6⟩
        · exact h5.le
        · have : ((i : ℕ) : ℝ) + 1 = K := by exact_mod_cast h5
          rw [this, mul_div_cancel₀ _ hK'.ne', h6]
          linarith
      have h3 := hi.1
      have h4 : (R - -R) / K = 2 * (R / K) := by ring
      rw [h4] at h2 h3
      rw [abs_le]
      simp only [x, h4]
      constructor <;> linarith
    by_cases h0 : R = 0
    · have : |x i - ∑ i, u i * V i 0| = 0 := le_antisymm (by rw [h0] at hd; simpa using hd) (abs_nonneg _)
      rw [this, h0]
      simp
    · refine (mul_le_mul_of_nonneg_left hd (hL0 h0)).trans_eq ?_
      rw [hKN, mul_div_assoc]
  have hB : ∀ i, |(g 1 fun _ => x i) - g 1 fun _ => 0| ≤ L * R := by
    intro i
    refine (hL _ _ (hxR i) (by simpa using hR0)).trans ?_
    by_cases h0 : R = 0
    · have : |x i - 0| = 0 := le_antisymm (by have := hxR i; rw [h0] at this; simpa using this) (abs_nonneg _)
      rw [this, h0]
    · rw [sub_zero]
      exact mul_le_mul_of_nonneg_left (hxR i) (hL0 h0)
  have := cells (ν := cubeLaw (1 + k)) hU (by norm_num : 0 < 10000) hA (fun i j hij u hu => cell_disjoint (by linarith) hij hu) hF.aemeasurable hcov
    hB hq
  rw [hI]
  simpa using this

/-- What `Delaunay` is expected to do: a point found in a simplex is in it, a point of the convex hull of the data is found, and the set of the
points found in a simplex is measurable. -/
structure TriOK {P n : ℕ} (Y : Matrix (Fin P) (Fin n) ℝ) (Tr : Tri P n) : Prop where
  sound : ∀ y t, Tr.find_simplex y = some t → y ∈ convexHull ℝ (Set.range fun i => (fun j => Y (Tr.simplices t i) j : Fin n → ℝ))
  complete : ∀ y ∈ convexHull ℝ (Set.range fun i => (fun j => Y i j : Fin n → ℝ)), Tr.find_simplex y ≠ none
  measurable : ∀ t, MeasurableSet {y | Tr.find_simplex y = some t}

theorem centroid_mem {P n : ℕ} (Y : Matrix (Fin P) (Fin n) ℝ) (t : Fin (n + 1) → Fin P) :
    (fun j => (∑ i, Y (t i) j) / (n + 1) : Fin n → ℝ) ∈ convexHull ℝ (Set.range fun i => (fun j => Y (t i) j : Fin n → ℝ)) := by
  have e : (fun j => (∑ i, Y (t i) j) / (n + 1) : Fin n → ℝ) = ∑ i : Fin (n + 1), ((n + 1 : ℝ)⁻¹) • (fun j => Y (t i) j : Fin n → ℝ) := by
    funext j
    rw [Finset.sum_apply]
    simp only [Pi.smul_apply, smul_eq_mul]
    rw [← Finset.mul_sum, inv_mul_eq_div]
  rw [e]
  refine (convex_convexHull ℝ _).sum_mem (fun i _ => by positivity) ?_ fun i _ => subset_convexHull ℝ _ ⟨i, rfl⟩
  rw [Finset.sum_const, Finset.card_univ, Fintype.card_fin, nsmul_eq_mul]
  push_cast
  exact mul_inv_cancel₀ (by positivity)

/-- C114: `av_integrate` on a zonotope whose vertices were all found, with a correct triangulation whose simplices have diameter at most `d`
(in the maximum norm), of a function with Lipschitz constant `L` that differs from `c` by at most `B`: the mean of the result differs from the
mean of `g(W1ᵀ x)` over the cube by at most `L d`, and the mean square error is at most `(L d)² + B² / 10000`. -/
theorem C114_zonotope {a : AVMap S E} {b : Boundary} {V : Matrix (Fin (b.n + k)) (Fin b.n) ℝ} {V2 : Matrix (Fin (b.n + k)) (Fin k) ℝ}
    (h : Split a.subspaces V V2) (hdom : a.dom = .bounded b) (hn : b.n ≠ 1)
    (hz : zonotope V ⊆ convexHull ℝ (Set.range fun i => (fun j => b.verts.Y i j : Fin b.n → ℝ)))
    {lib : Model.Integrals.Lib} {rng : Rng S} {N : ℤ} {s : Ω → S} {F : Files × E}
    (hTri : ∀ (D : Matrix (Fin N.toNat) (Fin b.n) ℝ) Tr, lib.delaunay (Np.vstack b.verts.Y D) = .ok Tr → TriOK (Np.vstack b.verts.Y D) Tr)
    (hU : HasLaw (fun ω i j => (rng.uniform 10000 (b.n + k) (s ω)).1 i j) (unifMatrix 10000 (b.n + k)) μ) {g : (m : ℕ) → (Fin m → ℝ) → ℝ}
    {L c B : ℝ} (hL0 : 0 ≤ L) (hL : ∀ y y' : Fin b.n → ℝ, |g b.n y - g b.n y'| ≤ L * dist y y') (hB : ∀ y, |g b.n y - c| ≤ B) {mu : Ω → ℝ}
    (hmu : ∀ ω, ∃ w', (av_integrate lib rng (.fn fun m y => pure (g m y)) (some a) (.int N)).run (s ω, F) = (.ok (mu ω), w'))
    {I : ℝ} (hI : I = ∫ x, g b.n (fun j => ∑ i, V i j * x i) ∂(cubeLaw (b.n + k))) :
    ∃ (D : Matrix (Fin N.toNat) (Fin b.n) ℝ) (Tr : Tri (b.verts.num + N.toNat) b.n), lib.delaunay (Np.vstack b.verts.Y D) = .ok Tr ∧
      ∀ d, (∀ t i i', dist (fun j => Np.vstack b.verts.Y D (Tr.simplices t i) j) (fun j => Np.vstack b.verts.Y D (Tr.simplices t i') j) ≤ d) →
        MemLp mu 2 μ ∧ |∫ ω, mu ω ∂μ - I| ≤ L * d ∧ ∫ ω, (mu ω - I) ^ 2 ∂μ ≤ (L * d) ^ 2 + B ^ 2 / 10000 := by
  classical
  have hrule : ∀ ω, ∃ r w0, (zonotope_quadrature_rule lib rng b (NpMat.of V) N 10000).run (s ω, F) = (.ok r, w0) ∧
      mu ω = ∑ i : Fin r.x.rows, r.w.get i 0 * g b.n fun j => r.x.get i j := by
    intro ω
    obtain ⟨w', h1⟩ := hmu ω
    obtain ⟨r, w0, h2, h3⟩ := av_fn_inv h (fun b' hb => by rw [hdom] at hb; cases hb; rfl) h1
    have h4 : (av_quadrature_rule lib rng a N).run (s ω, F) = (zonotope_quadrature_rule lib rng b (NpMat.of V) N 10000).run (s ω, F) := by
      unfold av_quadrature_rule
      rw [h.w1, hdom]
      dsimp only
      rw [if_neg (by exact hn)]
    exact ⟨r, w0, h4 ▸ h2, h3⟩
  choose r w0 hr1 hr2 using hrule
  obtain ⟨D, Tr, hTr, hx, hw, -⟩ := C113_zonotope (by norm_num) hU fun ω => ⟨w0 ω, hr1 ω⟩
  have hok := hTri D Tr hTr
  refine ⟨D, Tr, hTr, fun d hd => ?_⟩
  let A : Fin Tr.nsimplex → Set (Fin (b.n + k) → ℝ) := fun t => {u | Tr.find_simplex (fun j => ∑ i, u i * V i j) = some t}
  let x : Fin Tr.nsimplex → Fin b.n → ℝ := fun t j => (∑ i, Np.vstack b.verts.Y D (Tr.simplices t i) j) / (b.n + 1)
  have hq : ∀ ω, mu ω = ∑ t, ((Finset.univ.filter fun i : Fin 10000 => (fun j => (rng.uniform 10000 (b.n + k) (s ω)).1 i j) ∈ A t).card : ℝ)
      / (10000 : ℕ) * g b.n (x t) := by
    intro ω
    rw [hr2 ω]
    have e : ∀ R, R = Tr.nsimplex → ∑ i : Fin R, (r ω).w.get i 0 * g b.n (fun j => (r ω).x.get i j)
        = ∑ t : Fin Tr.nsimplex, (r ω).w.get t 0 * g b.n (fun j => (r ω).x.get t j) := by
      rintro R rfl
      rfl
    rw [e _ (hx ω).1]
    refine Finset.sum_congr rfl fun t _ => ?_
    rw [hw ω t, show (fun j : Fin b.n => (r ω).x.get t j) = x t from funext fun j => (hx ω).2 t j]
    congr 3
  have hIm : ∀ u : Fin (b.n + k) → ℝ, (fun j => ∑ i, V i j * u i) = fun j => ∑ i, u i * V i j := fun u => by
    simp only [mul_comm]
  have hg : Continuous (g b.n) := by
    have : LipschitzWith ⟨L, hL0⟩ (g b.n) := LipschitzWith.of_dist_le_mul fun y y' => hL y y'
    exact this.continuous
  have hF : Measurable fun u : Fin (b.n + k) → ℝ => g b.n fun j => ∑ i, V i j * u i := by
    simp only [hIm]
    exact hg.measurable.comp (measurable_image V)
  have hcov : ∀ᵐ u ∂(cubeLaw (b.n + k)), ∃ t, u ∈ A t ∧ |g b.n (x t) - g b.n fun j => ∑ i, V i j * u i| ≤ L * d := by
    filter_upwards [cube_ae (b.n + k)] with u hu
    have h1 : (fun j => ∑ i, u i * V i j) ∈ convexHull ℝ (Set.range fun i => (fun j => Np.vstack b.verts.Y D i j : Fin b.n → ℝ)) := by
      refine convexHull_mono ?_ (hz ⟨u, fun i => hu i, fun j => (congrFun (hIm u) j).symm⟩)
      rintro _ ⟨i, rfl⟩
      refine ⟨Fin.castAdd _ i, ?_⟩
      funext j
      simp
    obtain ⟨t, ht⟩ := Option.ne_none_iff_exists'.mp (hok.complete _ h1)
    refine ⟨t, ht, ?_⟩
    rw [hIm]
    refine (hL _ _).trans (mul_le_mul_of_nonneg_left ?_ hL0)
    obtain ⟨_, ⟨i, rfl⟩, _, ⟨i', rfl⟩, h2⟩ := convexHull_exists_dist_ge2 (centroid_mem (Np.vstack b.verts.Y D) (Tr.simplices t)) (hok.sound _ t ht)
    exact h2.trans (hd t i i')
  have hA : ∀ t, MeasurableSet (A t) := fun t => (measurable_image V) (hok.measurable t)
  have hdis : ∀ i j, i ≠ j → ∀ u, u ∈ A i → u ∉ A j := fun i j hij u hu hu' => hij (Option.some.inj (Eq.trans (Eq.symm hu) hu'))
  have := cells (ν := cubeLaw (b.n + k)) hU (by norm_num : 0 < 10000) hA hdis hF.aemeasurable hcov (fun t => hB (x t))
    (q := mu) fun ω => by
      rw [hq]
      refine Finset.sum_congr rfl fun t _ => ?_
      congr!
  rw [hI]
  simpa using this

/-! ## Examples -/

/-- A generator whose state is the matrix of uniform numbers that it returns. -/
noncomputable def drawRng (r c : ℕ) : Rng (Fin r → Fin c → ℝ) where
  seeded _ := 0
  normal _ _ s := (0, s)
  uniform r' c' s := (Matrix.of fun i j => if h : (i : ℕ) < r ∧ (j : ℕ) < c then s ⟨i, h.1⟩ ⟨j, h.2⟩ else 0, s)
  randint _ s := (0, s)

theorem drawRng_law (r c : ℕ) : HasLaw (fun s i j => ((drawRng r c).uniform r c s).1 i j) (unifMatrix r c) (unifMatrix r c) := by
  have e : (fun (s : Fin r → Fin c → ℝ) (i : Fin r) (j : Fin c) => ((drawRng r c).uniform r c s).1 i j) = id := by
    funext s i j
    change (if h : (i : ℕ) < r ∧ (j : ℕ) < c then s ⟨i, h.1⟩ ⟨j, h.2⟩ else 0) = s i j
    rw [dif_pos ⟨i.2, j.2⟩]
  rw [e]
  exact HasLaw.id

theorem av_fn_returns {a : AVMap S E} {V1 : Matrix (Fin (n + k)) (Fin n) ℝ} {V2 : Matrix (Fin (n + k)) (Fin k) ℝ} (h : Split a.subspaces V1 V2)
    (hdom : ∀ b, a.dom = .bounded b → b.n = n) {lib : Model.Integrals.Lib} {rng : Rng S} {N : ℤ} {w w' : S × Files × E} {r : Rule}
    (g : (m : ℕ) → (Fin m → ℝ) → ℝ) (hr : (av_quadrature_rule lib rng a N).run w = (.ok r, w')) :
    ∃ mu, (av_integrate lib rng (.fn fun m y => pure (g m y)) (some a) (.int N)).run w = (.ok mu, w') := by
  obtain ⟨e1, e2, e3⟩ := av_rule_shape lib rng a _ h.w1 hdom N _ _ _ hr
  obtain ⟨⟨G, c, Yp⟩, ⟨G', c', Yw⟩⟩ := r
  change c = n at e1
  change G' = G at e2
  change c' = 1 at e3
  subst e1 e2 e3
  obtain ⟨Fv, h1, -⟩ := C07_pure g Yp w'
  unfold av_integrate
  dsimp only
  rw [PyM.run_bind_ok hr]
  have h2 : (NpMat.of Yw).transpose.dot (NpMat.of Fv) = .ok (NpMat.of (Yw.transpose * Fv)) := by
    rw [NpMat.transpose_of, dot_of]
  refine ⟨(NpMat.of (Yw.transpose * Fv)).get 0 0, ?_⟩
  refine (PyM.run_bind_ok h1).trans ?_
  have h3 : (PyM.lift ((NpMat.of Yw).transpose.dot (NpMat.of Fv)) : PyM (S × Files × E) NpMat).run w' = (.ok (NpMat.of (Yw.transpose * Fv)), w') := by
    rw [h2]
    exact PyM.run_lift _ _
  exact (PyM.run_bind_ok h3).trans rfl

/-- C113, C114: two variables, the first one active, five nodes: the integral of `|y|`, which is `1/2`, is found with an error of the mean of
at most `1/5`; the mean of the weight of the second node is the probability of its cell. -/
example (lib : Model.Integrals.Lib) (X : Matrix (Fin 2) (Fin (1 + 1)) ℝ) (F : Files × E) : ∃ mu : (Fin 10000 → Fin (1 + 1) → ℝ) → ℝ,
      (∀ ω, ∃ w', (av_integrate lib (drawRng 10000 (1 + 1)) (.fn fun _ y => pure (∑ j, |y j|)) (some (toyMap _ E X)) (.int 5)).run (ω, F)
        = (.ok (mu ω), w')) ∧
      |∫ ω, mu ω ∂(unifMatrix 10000 (1 + 1)) - ∫ x, |x 0| ∂(cubeLaw (1 + 1))| ≤ 1 / 5 ∧
      ∃ r : (Fin 10000 → Fin (1 + 1) → ℝ) → Rule, (∀ ω, ∃ w', (av_quadrature_rule lib (drawRng 10000 (1 + 1)) (toyMap _ E X) 5).run (ω, F)
        = (.ok (r ω), w')) ∧ ∫ ω, (r ω).w.get 1 0 ∂(unifMatrix 10000 (1 + 1)) = (cubeLaw (1 + 1)).real {u | u 0 ∈ cell (-1) 1 5 1} := by
  have e0 : (NpMat.of (interval_endpoints (Matrix.of fun (i : Fin (1 + 1)) (_ : Fin 1) => if i = 0 then 1 else 0)).1).item 0 0 = .ok (-1) :=
    (by simp [NpMat.item, NpMat.get, NpMat.of] : _ = Except.ok _).trans (congrArg Except.ok toy_endpoints.1)
  have e1 : (NpMat.of (interval_endpoints (Matrix.of fun (i : Fin (1 + 1)) (_ : Fin 1) => if i = 0 then 1 else 0)).1).item 1 0 = .ok 1 :=
    (by simp [NpMat.item, NpMat.get, NpMat.of] : _ = Except.ok _).trans (congrArg Except.ok toy_endpoints.2)
  have hr := fun ω : Fin 10000 → Fin (1 + 1) → ℝ => C59_returns (E := Files × E) (drawRng 10000 (1 + 1))
    (b := ⟨1 + 1, 1, ⟨2, (interval_endpoints (Matrix.of fun (i : Fin (1 + 1)) (_ : Fin 1) => if i = 0 then 1 else 0)).1, X⟩, none, none⟩)
    (Matrix.of fun (i : Fin (1 + 1)) (_ : Fin 1) => if i = 0 then 1 else 0) 5 10000 (ω, F) (by norm_num : (-1 : ℝ) ≤ 1) e0 e1
  choose r hr using hr
  have hmu := fun ω => av_fn_returns (a := toyMap (Fin 10000 → Fin (1 + 1) → ℝ) E X) (lib := lib) toySplit (by rintro b ⟨⟩; rfl)
    (fun (m : ℕ) (y : Fin m → ℝ) => ∑ j, |y j|) (hr ω)
  choose mu hmu using hmu
  have h1 := C114_interval (a := toyMap (Fin 10000 → Fin (1 + 1) → ℝ) E X) (V2 := _) toySplit rfl (by norm_num) (s := id)
    (drawRng_law 10000 (1 + 1)) (g := fun (m : ℕ) (y : Fin m → ℝ) => ∑ j, |y j|) (by fun_prop) (L := 1) (R := 1)
    (by rw [Fin.sum_univ_two]; simp) (fun y y' _ _ => by
      rw [one_mul, Fin.sum_univ_one, Fin.sum_univ_one]
      exact abs_abs_sub_abs_le_abs_sub _ _) (fun ω => ⟨_, hmu ω⟩) rfl
  obtain ⟨lo, hi, x, i0, i1, -, h2⟩ := C113_interval (μ := unifMatrix 10000 (1 + 1)) (by norm_num) (s := id) (drawRng_law 10000 (1 + 1))
    (fun ω => ⟨_, hr ω⟩)
  obtain rfl := Except.ok.inj (e0.symm.trans i0)
  obtain rfl := Except.ok.inj (e1.symm.trans i1)
  refine ⟨mu, fun ω => ⟨_, hmu ω⟩, ?_, r, fun ω => ⟨_, hr ω⟩, (h2 (1 : Fin 5) _ ?_).1⟩
  swap
  · congr 1
    ext u
    simp
  have h3 := h1.2.1
  have e : ∀ x : Fin (1 + 1) → ℝ, (∑ j : Fin 1, |∑ i, (Matrix.of fun (i : Fin (1 + 1)) (_ : Fin 1) => if i = 0 then (1 : ℝ) else 0) i j * x i|)
      = |x 0| := fun x => by
    rw [Fin.sum_univ_one, Fin.sum_univ_two]
    simp
  simp only [e] at h3
  refine h3.trans ?_
  norm_num

/-- A simplex of the data that contains the point, by Carathéodory's theorem. -/
theorem exists_simplex {P n : ℕ} (Y : Matrix (Fin P) (Fin n) ℝ) {y : Fin n → ℝ}
    (hy : y ∈ convexHull ℝ (Set.range fun i => (fun j => Y i j : Fin n → ℝ))) :
    ∃ t : Fin (n + 1) → Fin P, y ∈ convexHull ℝ (Set.range fun i => (fun j => Y (t i) j : Fin n → ℝ)) := by
  obtain ⟨ι, _, z, w, hz, hi, hw, hs, rfl⟩ := eq_pos_convex_span_of_mem_convexHull hy
  have hne : Nonempty ι := by
    by_contra hne
    rw [not_nonempty_iff] at hne
    simp at hs
  have hc : Fintype.card ι ≤ n + 1 := by
    have := hi.card_le_finrank_succ
    refine this.trans (Nat.add_le_add_right ?_ 1)
    refine (Submodule.finrank_le _).trans ?_
    simp
  obtain ⟨f⟩ := Function.Embedding.nonempty_of_card_le (α := ι) (β := Fin (n + 1)) (by simpa using hc)
  choose p hp using fun i => hz ⟨i, rfl⟩
  refine ⟨fun i => p (Function.invFun f i), ?_⟩
  refine (convex_convexHull ℝ _).sum_mem (fun i _ => (hw i).le) hs fun i _ => subset_convexHull ℝ _ ⟨f i, ?_⟩
  dsimp only
  rw [Function.leftInverse_invFun f.injective i]
  exact hp i

open Classical in
/-- The contract can be met for all data. -/
theorem exists_tri {P n : ℕ} (Y : Matrix (Fin P) (Fin n) ℝ) : ∃ Tr : Tri P n, TriOK Y Tr := by
  let e := Fintype.equivFin (Fin (n + 1) → Fin P)
  let H : ℕ → Set (Fin n → ℝ) := fun l => if h : l < Fintype.card (Fin (n + 1) → Fin P) then
    convexHull ℝ (Set.range fun i => (fun j => Y (e.symm ⟨l, h⟩ i) j : Fin n → ℝ)) else ∅
  have hlt : ∀ {y l}, y ∈ H l → l < Fintype.card (Fin (n + 1) → Fin P) := fun {y l} hy => by
    by_contra hl
    simp only [H, dif_neg hl] at hy
    exact hy
  have hm : ∀ l, MeasurableSet (H l) := fun l => by
    by_cases hl : l < Fintype.card (Fin (n + 1) → Fin P)
    · simp only [H, dif_pos hl]
      exact ((Set.finite_range _).isClosed_convexHull ℝ).measurableSet
    · simp only [H, dif_neg hl]
      exact MeasurableSet.empty
  let find : (Fin n → ℝ) → Option (Fin (Fintype.card (Fin (n + 1) → Fin P))) := fun y =>
    if h : ∃ l, y ∈ H l then some ⟨Nat.find h, hlt (Nat.find_spec h)⟩ else none
  have hfind : ∀ y t, find y = some t ↔ y ∈ H t ∧ ∀ l < (t : ℕ), y ∉ H l := by
    intro y t
    by_cases h : ∃ l, y ∈ H l
    · have : find y = some ⟨Nat.find h, hlt (Nat.find_spec h)⟩ := dif_pos h
      rw [this, Option.some_inj, Fin.ext_iff]
      exact Nat.find_eq_iff h
    · have : find y = none := dif_neg h
      rw [this]
      refine ⟨fun h' => by simp at h', fun h' => absurd ⟨_, h'.1⟩ h⟩
  refine ⟨⟨_, fun t => e.symm t, find⟩, ?_, ?_, ?_⟩
  · intro y t hy
    have := ((hfind y t).mp hy).1
    simp only [H, dif_pos t.2] at this
    exact this
  · intro y hy hno
    obtain ⟨t, ht⟩ := exists_simplex Y hy
    have h1 : y ∈ H (e t) := by
      simp only [H, dif_pos (e t).2, Fin.eta, Equiv.symm_apply_apply]
      exact ht
    have h2 : ∃ l, y ∈ H l := ⟨_, h1⟩
    have h3 : find y = some ⟨Nat.find h2, hlt (Nat.find_spec h2)⟩ := dif_pos h2
    exact absurd (h3.symm.trans hno) (by simp)
  · intro t
    have : {y | find y = some t} = H t ∩ ⋂ l : Fin t, (H l)ᶜ := by
      ext y
      simp only [Set.mem_ofPred_eq, hfind, Set.mem_inter_iff, Set.mem_iInter, Set.mem_compl_iff]
      exact and_congr_right fun _ => ⟨fun h l => h l l.2, fun h l hl => h ⟨l, hl⟩⟩
    change MeasurableSet {y | find y = some t}
    rw [this]
    exact (hm t).inter (MeasurableSet.iInter fun l => (hm l).compl)

/-- A library with a triangulation that meets the contract and an optimiser that returns the starting point. -/
noncomputable def triLib (lib : Model.Integrals.Lib) : Model.Integrals.Lib where
  base := { lib.base with des := ⟨lib.base.des.hullFacets, lib.base.des.hull, fun _ _ _ y0 => .ok ⟨true, y0, 0⟩⟩ }
  delaunay Y := .ok (Classical.choose (exists_tri Y))

/-- The first two of three variables. -/
def firstTwo : Matrix (Fin (2 + 1)) (Fin 2) ℝ := Matrix.of fun i j => if (i : ℕ) = j then 1 else 0

/-- The third of three variables. -/
def third : Matrix (Fin (2 + 1)) (Fin 1) ℝ := Matrix.of fun i _ => if i = 2 then 1 else 0

/-- The square with its four corners. -/
def squareB : Boundary := ⟨2 + 1, 2, ⟨4, !![-1, -1; 1, -1; -1, 1; 1, 1], 0⟩, none, none⟩

/-- The map to the first two of three variables. -/
def squareMap (S E : Type) : AVMap S E :=
  ⟨.bounded squareB, ⟨none, some (NpMat.of (Np.hstack firstTwo third)), some (NpMat.of firstTwo), some (NpMat.of third), none, none⟩,
    fun _ _ => pure none⟩

theorem square_split (S E : Type) : Split (squareMap S E).subspaces firstTwo third := by
  refine ⟨rfl, rfl, rfl, ?_⟩
  ext i j
  rw [Matrix.mul_apply, Fin.sum_univ_three]
  fin_cases i <;> fin_cases j <;> simp [Np.hstack, Matrix.one_apply, Fin.append, Fin.addCases, firstTwo, third]

theorem square_hull : zonotope firstTwo ⊆ convexHull ℝ (Set.range fun i => (fun j => squareB.verts.Y i j : Fin squareB.n → ℝ)) := by
  rintro y ⟨x, hx, hy⟩
  have h0 : y 0 = x 0 := by rw [hy, Fin.sum_univ_three]; simp [firstTwo]
  have h1 : y 1 = x 1 := by rw [hy, Fin.sum_univ_three]; simp [firstTwo]
  have b0 := hx 0
  have b1 := hx 1
  rw [← h0] at b0
  rw [← h1] at b1
  have e : y = ∑ i, (![(1 - y 0) * (1 - y 1) / 4, (1 + y 0) * (1 - y 1) / 4, (1 - y 0) * (1 + y 1) / 4, (1 + y 0) * (1 + y 1) / 4] : Fin 4 → ℝ) i •
      (fun j => squareB.verts.Y i j : Fin 2 → ℝ) := by
    funext j
    rw [Finset.sum_apply, Fin.sum_univ_four]
    fin_cases j <;> simp [squareB] <;> ring
  rw [e]
  refine (convex_convexHull ℝ _).sum_mem (fun i _ => ?_) ?_ fun i _ => subset_convexHull ℝ _ ⟨i, rfl⟩
  · have p1 : 0 ≤ 1 - y 0 := by linarith [b0.2]
    have p2 : 0 ≤ 1 + y 0 := by linarith [b0.1]
    have p3 : 0 ≤ 1 - y 1 := by linarith [b1.2]
    have p4 : 0 ≤ 1 + y 1 := by linarith [b1.1]
    fin_cases i <;> simp <;> positivity
  · rw [Fin.sum_univ_four]
    simp
    ring

theorem triLib_design (lib : Model.Integrals.Lib) (rng : Rng S) {v : ℕ} (vert : Matrix (Fin v) (Fin n) ℝ) (N : ℕ) (w : S × E) :
    ∃ D, (Model.Designs.maximin_design (triLib lib).base.des rng vert N).run w = (.ok D, w) := by
  obtain ⟨r, hr⟩ := Proofs.Multistart.multistart_of_calls (rng := rng) (init := 1e10) (k := 3) (w := w)
    (Proofs.Multistart.calls_lift_of (draw := rng.normal N n) (o := maximinRun (triLib lib).base.des vert N)
      (rs := (Spec.draws (rng.normal N n) (rng.seeded 42) 3).map fun y0 => ⟨true, Np.ravel y0, 0⟩) w.2 (by
        rw [List.map_map]
        rfl))
    (by simp) (by simp [Spec.draws]; norm_num)
  rw [maximin_design_run, hr]
  exact ⟨_, rfl⟩

/-- C113, C114: the square with any design of three points: the hypotheses are met, and the error is at most `d`. -/
example (lib : Model.Integrals.Lib) (F : Files × E) : ∃ mu : (Fin 10000 → Fin (2 + 1) → ℝ) → ℝ,
      (∀ ω, ∃ w', (av_integrate (triLib lib) (drawRng 10000 (2 + 1)) (.fn fun _ y => pure (min 1 ‖y‖)) (some (squareMap _ E)) (.int (3 : ℕ))).run (ω, F)
        = (.ok (mu ω), w')) ∧
      ∃ (D : Matrix (Fin 3) (Fin 2) ℝ) (Tr : Tri (4 + 3) 2), (triLib lib).delaunay (Np.vstack squareB.verts.Y D) = .ok Tr ∧
        ∀ d, (∀ t i i', dist (fun j => Np.vstack squareB.verts.Y D (Tr.simplices t i) j) (fun j => Np.vstack squareB.verts.Y D (Tr.simplices t i') j) ≤ d) →
        |∫ ω, mu ω ∂(unifMatrix 10000 (2 + 1)) - ∫ x, min 1 ‖(fun j => ∑ i, firstTwo i j * x i : Fin 2 → ℝ)‖ ∂(cubeLaw (2 + 1))| ≤ 1 * d := by
  have hr : ∀ ω : Fin 10000 → Fin (2 + 1) → ℝ, ∃ r, (av_quadrature_rule (triLib lib) (drawRng 10000 (2 + 1)) (squareMap _ E) (3 : ℕ)).run (ω, F)
      = (.ok r, (((drawRng 10000 (2 + 1)).uniform 10000 (2 + 1) ω).2, F)) := by
    intro ω
    obtain ⟨D, hD⟩ := triLib_design lib (drawRng 10000 (2 + 1)) squareB.verts.Y 3 (ω, F)
    exact C58_zonotope_returns (lib := triLib lib) (drawRng 10000 (2 + 1)) (b := squareB) firstTwo 3 10000 (ω, F) hD rfl
  choose r hr using hr
  have hmu := fun ω => av_fn_returns (a := squareMap (Fin 10000 → Fin (2 + 1) → ℝ) E) (lib := triLib lib) (square_split _ _) (by rintro b ⟨⟩; rfl)
    (fun (m : ℕ) (y : Fin m → ℝ) => min 1 ‖y‖) (hr ω)
  choose mu hmu using hmu
  obtain ⟨D, Tr, h1, h2⟩ := C114_zonotope (a := squareMap (Fin 10000 → Fin (2 + 1) → ℝ) E) (b := squareB) (k := 1) (s := id) (N := (3 : ℕ))
    (square_split _ _) rfl (by decide) square_hull (lib := triLib lib)
    (fun D Tr h => by
      rw [← Except.ok.inj h]
      exact Classical.choose_spec (exists_tri _))
    (drawRng_law 10000 (2 + 1)) (g := fun (m : ℕ) (y : Fin m → ℝ) => min 1 ‖y‖) (L := 1) (c := 0) (B := 1) zero_le_one
    (fun y y' => by
      rw [one_mul, dist_eq_norm]
      refine (abs_min_sub_min_le_max _ _ _ _).trans ?_
      rw [sub_self, abs_zero, max_eq_right (abs_nonneg _)]
      exact abs_norm_sub_norm_le _ _)
    (fun y => by
      rw [sub_zero, abs_of_nonneg (le_min zero_le_one (norm_nonneg _))]
      exact min_le_left _ _)
    (fun ω => ⟨_, hmu ω⟩) rfl
  exact ⟨mu, fun ω => ⟨_, hmu ω⟩, D, Tr, h1, fun d hd => (h2 d hd).2.1⟩

end Props
