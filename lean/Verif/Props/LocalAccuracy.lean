import Verif.Props.LocalLinear
import Verif.Props.Stability
import Verif.Props.ComputeMore

/-!
# Property C140: the accuracy of gradients from local linear models
-/

open Py Model.Gradients Proofs.LeastSquares Spec

namespace Props

variable {S E W : Type} {M m p : ℕ}

/-! ## What is to be shown -/

/-- Sample point `k` is within `h` of sample point `i`. -/
def Near (X : Matrix (Fin M) (Fin m) ℝ) (h : ℝ) (i k : Fin M) : Prop := Real.sqrt (∑ j, (X k j - X i j) ^ 2) ≤ h

/-- At least `p` other points are within `h` of each point of the sample. -/
def DenseSample (X : Matrix (Fin M) (Fin m) ℝ) (p : ℕ) (h : ℝ) : Prop :=
  ∀ i, ∃ T : Finset (Fin M), T.card = p + 1 ∧ ∀ k ∈ T, Near X h i k

/-- Any `p` points within `h` of one another determine slopes: an affine function of slope `v` has on them a sum of squares of at least
`(κ h |v|)² p`. -/
def SpreadSample (X : Matrix (Fin M) (Fin m) ℝ) (p : ℕ) (h κ : ℝ) : Prop :=
  ∀ (i : Fin M) (s : Fin p → Fin M), Function.Injective s → (∀ k, Near X h i (s k)) →
    ∀ (a : ℝ) (v : Fin m → ℝ), (κ * h) ^ 2 * p * ∑ j, v j ^ 2 ≤ ∑ k, (a + ∑ j, X (s k) j * v j) ^ 2

/-- `d` is the gradient of `F` on the convex set `D`, and Lipschitz with constant `K`. -/
structure SmoothOn (D : Set (Fin m → ℝ)) (F : (Fin m → ℝ) → ℝ) (d : (Fin m → ℝ) → Fin m → ℝ) (K : ℝ) : Prop where
  convex : Convex ℝ D
  deriv : ∀ x ∈ D, HasFDerivAt F (∑ j, d x j • (ContinuousLinearMap.proj j : (Fin m → ℝ) →L[ℝ] ℝ)) x
  lip : ∀ x ∈ D, ∀ y ∈ D, Real.sqrt (∑ j, (d y j - d x j) ^ 2) ≤ K * Real.sqrt (∑ j, (y j - x j) ^ 2)

/-! ## Taylor's formula -/

theorem taylor_one {D : Set (Fin m → ℝ)} {F : (Fin m → ℝ) → ℝ} {d : (Fin m → ℝ) → Fin m → ℝ} {K : ℝ} (hF : SmoothOn D F d K)
    {x y : Fin m → ℝ} (hx : x ∈ D) (hy : y ∈ D) : |F y - F x - ∑ j, d x j * (y j - x j)| ≤ K / 2 * ∑ j, (y j - x j) ^ 2 := by
  set R := Real.sqrt (∑ j, (y j - x j) ^ 2) with hR
  have hR2 : R * R = ∑ j, (y j - x j) ^ 2 := Real.mul_self_sqrt (Finset.sum_nonneg fun _ _ => sq_nonneg _)
  set z : ℝ → Fin m → ℝ := fun t => x + t • (y - x) with hz
  have hzD : ∀ t ∈ Set.Icc (0 : ℝ) 1, z t ∈ D := by
    intro t ht
    have := hF.convex hx hy (sub_nonneg.mpr ht.2) ht.1 (by ring)
    convert this using 1
    simp only [hz, smul_sub, sub_smul, one_smul]
    abel
  have hzd : ∀ t, HasDerivAt z (y - x) t := fun t => by
    simpa [hz] using ((hasDerivAt_id t).smul_const (y - x)).const_add x
  have hder : ∀ t ∈ Set.Icc (0 : ℝ) 1, HasDerivAt (fun t => F (z t)) (∑ j, d (z t) j * (y j - x j)) t := by
    intro t ht
    have := (hF.deriv _ (hzD t ht)).comp_hasDerivAt t (hzd t)
    exact this.congr_deriv (by simp [ContinuousLinearMap.sum_apply])
  have hbd : ∀ t ∈ Set.Icc (0 : ℝ) 1, |∑ j, d (z t) j * (y j - x j) - ∑ j, d x j * (y j - x j)| ≤ K * t * (R * R) := by
    intro t ht
    rw [← Finset.sum_sub_distrib]
    have e1 : ∑ j, (d (z t) j * (y j - x j) - d x j * (y j - x j)) = ∑ j, (d (z t) j - d x j) * (y j - x j) :=
      Finset.sum_congr rfl fun j _ => by ring
    rw [e1]
    refine (abs_dot_le _ _).trans ?_
    have h1 := hF.lip x hx (z t) (hzD t ht)
    have h2 : Real.sqrt (∑ j, (z t j - x j) ^ 2) = t * R := by
      have : ∑ j, (z t j - x j) ^ 2 = t ^ 2 * ∑ j, (y j - x j) ^ 2 := by
        rw [Finset.mul_sum]
        exact Finset.sum_congr rfl fun j _ => by simp [hz]; ring
      rw [this, Real.sqrt_mul (sq_nonneg t), Real.sqrt_sq ht.1]
    rw [h2] at h1
    calc _ ≤ K * (t * R) * R := mul_le_mul_of_nonneg_right h1 (Real.sqrt_nonneg _)
      _ = _ := by ring
  set c := ∑ j, d x j * (y j - x j)
  have e0 : F (z 0) = F x := by simp [hz]
  have e1 : F (z 1) = F y := by simp [hz]
  have hint : ∀ t ∈ interior (Set.Icc (0 : ℝ) 1), t ∈ Set.Icc (0 : ℝ) 1 := fun t ht => interior_subset ht
  have hup : AntitoneOn (fun t => F (z t) - c * t - K * (R * R) * t ^ 2 / 2) (Set.Icc 0 1) := by
    have hd : ∀ t ∈ Set.Icc (0 : ℝ) 1, HasDerivAt (fun t => F (z t) - c * t - K * (R * R) * t ^ 2 / 2)
        (∑ j, d (z t) j * (y j - x j) - c - K * (R * R) * t) t := fun t ht => by
      have h2 := ((hder t ht).sub ((hasDerivAt_id t).const_mul c)).sub ((((hasDerivAt_id t).pow 2).const_mul (K * (R * R))).div_const 2)
      exact h2.congr_deriv (by simp; ring)
    apply antitoneOn_of_deriv_nonpos (convex_Icc 0 1)
    · exact fun t ht => (hd t ht).continuousAt.continuousWithinAt
    · exact fun t ht => (hd t (hint t ht)).differentiableAt.differentiableWithinAt
    · intro t ht
      rw [(hd t (hint t ht)).deriv]
      have := (abs_le.mp (hbd t (hint t ht))).2
      linarith
  have hlo : MonotoneOn (fun t => F (z t) - c * t + K * (R * R) * t ^ 2 / 2) (Set.Icc 0 1) := by
    have hd : ∀ t ∈ Set.Icc (0 : ℝ) 1, HasDerivAt (fun t => F (z t) - c * t + K * (R * R) * t ^ 2 / 2)
        (∑ j, d (z t) j * (y j - x j) - c + K * (R * R) * t) t := fun t ht => by
      have h2 := ((hder t ht).sub ((hasDerivAt_id t).const_mul c)).add ((((hasDerivAt_id t).pow 2).const_mul (K * (R * R))).div_const 2)
      exact h2.congr_deriv (by simp; ring)
    apply monotoneOn_of_deriv_nonneg (convex_Icc 0 1)
    · exact fun t ht => (hd t ht).continuousAt.continuousWithinAt
    · exact fun t ht => (hd t (hint t ht)).differentiableAt.differentiableWithinAt
    · intro t ht
      rw [(hd t (hint t ht)).deriv]
      have := (abs_le.mp (hbd t (hint t ht))).1
      linarith
  have u := hup (Set.left_mem_Icc.mpr zero_le_one) (Set.right_mem_Icc.mpr zero_le_one) zero_le_one
  have l := hlo (Set.left_mem_Icc.mpr zero_le_one) (Set.right_mem_Icc.mpr zero_le_one) zero_le_one
  simp only [e0, e1] at u l
  rw [← hR2, abs_le]
  constructor <;> nlinarith

/-! ## The points of a local model -/

theorem filter_pos {M : ℕ} (ii : Fin M) (t : ℕ) (ht : t < ((List.finRange M).filter fun k => decide (k ≠ ii)).length) :
    ((((List.finRange M).filter fun k => decide (k ≠ ii)).get ⟨t, ht⟩ : Fin M) : ℕ) ≤ t + 1 := by
  set L := (List.finRange M).filter fun k => decide (k ≠ ii) with hL
  have hsorted : L.Pairwise (· < ·) := (List.pairwise_lt_finRange M).sublist List.filter_sublist
  set v := L.get ⟨t, ht⟩
  have hsub : (Finset.univ.filter fun k : Fin M => k < v ∧ k ≠ ii) ⊆ (L.take t).toFinset := by
    intro k hk
    obtain ⟨-, hkv, hki⟩ := Finset.mem_filter.mp hk
    have hmem : k ∈ L := by simp [hL, hki]
    obtain ⟨⟨s, hs⟩, hks⟩ := List.mem_iff_get.mp hmem
    have hst : s < t := by
      by_contra hle
      rcases Nat.lt_or_ge t s with h | h
      · have := List.pairwise_iff_get.mp hsorted ⟨t, ht⟩ ⟨s, hs⟩ h
        rw [hks] at this
        exact absurd hkv (not_lt.mpr this.le)
      · obtain rfl : s = t := le_antisymm h (not_lt.mp hle)
        exact absurd hkv (by rw [← hks]; exact lt_irrefl _)
    rw [List.mem_toFinset, ← hks]
    exact List.mem_take_iff_getElem.mpr ⟨s, by omega, rfl⟩
  have h1 := Finset.card_le_card hsub
  have h2 : (L.take t).toFinset.card ≤ t := (List.toFinset_card_le _).trans (by simp)
  have h3 : (v : ℕ) ≤ (Finset.univ.filter fun k : Fin M => k < v ∧ k ≠ ii).card + 1 := by
    have h4 : (Finset.univ.filter fun k : Fin M => k < v).card = v := by
      have : (Finset.univ.filter fun k : Fin M => k < v) = Finset.Iio v := by ext; simp
      rw [this, Fin.card_Iio]
    have h5 : (Finset.univ.filter fun k : Fin M => k < v) ⊆ insert ii (Finset.univ.filter fun k : Fin M => k < v ∧ k ≠ ii) := by
      intro k hk
      by_cases h : k = ii
      · simp [h]
      · simp only [Finset.mem_insert, Finset.mem_filter, Finset.mem_univ, true_and] at hk ⊢
        exact .inr ⟨hk, h⟩
    have := (Finset.card_le_card h5).trans (Finset.card_insert_le _ _)
    omega
  omega

/-- All points that a local model uses are near its centre. -/
theorem neighbours_near {lib : Lib} (hlib : LibOK lib) {X : Matrix (Fin M) (Fin m) ℝ} (hX : Function.Injective fun i => X i) {h : ℝ}
    (hd : DenseSample X p h) (ii : Fin M) : ∀ k ∈ neighbours lib X ii p, Near X h ii k := by
  intro k hk
  rw [neighbours_distinct lib hX] at hk
  set D2 := sqDist X (X ii) with hD2
  have hs := hlib.argsort D2
  obtain ⟨t, ht, hkt⟩ := List.mem_take_iff_getElem.mp hk
  rw [List.getElem_map] at hkt
  have htp : t < p := by omega
  have ht' : t < ((List.finRange M).filter fun k => decide (k ≠ ii)).length := by
    simp only [List.length_map] at ht
    omega
  have hpos := filter_pos ii t ht'
  set v := ((List.finRange M).filter fun k => decide (k ≠ ii)).get ⟨t, ht'⟩
  have hkv : lib.argsort D2 v = k := hkt
  obtain ⟨T, hT, hTn⟩ := hd ii
  -- one of the points near the centre comes at `v` or later
  obtain ⟨q, hq, hqv⟩ : ∃ q, v ≤ q ∧ lib.argsort D2 q ∈ T := by
    by_contra hno
    push Not at hno
    have hsub : T ⊆ (Finset.Iio v).image (lib.argsort D2) := by
      intro x hx
      obtain ⟨q, rfl⟩ := hs.bij.surjective x
      refine Finset.mem_image_of_mem _ (Finset.mem_Iio.mpr ?_)
      by_contra hle
      exact hno q (not_lt.mp hle) hx
    have := (Finset.card_le_card hsub).trans Finset.card_image_le
    rw [hT, Fin.card_Iio] at this
    omega
  have hle : D2 k ≤ D2 (lib.argsort D2 q) := hkv ▸ hs.mono hq
  exact (Real.sqrt_le_sqrt hle).trans (hTn _ hqv)

/-! ## One local model -/

theorem ls_close {r c : ℕ} {A : Matrix (Fin r) (Fin c) ℝ} {b : Fin r → ℝ} {u : Fin c → ℝ} (hu : IsLeastSquares A b u) (v : Fin c → ℝ) :
    sqNorm (A.mulVec (u - v)) ≤ sqNorm (A.mulVec v - b) := by
  have hn := isLeastSquares_iff.mp hu
  have h1 : A.mulVec v - b = (A.mulVec u - b) + -(A.mulVec (u - v)) := by
    rw [Matrix.mulVec_sub]
    abel
  have h2 : (A.mulVec u - b) ⬝ᵥ A.mulVec (u - v) = 0 := by
    rw [Matrix.dotProduct_mulVec, ← Matrix.mulVec_transpose, hn, zero_dotProduct]
  have h3 : sqNorm (-(A.mulVec (u - v))) = sqNorm (A.mulVec (u - v)) := by simp [sqNorm]
  rw [h1, sqNorm_add, dotProduct_neg, h2, h3]
  have := sqNorm_nonneg (A.mulVec u - b)
  linarith

/-- The slope of one local model is within `(K h / 2 + η / h) / κ` of the gradient at its centre. -/
theorem localModel_close {lib : Lib} (hlib : LibOK lib) {X : Matrix (Fin M) (Fin m) ℝ} (hX : Function.Injective fun i => X i)
    (hp1 : 1 ≤ p) (hp : p < M) {h κ K η : ℝ} (hh : 0 < h) (hκ : 0 < κ) (hK : 0 ≤ K) (hd : DenseSample X p h) (hs : SpreadSample X p h κ)
    {D : Set (Fin m → ℝ)} {F : (Fin m → ℝ) → ℝ} {d : (Fin m → ℝ) → Fin m → ℝ} (hF : SmoothOn D F d K) (hXD : ∀ i, X i ∈ D)
    {f : Fin M → ℝ} (hf : ∀ i, |f i - F (X i)| ≤ η) (weights : Fin M → ℝ) (hw : ∀ i, 0 < weights i) (ii : Fin M) :
    ∃ g, localModel lib X f weights p ii = .ok g ∧ Real.sqrt (∑ j, (d (X ii) j - g j) ^ 2) ≤ (K * h / 2 + η / h) / κ := by
  have hlen := length_neighbours_distinct lib hX ii p hp
  have hnd := nodup_neighbours hlib X ii p
  have hsq : 0 < Real.sqrt (weights ii) := Real.sqrt_pos.mpr (hw ii)
  have hp0 : (0 : ℝ) < p := by exact_mod_cast hp1
  simp only [localModel, hlen, dif_pos]
  refine ⟨_, rfl, ?_⟩
  set s : Fin p → Fin M := fun k => (neighbours lib X ii p).get (k.cast hlen.symm) with hsdef
  have hsinj : Function.Injective s := by
    intro k k' hk
    have := (List.nodup_iff_injective_get.mp hnd) hk
    simpa [Fin.ext_iff] using this
  have hnear : ∀ k, Near X h ii (s k) := fun k => neighbours_near hlib hX hd ii _ (List.get_mem _ _)
  set A : Matrix (Fin p) (Fin (1 + m)) ℝ := Real.sqrt (weights ii) • Np.hstack (Np.ones p 1) (X.submatrix s id) with hA
  set b : Fin p → ℝ := fun k => f (s k) * Real.sqrt (weights ii) with hb
  set u := lib.lstsq A b with hu
  have hmul : ∀ (u : Fin (1 + m) → ℝ) (k : Fin p), A.mulVec u k
      = Real.sqrt (weights ii) * (u (Fin.castAdd m 0) + ∑ j, X (s k) j * u (Fin.natAdd 1 j)) := by
    intro u k
    rw [hA, Matrix.smul_mulVec, Pi.smul_apply, smul_eq_mul]
    congr 1
    rw [Matrix.mulVec, dotProduct, Fin.sum_univ_add]
    simp only [Np.hstack_castAdd, Np.hstack_natAdd]
    simp [Np.ones]
  -- the tangent at the centre
  set v : Fin (1 + m) → ℝ := Fin.append (fun _ : Fin 1 => F (X ii) - ∑ j, d (X ii) j * X ii j) (d (X ii)) with hv
  have hclose := ls_close (hlib.lstsq A b).1 v
  have hres : sqNorm (A.mulVec v - b) ≤ weights ii * (p * (K / 2 * h ^ 2 + η) ^ 2) := by
    have hk : ∀ k, (A.mulVec v - b) k ^ 2 ≤ weights ii * (K / 2 * h ^ 2 + η) ^ 2 := by
      intro k
      rw [Pi.sub_apply, hmul]
      simp only [hv, hb, Fin.append_left, Fin.append_right]
      have e1 : Real.sqrt (weights ii) * (F (X ii) - ∑ j, d (X ii) j * X ii j + ∑ j, X (s k) j * d (X ii) j) - f (s k) * Real.sqrt (weights ii)
          = Real.sqrt (weights ii) * (-(F (X (s k)) - F (X ii) - ∑ j, d (X ii) j * (X (s k) j - X ii j)) - (f (s k) - F (X (s k)))) := by
        have : ∑ j, d (X ii) j * (X (s k) j - X ii j) = ∑ j, X (s k) j * d (X ii) j - ∑ j, d (X ii) j * X ii j := by
          rw [← Finset.sum_sub_distrib]
          exact Finset.sum_congr rfl fun j _ => by ring
        rw [this]
        ring
      rw [e1, mul_pow, Real.sq_sqrt (hw ii).le]
      refine mul_le_mul_of_nonneg_left ?_ (hw ii).le
      have t1 := taylor_one hF (hXD ii) (hXD (s k))
      have t2 : ∑ j, (X (s k) j - X ii j) ^ 2 ≤ h ^ 2 := by
        have := hnear k
        rw [Near, Real.sqrt_le_left hh.le] at this
        exact this
      have t3 := mul_le_mul_of_nonneg_left t2 (by positivity : 0 ≤ K / 2)
      have t4 := hf (s k)
      refine sq_le_sq' ?_ ?_
      · have a1 := (abs_le.mp (t1.trans t3)).2
        have a2 := (abs_le.mp t4).2
        linarith
      · have a1 := (abs_le.mp (t1.trans t3)).1
        have a2 := (abs_le.mp t4).1
        linarith
    calc sqNorm (A.mulVec v - b) ≤ ∑ _k : Fin p, weights ii * (K / 2 * h ^ 2 + η) ^ 2 := Finset.sum_le_sum fun k _ => hk k
      _ = _ := by rw [Finset.sum_const, Finset.card_univ, Fintype.card_fin, nsmul_eq_mul]; ring
  have hlow : weights ii * ((κ * h) ^ 2 * p * ∑ j, (d (X ii) j - u (Fin.natAdd 1 j)) ^ 2) ≤ sqNorm (A.mulVec (u - v)) := by
    have h1 := hs ii s hsinj hnear ((u - v) (Fin.castAdd m 0)) (fun j => (u - v) (Fin.natAdd 1 j))
    have h2 : sqNorm (A.mulVec (u - v)) = weights ii * ∑ k, ((u - v) (Fin.castAdd m 0) + ∑ j, X (s k) j * (u - v) (Fin.natAdd 1 j)) ^ 2 := by
      rw [sqNorm, Finset.mul_sum]
      refine Finset.sum_congr rfl fun k _ => ?_
      rw [hmul, mul_pow, Real.sq_sqrt (hw ii).le]
    rw [h2]
    refine mul_le_mul_of_nonneg_left ?_ (hw ii).le
    have h3 : ∑ j, (d (X ii) j - u (Fin.natAdd 1 j)) ^ 2 = ∑ j, (u - v) (Fin.natAdd 1 j) ^ 2 :=
      Finset.sum_congr rfl fun j _ => by
        simp only [hv, Pi.sub_apply, Fin.append_right]
        ring
    rw [h3]
    exact h1
  have hη : 0 ≤ η := (abs_nonneg _).trans (hf ii)
  have hall := le_of_mul_le_mul_left (hlow.trans (hclose.trans hres)) (hw ii)
  have hfin : ∑ j, (d (X ii) j - u (Fin.natAdd 1 j)) ^ 2 ≤ ((K * h / 2 + η / h) / κ) ^ 2 := by
    have h1 : (κ * h) ^ 2 * ∑ j, (d (X ii) j - u (Fin.natAdd 1 j)) ^ 2 ≤ (K / 2 * h ^ 2 + η) ^ 2 := by
      have : p * ((κ * h) ^ 2 * ∑ j, (d (X ii) j - u (Fin.natAdd 1 j)) ^ 2) ≤ p * (K / 2 * h ^ 2 + η) ^ 2 := by
        calc _ = (κ * h) ^ 2 * p * ∑ j, (d (X ii) j - u (Fin.natAdd 1 j)) ^ 2 := by ring
          _ ≤ _ := hall
      exact le_of_mul_le_mul_left this hp0
    have h2 : ((K * h / 2 + η / h) / κ) ^ 2 = (K / 2 * h ^ 2 + η) ^ 2 / (κ * h) ^ 2 := by
      field_simp
    rw [h2, le_div_iff₀ (by positivity), mul_comm]
    exact h1
  exact (Real.sqrt_le_left (by positivity)).mpr hfin

/-! ## All of them -/

/-- C140: gradients from local linear models.  If at least `p` other points are within `h` of each point, these points are spread in all
directions, and the values are off by at most `η` from those of a function whose gradient is Lipschitz with constant `K`, then each row of
the result is within `(K h / 2 + η / h) / κ` of the gradient at a point of the sample. -/
theorem C140_gradients {lib : Lib} (hlib : LibOK lib) {randint : PyM W (Fin M)} (hr : RandintOK randint) {X : Matrix (Fin M) (Fin m) ℝ}
    (hX : Function.Injective fun i => X i) (hp1 : m + 1 ≤ p) (hp : p < M) {h κ K η : ℝ} (hh : 0 < h) (hκ : 0 < κ) (hK : 0 ≤ K)
    (hd : DenseSample X p h) (hs : SpreadSample X p h κ) {D : Set (Fin m → ℝ)} {F : (Fin m → ℝ) → ℝ} {d : (Fin m → ℝ) → Fin m → ℝ}
    (hF : SmoothOn D F d K) (hXD : ∀ i, X i ∈ D) {f : Fin M → ℝ} (hf : ∀ i, |f i - F (X i)| ≤ η) (weights : Option (Fin M → ℝ))
    (hw : ∀ u, weights = some u → ∀ i, 0 < u i) (w : W) :
    ∃ (df : Matrix (Fin (numModels M m)) (Fin m) ℝ) (w' : W) (c : Fin (numModels M m) → Fin M),
      (local_linear_gradients lib randint X f (.int p) weights).run w = (.ok df, w') ∧
      ∀ i, Real.sqrt (∑ j, (d (X (c i)) j - df i j) ^ 2) ≤ (K * h / 2 + η / h) / κ := by
  have hcheck : checkP M m (.int p) = .ok p := by
    have h1 : ¬ M ≤ m := by omega
    have h2 : ¬ ((p : ℤ) < m + 1 ∨ (p : ℤ) > M) := by omega
    simp only [checkP, h1, if_false, h2]
    rfl
  have hwpos : ∀ i, 0 < weights.getD (fun _ => 1 / (M : ℝ)) i := by
    intro i
    cases weights with
    | none =>
      have : (0 : ℝ) < M := by exact_mod_cast (by omega : 0 < M)
      simp [this]
    | some u => exact hw u rfl i
  simp only [local_linear_gradients, hcheck]
  obtain ⟨df, w', h1, h2⟩ := localLoop_ok hr (numModels M m)
    (fun g => ∃ ii, Real.sqrt (∑ j, (d (X ii) j - g j) ^ 2) ≤ (K * h / 2 + η / h) / κ) (fun ii => by
      obtain ⟨g, h1, h2⟩ := localModel_close hlib hX (by omega) hp hh hκ hK hd hs hF hXD hf _ hwpos ii
      exact ⟨g, h1, ii, h2⟩) w
  choose c hc using h2
  exact ⟨df, w', c, h1, hc⟩

/-- C140: so the eigenvalues that `opg_subspace` finds are close to those of the gradients at points of the sample. -/
theorem C140_opg {lib lib' : Model.Subspaces.Lib} (hl : SubLibOK lib) (hl' : SubLibOK lib') (rng : Rng S) (hm : 2 ≤ m)
    {X : Matrix (Fin M) (Fin m) ℝ} (hX : Function.Injective fun i => X i) (hM : ⌊(1.7 : ℝ) * m⌋₊ < M) {h κ K η L ε : ℝ} (hh : 0 < h)
    (hκ : 0 < κ) (hK : 0 ≤ K) (hd : DenseSample X ⌊(1.7 : ℝ) * m⌋₊ h) (hs : SpreadSample X ⌊(1.7 : ℝ) * m⌋₊ h κ)
    {D : Set (Fin m → ℝ)} {F : (Fin m → ℝ) → ℝ} {d : (Fin m → ℝ) → Fin m → ℝ} (hF : SmoothOn D F d K) (hXD : ∀ i, X i ∈ D)
    (hL : ∀ i, Real.sqrt (∑ j, d (X i) j ^ 2) ≤ L) {f : Fin M → ℝ} (hf : ∀ i, |f i - F (X i)| ≤ η) (w : Fin M → ℝ) (hw : ∀ i, 0 < w i)
    (hε : ε = (K * h / 2 + η / h) / κ) (u : S × E) :
    ∃ (c : Fin (numModels M m) → Fin M) (e e' : Fin m → ℝ) (V V' : Matrix (Fin m) (Fin m) ℝ) (u' : S × E),
      (Model.Subspaces.opg_subspace lib rng (.mat (NpMat.of X)) (.mat (wcol f)) (wcol w)).run u = (.ok ⟨m, e, V⟩, u') ∧
      Model.Subspaces.active_subspace lib' (.mat (NpMat.of (Matrix.of fun i j => d (X (c i)) j)))
        (wcol fun _ : Fin (numModels M m) => 1 / (numModels M m : ℝ)) = .ok ⟨m, e', V'⟩ ∧
      ∀ j, |e' j - e j| ≤ ε * (2 * L + ε) := by
  obtain ⟨hp, heq⟩ := default_p hm hM lib.grad (Model.Subspaces.randint rng M : PyM (S × E) (Fin M)) X f (some w)
  obtain ⟨df, u1, c, h1, h2⟩ := C140_gradients (libOK_grad hl) (randintOK rng (by omega)) hX hp hM hh hκ hK hd hs hF hXD hf (some w)
    (fun v hv i => by rw [← Option.some.inj hv]; exact hw i) u
  have hη : 0 ≤ η := (abs_nonneg _).trans (hf ⟨0, by omega⟩)
  have hk : (numModels M m : ℝ) ≠ 0 := by exact_mod_cast numModels_pos hm (by omega)
  obtain ⟨e', V', e, V, h3, h4, h5⟩ := C99_eigenvalues lib' lib hl' hl (by omega) (Matrix.of fun i j => d (X (c i)) j) df
    (fun _ => 1 / (numModels M m : ℝ)) (fun _ => by positivity) (L := L) (ε := ε) (by rw [hε]; positivity) (fun i => hL (c i))
    (fun i => (h2 i).trans_eq hε.symm)
  refine ⟨c, e, e', V, V', u1, ?_, h3, fun j => ?_⟩
  · rw [opg_eq, PyM.run_bind_ok ((congrArg (fun x => PyM.run x u) heq).trans h1), h4]
    rfl
  · refine (h5 j).trans_eq ?_
    rw [Finset.sum_const, Finset.card_univ, Fintype.card_fin, nsmul_eq_mul]
    field_simp

/-- The corners of a square, with three neighbours each. -/
theorem square_sample : Function.Injective (fun i => (!![0, 0; 1, 0; 0, 1; 1, 1] : Matrix (Fin 4) (Fin 2) ℝ) i) ∧
    DenseSample (!![0, 0; 1, 0; 0, 1; 1, 1] : Matrix (Fin 4) (Fin 2) ℝ) 3 2 ∧
    SpreadSample (!![0, 0; 1, 0; 0, 1; 1, 1] : Matrix (Fin 4) (Fin 2) ℝ) 3 2 (1 / 10) := by
  refine ⟨fun i j h => ?_, fun i => ⟨Finset.univ, rfl, fun k _ => ?_⟩, fun i s hs _ a v => ?_⟩
  · have h0 := congrFun h 0
    have h1 := congrFun h 1
    fin_cases i <;> fin_cases j <;> simp_all
  · rw [Near, Real.sqrt_le_left (by norm_num)]
    fin_cases i <;> fin_cases k <;> norm_num [Fin.sum_univ_two]
  · have n01 : s 0 ≠ s 1 := fun h => absurd (hs h) (by decide)
    have n02 : s 0 ≠ s 2 := fun h => absurd (hs h) (by decide)
    have n12 : s 1 ≠ s 2 := fun h => absurd (hs h) (by decide)
    rw [Fin.sum_univ_three]
    generalize s 0 = x at *
    generalize s 1 = y at *
    generalize s 2 = z at *
    simp only [Fin.sum_univ_two]
    generalize v 0 = p at *
    generalize v 1 = q at *
    fin_cases x <;> fin_cases y <;> fin_cases z <;> simp at n01 n02 n12 ⊢ <;>
      nlinarith [sq_nonneg (3 * a + p + q), sq_nonneg (3 * a + 2 * p + q), sq_nonneg (3 * a + p + 2 * q), sq_nonneg (3 * a + 2 * p + 2 * q),
        sq_nonneg (p + q), sq_nonneg (p - q)]

/-- A function that is not affine. -/
example : SmoothOn Set.univ (fun x : Fin 2 → ℝ => x 0 ^ 2) (fun x => ![2 * x 0, 0]) 2 := by
  refine ⟨convex_univ, fun x _ => ?_, fun x _ y _ => ?_⟩
  · have h := ((hasFDerivAt_apply (𝕜 := ℝ) (0 : Fin 2) x).pow 2)
    refine h.congr_fderiv ?_
    ext v
    simp [Fin.sum_univ_two]
  · simp only [Fin.sum_univ_two, Matrix.cons_val_zero, Matrix.cons_val_one, sub_self]
    have : (2 * y 0 - 2 * x 0) ^ 2 + 0 ^ 2 ≤ 2 ^ 2 * ((y 0 - x 0) ^ 2 + (y 1 - x 1) ^ 2) := by nlinarith [sq_nonneg (y 1 - x 1)]
    calc _ ≤ Real.sqrt (2 ^ 2 * ((y 0 - x 0) ^ 2 + (y 1 - x 1) ^ 2)) := Real.sqrt_le_sqrt this
      _ = _ := by rw [Real.sqrt_mul (by norm_num), Real.sqrt_sq (by norm_num)]

end Props
