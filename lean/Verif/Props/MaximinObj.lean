import Mathlib.Analysis.Calculus.FDeriv.Pow
import Mathlib.Analysis.Calculus.FDeriv.Add
import Mathlib.Analysis.Calculus.FDeriv.Prod
import Verif.Proofs.Index
import Verif.Model.Designs

/-!
# Property C19: objective and gradient of the maximin design
-/

open Py Model.Designs

namespace Props

variable {N n V : ℕ}

/-- The squared distances the objective ranges over: distinct design points, design points and vertices, and
the cap `1e10`. -/
def maximinValues (Y : Matrix (Fin N) (Fin n) ℝ) (vert : Matrix (Fin V) (Fin n) ℝ) : Set ℝ :=
  {d | ∃ i j, i ≠ j ∧ d = ∑ k, (Y i k - Y j k) ^ 2} ∪ {d | ∃ i v, d = ∑ k, (Y i k - vert v k) ^ 2} ∪ {1e10}

theorem d0_apply (Y : Matrix (Fin N) (Fin n) ℝ) (i j : Fin N) :
    d0 Y (finProdFinEquiv (i, j)) = if i = j then 1e10 else ∑ k, (Y i k - Y j k) ^ 2 := by
  have h : d0 Y (finProdFinEquiv (i, j))
      = (Real.sqrt (∑ k, (Y i k - Y j k) ^ 2) + 1e5 * (1 : Matrix (Fin N) (Fin N) ℝ) i j) ^ 2 := by
    unfold d0
    rw [Proofs.Index.ravel_finProd]
    rfl
  rw [h]
  split_ifs with hij
  · subst hij
    norm_num
  · rw [Matrix.one_apply_ne hij, mul_zero, add_zero, Real.sq_sqrt (Finset.sum_nonneg fun _ _ => sq_nonneg _)]

theorem d1_apply (Y : Matrix (Fin N) (Fin n) ℝ) (vert : Matrix (Fin V) (Fin n) ℝ) (i : Fin N) (v : Fin V) :
    d1 Y vert (finProdFinEquiv (i, v)) = ∑ k, (Y i k - vert v k) ^ 2 := by
  have h : d1 Y vert (finProdFinEquiv (i, v)) = Real.sqrt (∑ k, (Y i k - vert v k) ^ 2) ^ 2 := by
    unfold d1
    rw [Proofs.Index.ravel_finProd]
    rfl
  rw [h, Real.sq_sqrt (Finset.sum_nonneg fun _ _ => sq_nonneg _)]

/-- C19: the objective is minus the smallest squared distance (capped at `1e10`). -/
theorem C19_objective (hN : 0 < N) (hV : 0 < V) (y : Fin (N * n) → ℝ) (vert : Matrix (Fin V) (Fin n) ℝ) :
    ∃ d, maximin_design_obj (N := N) y vert = .ok (-d) ∧ IsLeast (maximinValues (Np.reshape2 y) vert) d := by
  set Y : Matrix (Fin N) (Fin n) ℝ := Np.reshape2 y with hY
  obtain ⟨p, hp, hpm⟩ := Np.amin_ok (d0 Y) (Nat.mul_pos hN hN)
  obtain ⟨q, hq, hqm⟩ := Np.amin_ok (d1 Y vert) (Nat.mul_pos hN hV)
  refine ⟨min (d0 Y p) (d1 Y vert q), ?_, ?_, ?_⟩
  · simp only [maximin_design_obj, ← hY, hp, hq]
    rfl
  · obtain ⟨⟨i, j⟩, rfl⟩ := finProdFinEquiv.surjective p
    obtain ⟨⟨i', v⟩, rfl⟩ := finProdFinEquiv.surjective q
    rcases min_choice (d0 Y (finProdFinEquiv (i, j))) (d1 Y vert (finProdFinEquiv (i', v))) with h | h
    · rw [h, d0_apply]
      split_ifs with hij
      · exact .inr rfl
      · exact .inl (.inl ⟨i, j, hij, rfl⟩)
    · rw [h, d1_apply]
      exact .inl (.inr ⟨i', v, rfl⟩)
  · rintro d ((⟨i, j, hij, rfl⟩ | ⟨i, v, rfl⟩) | rfl)
    · have := hpm (finProdFinEquiv (i, j))
      rw [d0_apply Y i j, if_neg hij] at this
      exact (min_le_left _ _).trans this
    · have := hqm (finProdFinEquiv (i, v))
      rw [d1_apply] at this
      exact (min_le_right _ _).trans this
    · have := hpm (finProdFinEquiv (⟨0, hN⟩, ⟨0, hN⟩))
      rw [d0_apply Y _ _, if_pos rfl] at this
      exact (min_le_left _ _).trans this

/-- C19: an empty design or an empty vertex set is a `ValueError`. -/
theorem C19_empty (y : Fin (N * n) → ℝ) (vert : Matrix (Fin V) (Fin n) ℝ) (h : N = 0 ∨ V = 0) :
    maximin_design_obj (N := N) y vert = .error .valueError := by
  rcases Nat.eq_zero_or_pos N with hN | hN
  · subst hN
    simp only [maximin_design_obj, Np.amin_empty (show 0 * 0 = 0 by simp)]
    rfl
  · have hV : V = 0 := h.resolve_left hN.ne'
    subst hV
    obtain ⟨p, hp, -⟩ := Np.amin_ok (d0 (Np.reshape2 y : Matrix (Fin N) (Fin n) ℝ)) (Nat.mul_pos hN hN)
    simp only [maximin_design_obj, hp, Np.amin_empty (show N * 0 = 0 by simp)]
    rfl

/-! ### The gradient -/

/-- The linear map with coefficients `g`. -/
noncomputable def gradMap {d : ℕ} (g : Fin d → ℝ) : (Fin d → ℝ) →L[ℝ] ℝ :=
  ∑ p, g p • ContinuousLinearMap.proj p

theorem gradMap_apply {d : ℕ} (g h : Fin d → ℝ) : gradMap g h = ∑ p, g p * h p := by
  simp [gradMap, _root_.sum_apply]

/-- The smallest of finitely many continuous functions agrees near `y` with the one that is strictly smallest
at `y` (up to copies of it). -/
theorem eventually_min {ι : Type} [Finite ι] {d : ℕ} (c : ι → (Fin d → ℝ) → ℝ) (hc : ∀ κ, Continuous (c κ))
    (φ : (Fin d → ℝ) → ℝ) (hφ : ∀ y, (∃ κ, φ y = c κ y) ∧ ∀ κ, φ y ≤ c κ y) (κ₀ : ι) (y : Fin d → ℝ)
    (h : ∀ κ, c κ = c κ₀ ∨ c κ₀ y < c κ y) : φ =ᶠ[nhds y] c κ₀ := by
  have h1 : ∀ κ, ∀ᶠ z in nhds y, c κ₀ z ≤ c κ z := by
    intro κ
    rcases h κ with h | h
    · rw [h]; exact Filter.Eventually.of_forall fun _ => le_refl _
    · exact ((hc κ₀).continuousAt.eventually_lt (hc κ).continuousAt h).mono fun _ => le_of_lt
  have h2 : ∀ᶠ z in nhds y, ∀ κ, c κ₀ z ≤ c κ z := Filter.eventually_all.mpr h1
  refine h2.mono fun z hz => ?_
  obtain ⟨⟨κ, hκ⟩, hle⟩ := hφ z
  exact le_antisymm (hle κ₀) (hκ ▸ hz κ)

/-- All distances, indexed. -/
noncomputable def cand (vert : Matrix (Fin V) (Fin n) ℝ) : (Fin N × Fin N) ⊕ (Fin N × Fin V) → (Fin (N * n) → ℝ) → ℝ
  | .inl (i, j), y => if i = j then 1e10 else ∑ k, (y (finProdFinEquiv (i, k)) - y (finProdFinEquiv (j, k))) ^ 2
  | .inr (i, v), y => ∑ k, (y (finProdFinEquiv (i, k)) - vert v k) ^ 2

theorem cand_continuous (vert : Matrix (Fin V) (Fin n) ℝ) (κ : (Fin N × Fin N) ⊕ (Fin N × Fin V)) :
    Continuous (cand vert κ) := by
  rcases κ with ⟨i, j⟩ | ⟨i, v⟩
  · unfold cand
    by_cases h : i = j
    · simp only [h, if_true]; exact continuous_const
    · simp only [h, if_false]; fun_prop
  · unfold cand; fun_prop

/-- Minus the objective. -/
noncomputable def objVal (N : ℕ) (vert : Matrix (Fin V) (Fin n) ℝ) (y : Fin (N * n) → ℝ) : ℝ :=
  match maximin_design_obj (N := N) y vert with
  | .ok x => x
  | .error _ => 0

theorem neg_objVal (hN : 0 < N) (hV : 0 < V) (vert : Matrix (Fin V) (Fin n) ℝ) (y : Fin (N * n) → ℝ) :
    (∃ κ, -objVal N vert y = cand vert κ y) ∧ ∀ κ, -objVal N vert y ≤ cand vert κ y := by
  obtain ⟨d, h1, h2, h3⟩ := C19_objective hN hV y vert
  have h4 : -objVal N vert y = d := by
    unfold objVal
    rw [h1]
    simp
  rw [h4]
  constructor
  · rcases h2 with (⟨i, j, hij, rfl⟩ | ⟨i, v, rfl⟩) | rfl
    · exact ⟨.inl (i, j), by simp [cand, hij, Np.reshape2]⟩
    · exact ⟨.inr (i, v), by simp [cand, Np.reshape2]⟩
    · exact ⟨.inl (⟨0, hN⟩, ⟨0, hN⟩), by simp [cand]⟩
  · rintro (⟨i, j⟩ | ⟨i, v⟩)
    · apply h3
      unfold cand
      simp only
      split_ifs with hij
      · exact .inr rfl
      · exact .inl (.inl ⟨i, j, hij, rfl⟩)
    · exact h3 (.inl (.inr ⟨i, v, rfl⟩))

/-- Values of the arrays the code minimises are the candidates. -/
theorem d0_cand (vert : Matrix (Fin V) (Fin n) ℝ) (y : Fin (N * n) → ℝ) (i j : Fin N) :
    d0 (Np.reshape2 y : Matrix (Fin N) (Fin n) ℝ) (finProdFinEquiv (i, j)) = cand vert (.inl (i, j)) y := by
  rw [d0_apply]; rfl

theorem d1_cand (vert : Matrix (Fin V) (Fin n) ℝ) (y : Fin (N * n) → ℝ) (i : Fin N) (v : Fin V) :
    d1 (Np.reshape2 y : Matrix (Fin N) (Fin n) ℝ) vert (finProdFinEquiv (i, v)) = cand vert (.inr (i, v)) y := by
  rw [d1_apply]; rfl

theorem hasFDerivAt_pair (y : Fin (N * n) → ℝ) (i j : Fin N) :
    HasFDerivAt (fun y : Fin (N * n) → ℝ => ∑ k, (y (finProdFinEquiv (i, k)) - y (finProdFinEquiv (j, k))) ^ 2)
      (∑ k : Fin n, (2 * (y (finProdFinEquiv (i, k)) - y (finProdFinEquiv (j, k)))) •
        ((ContinuousLinearMap.proj (finProdFinEquiv (i, k)) : (Fin (N * n) → ℝ) →L[ℝ] ℝ)
          - ContinuousLinearMap.proj (finProdFinEquiv (j, k)))) y := by
  have h : ∀ k ∈ (Finset.univ : Finset (Fin n)), HasFDerivAt
      (fun y : Fin (N * n) → ℝ => (y (finProdFinEquiv (i, k)) - y (finProdFinEquiv (j, k))) ^ 2)
      ((2 * (y (finProdFinEquiv (i, k)) - y (finProdFinEquiv (j, k)))) •
        ((ContinuousLinearMap.proj (finProdFinEquiv (i, k)) : (Fin (N * n) → ℝ) →L[ℝ] ℝ)
          - ContinuousLinearMap.proj (finProdFinEquiv (j, k)))) y := by
    intro k _
    have h1 : HasFDerivAt (fun y : Fin (N * n) → ℝ => y (finProdFinEquiv (i, k)) - y (finProdFinEquiv (j, k)))
        ((ContinuousLinearMap.proj (finProdFinEquiv (i, k)) : (Fin (N * n) → ℝ) →L[ℝ] ℝ)
          - ContinuousLinearMap.proj (finProdFinEquiv (j, k))) y :=
      (hasFDerivAt_apply (finProdFinEquiv (i, k)) y).sub (hasFDerivAt_apply (finProdFinEquiv (j, k)) y)
    have h2 := h1.pow 2
    simpa using h2
  exact HasFDerivAt.fun_sum h

theorem hasFDerivAt_vertex (y : Fin (N * n) → ℝ) (i : Fin N) (u : Fin n → ℝ) :
    HasFDerivAt (fun y : Fin (N * n) → ℝ => ∑ k, (y (finProdFinEquiv (i, k)) - u k) ^ 2)
      (∑ k : Fin n, (2 * (y (finProdFinEquiv (i, k)) - u k)) •
        (ContinuousLinearMap.proj (finProdFinEquiv (i, k)) : (Fin (N * n) → ℝ) →L[ℝ] ℝ)) y := by
  have h : ∀ k ∈ (Finset.univ : Finset (Fin n)), HasFDerivAt
      (fun y : Fin (N * n) → ℝ => (y (finProdFinEquiv (i, k)) - u k) ^ 2)
      ((2 * (y (finProdFinEquiv (i, k)) - u k)) •
        (ContinuousLinearMap.proj (finProdFinEquiv (i, k)) : (Fin (N * n) → ℝ) →L[ℝ] ℝ)) y := by
    intro k _
    have h1 : HasFDerivAt (fun y : Fin (N * n) → ℝ => y (finProdFinEquiv (i, k)) - u k)
        (ContinuousLinearMap.proj (finProdFinEquiv (i, k)) : (Fin (N * n) → ℝ) →L[ℝ] ℝ) y :=
      (hasFDerivAt_apply (finProdFinEquiv (i, k)) y).sub_const _
    have h2 := h1.pow 2
    simpa using h2
  exact HasFDerivAt.fun_sum h

/-- The two reductions of an array attained at `p`. -/
theorem reduce_at {k : ℕ} {v : Fin k → ℝ} (hk : 0 < k) :
    ∃ p, Np.argmin v = .ok p ∧ Np.amin v = .ok (v p) ∧ ∀ q, v p ≤ v q := by
  obtain ⟨p, h1, h2, -⟩ := Np.argmin_ok v hk
  exact ⟨p, h1, by rw [Np.amin, h1]; rfl, h2⟩

theorem grad_pair {y : Fin (N * n) → ℝ} {vert : Matrix (Fin V) (Fin n) ℝ} {i j : Fin N} {q : Fin (N * V)} {a b : ℝ}
    (h1 : Np.argmin (d0 (Np.reshape2 y : Matrix (Fin N) (Fin n) ℝ)) = .ok (finProdFinEquiv (i, j)))
    (h2 : Np.amin (d0 (Np.reshape2 y : Matrix (Fin N) (Fin n) ℝ)) = .ok a)
    (h3 : Np.argmin (d1 (Np.reshape2 y : Matrix (Fin N) (Fin n) ℝ) vert) = .ok q)
    (h4 : Np.amin (d1 (Np.reshape2 y : Matrix (Fin N) (Fin n) ℝ) vert) = .ok b) (hab : a < b) :
    maximin_design_grad (N := N) y vert = .ok fun p => -(
      if p.divNat = j then 2 * (y (finProdFinEquiv (j, p.modNat)) - y (finProdFinEquiv (i, p.modNat)))
      else if p.divNat = i then 2 * (y (finProdFinEquiv (i, p.modNat)) - y (finProdFinEquiv (j, p.modNat)))
      else 0) := by
  simp only [maximin_design_grad]
  rw [h1, h2, h3, h4]
  simp only [bind, Except.bind, hab, if_true, Proofs.Index.divNat_finProd, Proofs.Index.modNat_finProd]
  rfl

theorem grad_vertex {y : Fin (N * n) → ℝ} {vert : Matrix (Fin V) (Fin n) ℝ} {i : Fin N} {v : Fin V} {p : Fin (N * N)}
    {a b : ℝ} (h1 : Np.argmin (d0 (Np.reshape2 y : Matrix (Fin N) (Fin n) ℝ)) = .ok p)
    (h2 : Np.amin (d0 (Np.reshape2 y : Matrix (Fin N) (Fin n) ℝ)) = .ok a)
    (h3 : Np.argmin (d1 (Np.reshape2 y : Matrix (Fin N) (Fin n) ℝ) vert) = .ok (finProdFinEquiv (i, v)))
    (h4 : Np.amin (d1 (Np.reshape2 y : Matrix (Fin N) (Fin n) ℝ) vert) = .ok b) (hab : ¬ a < b) :
    maximin_design_grad (N := N) y vert = .ok fun p => -(
      if p.divNat = i then 2 * (y (finProdFinEquiv (i, p.modNat)) - vert v p.modNat) else 0) := by
  simp only [maximin_design_grad]
  rw [h1, h2, h3, h4]
  simp only [bind, Except.bind, hab, if_false, Proofs.Index.divNat_finProd, Proofs.Index.modNat_finProd,
    Proofs.Index.ravel_finProd]
  rfl

/-- C19: where the smallest distance is attained by a single pair of design points, by a single pair of a design
point and a vertex, or where the cap is strictly below all distances, the objective is differentiable and
`_maximin_design_grad` returns its gradient. -/
theorem C19_gradient (hN : 0 < N) (hV : 0 < V) (vert : Matrix (Fin V) (Fin n) ℝ) :
    ∃ φ : (Fin (N * n) → ℝ) → ℝ, (∀ y, maximin_design_obj (N := N) y vert = .ok (φ y)) ∧
      ∀ y : Fin (N * n) → ℝ,
        let Y : Matrix (Fin N) (Fin n) ℝ := Np.reshape2 y
        let P := fun i j : Fin N => ∑ k, (Y i k - Y j k) ^ 2
        let Q := fun (i : Fin N) (v : Fin V) => ∑ k, (Y i k - vert v k) ^ 2
        ((∃ i j, i ≠ j ∧ P i j < 1e10 ∧ (∀ i' v, P i j < Q i' v) ∧
            ∀ i' j', i' ≠ j' → ¬ (i' = i ∧ j' = j) → ¬ (i' = j ∧ j' = i) → P i j < P i' j') ∨
         (∃ i v, Q i v < 1e10 ∧ (∀ i' j', i' ≠ j' → Q i v < P i' j') ∧
            ∀ i' v', ¬ (i' = i ∧ v' = v) → Q i v < Q i' v') ∨
         ((∀ i j, i ≠ j → 1e10 < P i j) ∧ ∀ i v, 1e10 < Q i v)) →
        ∃ g, maximin_design_grad (N := N) y vert = .ok g ∧ HasFDerivAt φ (gradMap g) y := by
  refine ⟨objVal N vert, fun y => ?_, fun y => ?_⟩
  · obtain ⟨d, h1, -⟩ := C19_objective hN hV y vert
    simp only [objVal, h1]
  intro Y P Q hcase
  have hP : ∀ i j, i ≠ j → cand vert (.inl (i, j)) y = P i j := fun i j hij => by
    unfold cand
    simp only [hij, if_false]
    rfl
  have hPd : ∀ i, cand (N := N) vert (.inl (i, i)) y = 1e10 := fun i => by simp [cand]
  have hQ : ∀ i v, cand vert (.inr (i, v)) y = Q i v := fun i v => rfl
  have hneg : ∀ κ₀, (∀ κ, cand vert κ = cand vert κ₀ ∨ cand vert κ₀ y < cand vert κ y) →
      objVal N vert =ᶠ[nhds y] fun z => -cand vert κ₀ z := by
    intro κ₀ h
    have := eventually_min (cand vert) (cand_continuous vert) (fun z => -objVal N vert z)
      (fun z => neg_objVal hN hV vert z) κ₀ y h
    refine this.mono fun z hz => ?_
    simp only at hz
    simp only [← hz, neg_neg]
  obtain ⟨p, hp1, hp2, hp3⟩ := reduce_at (v := d0 Y) (Nat.mul_pos hN hN)
  obtain ⟨q, hq1, hq2, hq3⟩ := reduce_at (v := d1 Y vert) (Nat.mul_pos hN hV)
  obtain ⟨⟨pi, pj⟩, rfl⟩ := finProdFinEquiv.surjective p
  obtain ⟨⟨qi, qv⟩, rfl⟩ := finProdFinEquiv.surjective q
  have hp3' : ∀ i j, cand vert (.inl (pi, pj)) y ≤ cand vert (.inl (i, j)) y := fun i j => by
    have := hp3 (finProdFinEquiv (i, j))
    rwa [d0_cand vert, d0_cand vert] at this
  have hq3' : ∀ i v, cand vert (.inr (qi, qv)) y ≤ cand vert (.inr (i, v)) y := fun i v => by
    have := hq3 (finProdFinEquiv (i, v))
    rwa [d1_cand, d1_cand] at this
  have e0 : d0 Y (finProdFinEquiv (pi, pj)) = cand vert (.inl (pi, pj)) y := d0_cand vert y pi pj
  have e1 : d1 Y vert (finProdFinEquiv (qi, qv)) = cand vert (.inr (qi, qv)) y := d1_cand vert y qi qv
  rcases hcase with ⟨i, j, hij, hcap, hv, hpair⟩ | ⟨i, v, hcap, hpair, hv⟩ | ⟨hpair, hv⟩
  · -- a single pair of design points
    have hsel : (pi = i ∧ pj = j) ∨ (pi = j ∧ pj = i) := by
      by_contra hcon
      push Not at hcon
      have h1 := hp3' i j
      rw [hP i j hij] at h1
      by_cases hpp : pi = pj
      · rw [hpp, hPd] at h1
        linarith
      · rw [hP _ _ hpp] at h1
        have := hpair pi pj hpp (fun h => hcon.1 h.1 h.2) (fun h => hcon.2 h.1 h.2)
        linarith
    have hval : cand vert (.inl (pi, pj)) y = P i j := by
      rcases hsel with ⟨rfl, rfl⟩ | ⟨rfl, rfl⟩
      · exact hP _ _ hij
      · rw [hP _ _ hij.symm]
        exact Finset.sum_congr rfl fun k _ => by ring
    have hpne : pi ≠ pj := by
      rcases hsel with ⟨rfl, rfl⟩ | ⟨rfl, rfl⟩
      · exact hij
      · exact hij.symm
    have hlt : d0 Y (finProdFinEquiv (pi, pj)) < d1 Y vert (finProdFinEquiv (qi, qv)) := by
      rw [e0, e1, hval]; exact hv qi qv
    refine ⟨_, grad_pair hp1 hp2 hq1 hq2 hlt, ?_⟩
    · have hev := hneg (.inl (pi, pj)) (by
        rintro (⟨i', j'⟩ | ⟨i', v'⟩)
        · by_cases hd : i' = j'
          · right
            rw [hval, hd, hPd]
            exact hcap
          · by_cases h1 : i' = pi ∧ j' = pj
            · left; rw [h1.1, h1.2]
            · by_cases h2 : i' = pj ∧ j' = pi
              · left
                funext z
                rw [h2.1, h2.2]
                simp only [cand, hpne, hpne.symm, if_false]
                exact Finset.sum_congr rfl fun k _ => by ring
              · right
                rw [hval, hP _ _ hd]
                rcases hsel with ⟨rfl, rfl⟩ | ⟨rfl, rfl⟩
                · exact hpair i' j' hd h1 h2
                · exact hpair i' j' hd h2 h1
        · right; rw [hval, hQ]; exact hv i' v')
      have hfun : (fun z => -cand vert (.inl (pi, pj)) z)
          = fun z : Fin (N * n) → ℝ => -∑ k, (z (finProdFinEquiv (pi, k)) - z (finProdFinEquiv (pj, k))) ^ 2 := by
        funext z
        simp only [cand, hpne, if_false]
      rw [hfun] at hev
      refine ((hasFDerivAt_pair y pi pj).fun_neg.congr_of_eventuallyEq hev).congr_fderiv ?_
      ext h
      rw [gradMap_apply, Proofs.Index.sum_finProd]
      simp only [ContinuousLinearMap.neg_apply, _root_.sum_apply, ContinuousLinearMap.smul_apply,
        ContinuousLinearMap.sub_apply, ContinuousLinearMap.proj_apply, smul_eq_mul, Proofs.Index.divNat_finProd,
        Proofs.Index.modNat_finProd]
      rw [Finset.sum_comm, ← Finset.sum_neg_distrib]
      refine Finset.sum_congr rfl fun k _ => ?_
      rw [Finset.sum_eq_add pj pi hpne.symm]
      · simp only [if_true, hpne, if_false]
        ring
      · rintro a - ⟨h1, h2⟩
        simp [h1, h2]
      · simp
      · simp
  · -- a single pair of a design point and a vertex
    have hsel : qi = i ∧ qv = v := by
      by_contra hcon
      have h1 := hq3' i v
      rw [hQ, hQ] at h1
      have := hv qi qv hcon
      linarith
    obtain ⟨rfl, rfl⟩ := hsel
    have hlt : ¬ d0 Y (finProdFinEquiv (pi, pj)) < d1 Y vert (finProdFinEquiv (qi, qv)) := by
      rw [e0, e1, hQ, not_lt]
      by_cases hpp : pi = pj
      · rw [hpp, hPd]; exact hcap.le
      · rw [hP _ _ hpp]; exact (hpair _ _ hpp).le
    refine ⟨_, grad_vertex hp1 hp2 hq1 hq2 hlt, ?_⟩
    · have hev := hneg (.inr (qi, qv)) (by
        rintro (⟨i', j'⟩ | ⟨i', v'⟩)
        · right
          by_cases hd : i' = j'
          · rw [hQ, hd, hPd]; exact hcap
          · rw [hQ, hP _ _ hd]; exact hpair i' j' hd
        · by_cases h1 : i' = qi ∧ v' = qv
          · left; rw [h1.1, h1.2]
          · right; exact hv i' v' h1)
      have hfun : (fun z => -cand vert (.inr (qi, qv)) z)
          = fun z : Fin (N * n) → ℝ => -∑ k, (z (finProdFinEquiv (qi, k)) - vert qv k) ^ 2 := rfl
      rw [hfun] at hev
      refine ((hasFDerivAt_vertex y qi (vert qv)).fun_neg.congr_of_eventuallyEq hev).congr_fderiv ?_
      ext h
      rw [gradMap_apply, Proofs.Index.sum_finProd]
      simp only [ContinuousLinearMap.neg_apply, _root_.sum_apply, ContinuousLinearMap.smul_apply,
        ContinuousLinearMap.proj_apply, smul_eq_mul, Proofs.Index.divNat_finProd, Proofs.Index.modNat_finProd,
        Proofs.Index.ravel_finProd]
      rw [Finset.sum_comm, ← Finset.sum_neg_distrib]
      refine Finset.sum_congr rfl fun k _ => ?_
      rw [Finset.sum_eq_single qi]
      · simp only [if_true]
        ring
      · intro b _ hb
        simp [hb]
      · simp
  · -- the cap
    have hpp : pi = pj := by
      by_contra hpp
      have h1 := hp3' pi pi
      rw [hPd, hP _ _ hpp] at h1
      have := hpair _ _ hpp
      linarith
    subst hpp
    have hlt : d0 Y (finProdFinEquiv (pi, pi)) < d1 Y vert (finProdFinEquiv (qi, qv)) := by
      rw [e0, e1, hPd, hQ]; exact hv qi qv
    refine ⟨_, grad_pair hp1 hp2 hq1 hq2 hlt, ?_⟩
    · have hev := hneg (.inl (pi, pi)) (by
        rintro (⟨i', j'⟩ | ⟨i', v'⟩)
        · by_cases hd : i' = j'
          · left; funext z; simp [cand, hd]
          · right; rw [hPd, hP _ _ hd]; exact hpair i' j' hd
        · right; rw [hPd, hQ]; exact hv i' v')
      have hfun : (fun z => -cand (N := N) vert (.inl (pi, pi)) z) = fun _ : Fin (N * n) → ℝ => -(1e10 : ℝ) := by
        funext z
        simp [cand]
      rw [hfun] at hev
      refine ((hasFDerivAt_const (-(1e10 : ℝ)) y).congr_of_eventuallyEq hev).congr_fderiv ?_
      ext h
      rw [gradMap_apply]
      simp

/-- One design point and two vertices on a line: the first vertex is the single nearest. -/
example : ∃ y : Fin (1 * 1) → ℝ, ∃ vert : Matrix (Fin 2) (Fin 1) ℝ,
    let Y : Matrix (Fin 1) (Fin 1) ℝ := Np.reshape2 y
    let Q := fun (i : Fin 1) (v : Fin 2) => ∑ k, (Y i k - vert v k) ^ 2
    ∃ i v, Q i v < 1e10 ∧ ∀ i' v', ¬ (i' = i ∧ v' = v) → Q i v < Q i' v' := by
  refine ⟨fun _ => 0, !![1; 2], 0, 0, ?_, ?_⟩
  · simp [Np.reshape2]; norm_num
  · intro i' v' h
    have hi : i' = 0 := Subsingleton.elim _ _
    subst hi
    have hv : v' = 1 := by omega
    subst hv
    simp [Np.reshape2]

end Props
