import Mathlib.Combinatorics.SetFamily.Shatter
import Mathlib.LinearAlgebra.Dimension.Finite
import Mathlib.LinearAlgebra.Dimension.Constructions
import Mathlib.Tactic.Linarith
import Verif.Spec.Zonotope

/-!
# The number of sign vectors of a linear map

At most `2 * ∑_{i<n} C(m-1, i)` (Sauer-Shelah applied to the patterns whose last sign is positive).
-/

open Spec Finset

namespace Proofs.SignVectors

variable {m n : ℕ}

theorem neg_mem (W1 : Matrix (Fin m) (Fin n) ℝ) {x : Fin m → ℝ} (h : x ∈ signVectors W1) : -x ∈ signVectors W1 := by
  obtain ⟨z, hz⟩ := h
  refine ⟨-z, fun i => ?_⟩
  have e : ∑ j, W1 i j * (-z) j = -∑ j, W1 i j * z j := by simp
  rw [e]
  rcases hz i with ⟨h1, h2⟩ | ⟨h1, h2⟩
  · exact .inr ⟨by linarith, by simp [h2]⟩
  · exact .inl ⟨by linarith, by simp [h2]⟩

open Classical in
/-- The positive parts, without the last coordinate, of the sign vectors with a positive last coordinate. -/
noncomputable def patterns (W1 : Matrix (Fin (m + 1)) (Fin n) ℝ) : Finset (Finset (Fin m)) :=
  Finset.univ.filter fun s => ∃ x ∈ signVectors W1, x (Fin.last m) = 1 ∧ ∀ i : Fin m, i ∈ s ↔ x i.castSucc = 1

theorem shatters_independent (W1 : Matrix (Fin (m + 1)) (Fin n) ℝ) (s : Finset (Fin m)) (h : (patterns W1).Shatters s) :
    LinearIndependent ℝ fun o : Option s => W1 (o.elim (Fin.last m) fun i => i.1.castSucc) := by
  classical
  by_contra hdep'
  let v : Option s → (Fin n → ℝ) := fun o => match o with
    | none => W1 (Fin.last m)
    | some i => W1 i.1.castSucc
  have hdep : ¬ LinearIndependent ℝ v := by
    have e : v = fun o : Option s => W1 (o.elim (Fin.last m) fun i => i.1.castSucc) := by
      funext o
      cases o <;> rfl
    rw [e]
    exact hdep'
  obtain ⟨g0, hg0, i0, hi0⟩ := Fintype.not_linearIndependent_iff.mp hdep
  obtain ⟨g, hg, hpos, i1, hi1⟩ : ∃ g : Option s → ℝ, ∑ i, g i • v i = 0 ∧ 0 ≤ g none ∧ ∃ i, g i ≠ 0 := by
    rcases le_total 0 (g0 none) with h1 | h1
    · exact ⟨g0, hg0, h1, i0, hi0⟩
    · refine ⟨fun i => -g0 i, ?_, by simpa using h1, i0, by simpa using hi0⟩
      simp only [neg_smul, Finset.sum_neg_distrib, hg0, neg_zero]
  obtain ⟨u, hu, hsu⟩ := h (t := s.filter fun i => ∃ hi : i ∈ s, 0 < g (some ⟨i, hi⟩)) (Finset.filter_subset _ _)
  obtain ⟨x, ⟨z, hz⟩, hx1, hx2⟩ := (Finset.mem_filter.mp hu).2
  have hsum : ∑ i, g i * ∑ j, v i j * z j = 0 := by
    have h1 : ∀ j, ∑ i, g i * v i j = 0 := fun j => by
      have := congrFun hg j
      simpa [Finset.sum_apply] using this
    have h2 : ∑ i, g i * ∑ j, v i j * z j = ∑ j, (∑ i, g i * v i j) * z j := by
      simp only [Finset.mul_sum, Finset.sum_mul]
      rw [Finset.sum_comm]
      exact Finset.sum_congr rfl fun _ _ => Finset.sum_congr rfl fun _ _ => by ring
    rw [h2]
    exact Finset.sum_eq_zero fun j _ => by rw [h1, zero_mul]
  have hterm : ∀ i, (∑ j, v i j * z j) ≠ 0 ∧ 0 ≤ g i * ∑ j, v i j * z j := by
    intro i
    cases i with
    | none =>
      rcases hz (Fin.last m) with ⟨h1, -⟩ | ⟨-, h2⟩
      · exact ⟨ne_of_gt h1, mul_nonneg hpos h1.le⟩
      · rw [hx1] at h2
        norm_num at h2
    | some i =>
      have hmem : i.1 ∈ u ↔ 0 < g (some i) := by
        constructor
        · intro hi
          have h1 : i.1 ∈ s ∩ u := Finset.mem_inter.mpr ⟨i.2, hi⟩
          rw [hsu] at h1
          obtain ⟨_, h2⟩ := (Finset.mem_filter.mp h1).2
          exact h2
        · intro hi
          have h1 : i.1 ∈ s ∩ u := by
            rw [hsu]
            exact Finset.mem_filter.mpr ⟨i.2, i.2, hi⟩
          exact (Finset.mem_inter.mp h1).2
      rcases hz i.1.castSucc with ⟨h1, h2⟩ | ⟨h1, h2⟩
      · have := hmem.mp ((hx2 i.1).mpr h2)
        exact ⟨ne_of_gt h1, mul_nonneg this.le h1.le⟩
      · have h3 : ¬ 0 < g (some i) := fun h4 => by
          have := (hx2 i.1).mp (hmem.mpr h4)
          rw [h2] at this
          norm_num at this
        exact ⟨ne_of_lt h1, mul_nonneg_of_nonpos_of_nonpos (not_lt.mp h3) h1.le⟩
  have h0 := (Finset.sum_eq_zero_iff_of_nonneg fun i _ => (hterm i).2).mp hsum i1 (Finset.mem_univ _)
  rcases mul_eq_zero.mp h0 with h1 | h1
  · exact hi1 h1
  · exact (hterm i1).1 h1

theorem shatters_card (W1 : Matrix (Fin (m + 1)) (Fin n) ℝ) (s : Finset (Fin m)) (h : (patterns W1).Shatters s) : s.card < n := by
  have := (shatters_independent W1 s h).fintype_card_le_finrank
  simp only [Fintype.card_option, Fintype.card_coe, Module.finrank_fintype_fun_eq_card, Fintype.card_fin] at this
  omega

theorem patterns_card (W1 : Matrix (Fin (m + 1)) (Fin n) ℝ) : (patterns W1).card ≤ ∑ i ∈ Finset.range n, m.choose i := by
  classical
  refine (card_le_card_shatterer _).trans ?_
  have h1 : (patterns W1).shatterer ⊆ (Finset.range n).biUnion fun i => Finset.powersetCard i Finset.univ := by
    intro s hs
    refine Finset.mem_biUnion.mpr ⟨s.card, Finset.mem_range.mpr (shatters_card W1 s (mem_shatterer.mp hs)), ?_⟩
    exact Finset.mem_powersetCard.mpr ⟨Finset.subset_univ _, rfl⟩
  refine (Finset.card_le_card h1).trans (Finset.card_biUnion_le.trans ?_)
  simp

open Classical in
/-- The sign vector with positive part `s` and positive last coordinate. -/
noncomputable def ofPattern (s : Finset (Fin m)) : Fin (m + 1) → ℝ :=
  Fin.snoc (fun i : Fin m => if i ∈ s then (1 : ℝ) else -1) (1 : ℝ)

open Classical in
theorem signVectors_subset (W1 : Matrix (Fin (m + 1)) (Fin n) ℝ) :
    signVectors W1 ⊆ ↑((patterns W1).image ofPattern ∪ (patterns W1).image fun s => -ofPattern s) := by
  have key : ∀ x ∈ signVectors W1, x (Fin.last m) = 1 → ∃ s ∈ patterns W1, ofPattern s = x := by
    intro x hx hl
    refine ⟨Finset.univ.filter fun i : Fin m => x i.castSucc = 1, ?_, ?_⟩
    · exact Finset.mem_filter.mpr ⟨Finset.mem_univ _, x, hx, hl, fun i => by simp⟩
    · funext i
      refine Fin.lastCases ?_ (fun i => ?_) i
      · simp [ofPattern, hl]
      · simp only [ofPattern, Fin.snoc_castSucc, Finset.mem_filter, Finset.mem_univ, true_and]
        obtain ⟨z, hz⟩ := hx
        rcases hz i.castSucc with ⟨-, h⟩ | ⟨-, h⟩
        · simp [h]
        · rw [h]
          norm_num
  intro x hx
  rw [Finset.coe_union]
  have hl : x (Fin.last m) = 1 ∨ x (Fin.last m) = -1 := by
    obtain ⟨z, hz⟩ := hx
    rcases hz (Fin.last m) with ⟨-, h⟩ | ⟨-, h⟩
    · exact .inl h
    · exact .inr h
  rcases hl with hl | hl
  · left
    obtain ⟨s, hs, he⟩ := key x hx hl
    exact Finset.mem_coe.mpr (Finset.mem_image.mpr ⟨s, hs, he⟩)
  · right
    obtain ⟨s, hs, he⟩ := key (-x) (neg_mem W1 hx) (by simp [hl])
    exact Finset.mem_coe.mpr (Finset.mem_image.mpr ⟨s, hs, by simp only [he, neg_neg]⟩)

theorem finite (W1 : Matrix (Fin m) (Fin n) ℝ) : (signVectors W1).Finite := by
  refine Set.Finite.subset (Set.Finite.pi' (t := fun _ : Fin m => ({1, -1} : Set ℝ)) fun _ => Set.toFinite _) ?_
  rintro x ⟨z, hz⟩ i
  rcases hz i with ⟨-, h⟩ | ⟨-, h⟩ <;> simp [h]

/-- The bound. -/
theorem ncard_le (W1 : Matrix (Fin (m + 1)) (Fin n) ℝ) : (signVectors W1).ncard ≤ 2 * ∑ i ∈ Finset.range n, m.choose i := by
  classical
  refine (Set.ncard_le_ncard (signVectors_subset W1) (Finset.finite_toSet _)).trans ?_
  rw [Set.ncard_coe_finset]
  refine (Finset.card_union_le _ _).trans ?_
  have h1 := (Finset.card_image_le (s := patterns W1) (f := ofPattern)).trans (patterns_card W1)
  have h2 := (Finset.card_image_le (s := patterns W1) (f := fun s => -ofPattern s)).trans (patterns_card W1)
  omega

end Proofs.SignVectors
