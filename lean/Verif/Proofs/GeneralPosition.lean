import Mathlib.Algebra.Module.Submodule.Union
import Mathlib.LinearAlgebra.Basis.VectorSpace
import Mathlib.Topology.Instances.Real.Lemmas
import Verif.Proofs.SignVectors
import Verif.Proofs.StrongShatter

/-!
# The bound for the number of sign vectors is attained exactly in general position
-/

open Spec Finset

namespace Proofs.GeneralPosition

variable {m n : ℕ}

/-- Linear equations with independent left-hand sides have solutions. -/
theorem exists_solution {ι : Type} (v : ι → Fin n → ℝ) (hv : LinearIndependent ℝ v) (b : ι → ℝ) :
    ∃ z : Fin n → ℝ, ∀ i, ∑ j, v i j * z j = b i := by
  let f0 : Submodule.span ℝ (Set.range v) →ₗ[ℝ] ℝ := (Finsupp.linearCombination ℝ b).comp hv.repr
  obtain ⟨f, hf⟩ := LinearMap.exists_extend f0
  refine ⟨fun j => f (fun l => if j = l then 1 else 0), fun i => ?_⟩
  have h1 : f (v i) = b i := by
    have h2 : f0 ⟨v i, Submodule.subset_span ⟨i, rfl⟩⟩ = b i := by
      change Finsupp.linearCombination ℝ b (hv.repr _) = b i
      rw [hv.repr_eq_single i _ rfl]
      simp
    rw [← h2, ← hf]
    rfl
  rw [← h1, LinearMap.pi_apply_eq_sum_univ f (v i)]
  exact Finset.sum_congr rfl fun j _ => by rw [smul_eq_mul]

/-- Small steps keep finitely many strict inequalities. -/
theorem exists_small {ι : Type} [Finite ι] (a b : ι → ℝ) (ha : ∀ i, 0 < a i) : ∃ ε > 0, ∀ i, ε * b i < a i := by
  have h : ∀ᶠ ε in nhdsWithin (0 : ℝ) (Set.Ioi 0), ∀ i, ε * b i < a i := by
    refine Filter.eventually_all.mpr fun i => ?_
    have h1 : Filter.Tendsto (fun ε : ℝ => ε * b i) (nhds 0) (nhds (0 * b i)) := (continuous_id.mul continuous_const).tendsto 0
    rw [zero_mul] at h1
    exact (h1.eventually (gt_mem_nhds (ha i))).filter_mono nhdsWithin_le_nhds
  obtain ⟨ε, h1, h2⟩ := (h.and self_mem_nhdsWithin).exists
  exact ⟨ε, h2, h1⟩

/-- A direction in which exactly the products with the rows of `s` vanish. -/
theorem exists_direction {W1 : Matrix (Fin (m + 1)) (Fin n) ℝ} (hg : GeneralPosition W1) (s : Finset (Fin m)) (hs : s.card < n) :
    ∃ z : Fin n → ℝ, (∀ i ∈ s, ∑ j, W1 i.castSucc j * z j = 0) ∧ 0 < ∑ j, W1 (Fin.last m) j * z j ∧
      ∀ i, i ∉ s → ∑ j, W1 i.castSucc j * z j ≠ 0 := by
  classical
  let T : Finset (Fin (m + 1)) := s.map Fin.castSuccEmb
  have hT : T.card = s.card := card_map _
  let form : Fin (m + 1) → Module.Dual ℝ (Fin n → ℝ) := fun k => ∑ j, W1 k j • LinearMap.proj j
  have hform : ∀ k z, form k z = ∑ j, W1 k j * z j := fun k z => by simp [form, LinearMap.sum_apply]
  let K : Submodule ℝ (Fin n → ℝ) := ⨅ i : s, LinearMap.ker (form i.1.castSucc)
  have hK : ∀ z, z ∈ K ↔ ∀ i ∈ s, ∑ j, W1 i.castSucc j * z j = 0 := fun z => by
    simp only [K, Submodule.mem_iInf, LinearMap.mem_ker, hform, Subtype.forall]
  obtain ⟨z, hz, hz'⟩ := Module.Dual.exists_forall_mem_ne_zero_of_forall_exists (ι := {k : Fin (m + 1) // k ∉ T}) K
    (fun k => form k.1) fun ⟨k, hk⟩ => by
      have hli := hg (insert k T) (by rw [card_insert_of_notMem hk, hT]; omega)
      obtain ⟨z, hz⟩ := exists_solution _ hli fun i => if i.1 = k then 1 else 0
      refine ⟨z, (hK z).mpr fun i hi => ?_, ?_⟩
      · have hi' : i.castSucc ∈ T := mem_map.mpr ⟨i, hi, rfl⟩
        rw [hz ⟨i.castSucc, mem_insert_of_mem hi'⟩, if_neg]
        exact fun h => hk (h ▸ hi')
      · dsimp only
        rw [hform, hz ⟨k, mem_insert_self _ _⟩, if_pos rfl]
        norm_num
  have hl : Fin.last m ∉ T := fun h => by
    obtain ⟨i, -, hi⟩ := mem_map.mp h
    exact (Fin.castSucc_lt_last i).ne hi
  have h1 := (hK z).mp hz
  have h2 : ∑ j, W1 (Fin.last m) j * z j ≠ 0 := hform _ z ▸ hz' ⟨_, hl⟩
  have h3 : ∀ i, i ∉ s → ∑ j, W1 i.castSucc j * z j ≠ 0 := fun i hi => by
    have hi' : i.castSucc ∉ T := fun h => by
      obtain ⟨k, hk, hk'⟩ := mem_map.mp h
      exact hi (Fin.castSucc_injective m hk' ▸ hk)
    exact hform _ z ▸ hz' ⟨_, hi'⟩
  rcases lt_or_gt_of_ne h2 with h | h
  · have e : ∀ k, ∑ j, W1 k j * (-z) j = -∑ j, W1 k j * z j := fun k => by simp
    exact ⟨-z, fun i hi => by rw [e, h1 i hi, neg_zero], by rw [e]; linarith, fun i hi => by rw [e]; exact neg_ne_zero.mpr (h3 i hi)⟩
  · exact ⟨z, h1, h, h3⟩

open Classical in
/-- The signs of the rows but the last, for arguments at which the last one is positive. -/
noncomputable def family (W1 : Matrix (Fin (m + 1)) (Fin n) ℝ) : Finset (Fin m → Bool) :=
  Finset.univ.filter fun x => ∃ z : Fin n → ℝ, 0 < ∑ j, W1 (Fin.last m) j * z j ∧
    ∀ i : Fin m, (0 < ∑ j, W1 i.castSucc j * z j ∧ x i = true) ∨ (∑ j, W1 i.castSucc j * z j < 0 ∧ x i = false)

theorem family_card {W1 : Matrix (Fin (m + 1)) (Fin n) ℝ} (hg : GeneralPosition W1) :
    ∑ i ∈ Finset.range n, m.choose i ≤ (family W1).card := by
  classical
  refine Proofs.StrongShatter.sum_choose_le _ n fun s hs => ?_
  obtain ⟨z, h1, h2, h3⟩ := exists_direction hg s hs
  refine ⟨fun i => decide (0 < ∑ j, W1 i.castSucc j * z j), fun t => ?_⟩
  have hli := hg (s.map Fin.castSuccEmb) (by rw [card_map]; omega)
  obtain ⟨d, hd⟩ := exists_solution _ hli fun i => if ∃ k, k.castSucc = i.1 ∧ t k = true then 1 else -1
  have hd' : ∀ i ∈ s, ∑ j, W1 i.castSucc j * d j = if t i = true then 1 else -1 := fun i hi => by
    rw [hd ⟨i.castSucc, mem_map.mpr ⟨i, hi, rfl⟩⟩]
    congr 1
    rw [eq_iff_iff]
    constructor
    · rintro ⟨k, hk, hk'⟩
      rwa [← Fin.castSucc_injective m hk]
    · exact fun h => ⟨i, rfl, h⟩
  obtain ⟨ε, hε, hsmall⟩ := exists_small (fun k : Fin (m + 1) => if ∑ j, W1 k j * z j = 0 then 1 else |∑ j, W1 k j * z j|)
    (fun k => if ∑ j, W1 k j * z j = 0 then 0 else |∑ j, W1 k j * d j|) fun k => by
      split_ifs with h
      · norm_num
      · exact abs_pos.mpr h
  have hlin : ∀ k, ∑ j, W1 k j * (z j + ε * d j) = ∑ j, W1 k j * z j + ε * ∑ j, W1 k j * d j := fun k => by
    rw [Finset.mul_sum, ← Finset.sum_add_distrib]
    exact Finset.sum_congr rfl fun j _ => by ring
  have hkeep : ∀ k, ∑ j, W1 k j * z j ≠ 0 → ε * |∑ j, W1 k j * d j| < |∑ j, W1 k j * z j| := fun k hk => by
    have := hsmall k
    rwa [if_neg hk, if_neg hk] at this
  have hpos : ∀ k, 0 < ∑ j, W1 k j * z j → 0 < ∑ j, W1 k j * (z j + ε * d j) := fun k hk => by
    have h4 := hkeep k hk.ne'
    rw [abs_of_pos hk] at h4
    rw [hlin]
    have := mul_le_mul_of_nonneg_left (neg_abs_le (∑ j, W1 k j * d j)) hε.le
    linarith
  have hneg : ∀ k, ∑ j, W1 k j * z j < 0 → ∑ j, W1 k j * (z j + ε * d j) < 0 := fun k hk => by
    have h4 := hkeep k hk.ne
    rw [abs_of_neg hk] at h4
    rw [hlin]
    have := mul_le_mul_of_nonneg_left (le_abs_self (∑ j, W1 k j * d j)) hε.le
    linarith
  refine ⟨fun i => if i ∈ s then t i else decide (0 < ∑ j, W1 i.castSucc j * z j),
    mem_filter.mpr ⟨mem_univ _, fun j => z j + ε * d j, hpos _ h2, fun i => ?_⟩, fun i => rfl⟩
  beta_reduce
  by_cases hi : i ∈ s
  · rw [hlin, h1 i hi, hd' i hi, if_pos hi, zero_add]
    cases ht : t i with
    | true => exact .inl ⟨by simpa using hε, rfl⟩
    | false => exact .inr ⟨by simpa using hε, rfl⟩
  · rw [if_neg hi]
    rcases lt_or_gt_of_ne (h3 i hi) with h | h
    · exact .inr ⟨hneg _ h, decide_eq_false (not_lt.mpr h.le)⟩
    · exact .inl ⟨hpos _ h, decide_eq_true h⟩

/-- The sign vector of a pattern, with the last sign positive. -/
def signOf (x : Fin m → Bool) : Fin (m + 1) → ℝ := Fin.snoc (fun i : Fin m => if x i then (1 : ℝ) else -1) (1 : ℝ)

theorem signOf_injective : Function.Injective (signOf (m := m)) := by
  intro x y h
  funext i
  have := congrFun h i.castSucc
  simp only [signOf, Fin.snoc_castSucc] at this
  revert this
  cases x i <;> cases y i <;> norm_num

theorem signOf_mem {W1 : Matrix (Fin (m + 1)) (Fin n) ℝ} {x : Fin m → Bool} (hx : x ∈ family W1) : signOf x ∈ signVectors W1 := by
  classical
  obtain ⟨z, h1, h2⟩ := (mem_filter.mp hx).2
  refine ⟨z, fun i => ?_⟩
  refine Fin.lastCases ?_ (fun i => ?_) i
  · exact .inl ⟨h1, by simp [signOf]⟩
  · rcases h2 i with ⟨h3, h4⟩ | ⟨h3, h4⟩
    · exact .inl ⟨h3, by simp [signOf, h4]⟩
    · exact .inr ⟨h3, by simp [signOf, h4]⟩

/-- In general position there are as many sign vectors as the formula says. -/
theorem le_ncard {W1 : Matrix (Fin (m + 1)) (Fin n) ℝ} (hg : GeneralPosition W1) :
    2 * ∑ i ∈ Finset.range n, m.choose i ≤ (signVectors W1).ncard := by
  classical
  have hsub : (↑((family W1).image signOf ∪ (family W1).image fun x => -signOf x) : Set (Fin (m + 1) → ℝ)) ⊆ signVectors W1 := by
    intro y hy
    rcases mem_union.mp (mem_coe.mp hy) with h | h
    · obtain ⟨x, hx, rfl⟩ := mem_image.mp h
      exact signOf_mem hx
    · obtain ⟨x, hx, rfl⟩ := mem_image.mp h
      exact Proofs.SignVectors.neg_mem W1 (signOf_mem hx)
  refine le_trans ?_ (Set.ncard_le_ncard hsub (Proofs.SignVectors.finite W1))
  rw [Set.ncard_coe_finset, card_union_of_disjoint, card_image_of_injective _ signOf_injective,
    card_image_of_injective _ fun x y h => signOf_injective (neg_injective h)]
  · have := family_card hg
    omega
  · refine disjoint_left.mpr fun y h1 h2 => ?_
    obtain ⟨x, -, rfl⟩ := mem_image.mp h1
    obtain ⟨x', -, h⟩ := mem_image.mp h2
    have := congrFun h (Fin.last m)
    simp only [signOf, Pi.neg_apply, Fin.snoc_last] at this
    norm_num at this

/-- If the formula is attained, every set of fewer than `n` rows is independent together with the last row. -/
theorem independent_last {W1 : Matrix (Fin (m + 1)) (Fin n) ℝ} (h : 2 * ∑ i ∈ Finset.range n, m.choose i ≤ (signVectors W1).ncard)
    (s : Finset (Fin m)) (hs : s.card < n) :
    LinearIndependent ℝ fun o : Option s => W1 (o.elim (Fin.last m) fun i => i.1.castSucc) := by
  classical
  refine Proofs.SignVectors.shatters_independent W1 s ?_
  have h1 : (signVectors W1).ncard ≤ 2 * (Proofs.SignVectors.patterns W1).card := by
    refine (Set.ncard_le_ncard (Proofs.SignVectors.signVectors_subset W1) (Finset.finite_toSet _)).trans ?_
    rw [Set.ncard_coe_finset]
    refine (Finset.card_union_le _ _).trans ?_
    have h1 := Finset.card_image_le (s := Proofs.SignVectors.patterns W1) (f := Proofs.SignVectors.ofPattern)
    have h2 := Finset.card_image_le (s := Proofs.SignVectors.patterns W1) (f := fun s => -Proofs.SignVectors.ofPattern s)
    omega
  have h2 := card_le_card_shatterer (Proofs.SignVectors.patterns W1)
  let F : Finset (Finset (Fin m)) := (Finset.range n).biUnion fun i => Finset.powersetCard i Finset.univ
  have hsub : (Proofs.SignVectors.patterns W1).shatterer ⊆ F := by
    intro s hs
    refine Finset.mem_biUnion.mpr ⟨s.card, Finset.mem_range.mpr (Proofs.SignVectors.shatters_card W1 s (mem_shatterer.mp hs)), ?_⟩
    exact Finset.mem_powersetCard.mpr ⟨Finset.subset_univ _, rfl⟩
  have hF : F.card ≤ ∑ i ∈ Finset.range n, m.choose i := by
    refine Finset.card_biUnion_le.trans ?_
    simp
  have heq : (Proofs.SignVectors.patterns W1).shatterer = F := Finset.eq_of_subset_of_card_le hsub (by omega)
  refine mem_shatterer.mp (heq ▸ ?_)
  exact Finset.mem_biUnion.mpr ⟨s.card, Finset.mem_range.mpr hs, Finset.mem_powersetCard.mpr ⟨Finset.subset_univ _, rfl⟩⟩

/-- Permuting the rows does not change the number of sign vectors. -/
theorem ncard_perm (W1 : Matrix (Fin m) (Fin n) ℝ) (σ : Equiv.Perm (Fin m)) :
    (signVectors (W1.submatrix σ id)).ncard = (signVectors W1).ncard := by
  have h : signVectors (W1.submatrix σ id) = (fun x : Fin m → ℝ => x ∘ σ) '' signVectors W1 := by
    ext x
    constructor
    · rintro ⟨z, hz⟩
      refine ⟨x ∘ σ.symm, ⟨z, fun i => ?_⟩, ?_⟩
      · have := hz (σ.symm i)
        simpa using this
      · funext i
        simp
    · rintro ⟨y, ⟨z, hz⟩, rfl⟩
      exact ⟨z, fun i => hz (σ i)⟩
  rw [h, Set.ncard_image_of_injective]
  intro x y hxy
  funext i
  have := congrFun hxy (σ.symm i)
  simpa using this

/-- Only in general position the formula is attained. -/
theorem of_ncard {W1 : Matrix (Fin (m + 1)) (Fin n) ℝ} (h : 2 * ∑ i ∈ Finset.range n, m.choose i ≤ (signVectors W1).ncard) :
    GeneralPosition W1 := by
  classical
  intro s hs
  rcases s.eq_empty_or_nonempty with rfl | ⟨p, hp⟩
  · exact linearIndependent_empty_type
  let σ : Equiv.Perm (Fin (m + 1)) := Equiv.swap p (Fin.last m)
  have hσ : ∀ i, σ (σ i) = i := fun i => Equiv.swap_apply_self _ _ i
  let s' : Finset (Fin m) := Finset.univ.filter fun i => σ i.castSucc ∈ s
  have hmap : s'.map Fin.castSuccEmb ⊆ (s.erase p).image σ := by
    intro k hk
    obtain ⟨i, hi, rfl⟩ := mem_map.mp hk
    refine mem_image.mpr ⟨σ i.castSucc, mem_erase.mpr ⟨fun h => ?_, (mem_filter.mp hi).2⟩, hσ _⟩
    have h1 : i.castSucc = σ p := by rw [← h, hσ]
    rw [Equiv.swap_apply_left] at h1
    exact (Fin.castSucc_lt_last i).ne h1
  have hcard : s'.card < n := by
    have h1 := (card_le_card hmap).trans card_image_le
    rw [card_map, card_erase_of_mem hp] at h1
    have : 0 < s.card := card_pos.mpr ⟨p, hp⟩
    omega
  have hli := independent_last (W1 := W1.submatrix σ id) (by rw [ncard_perm]; exact h) s' hcard
  let e : s → Option s' := fun i => if h : ∃ k : Fin m, k.castSucc = σ i.1 then
    some ⟨h.choose, mem_filter.mpr ⟨mem_univ _, by rw [h.choose_spec, hσ]; exact i.2⟩⟩ else none
  have he : ∀ i, σ ((e i).elim (Fin.last m) fun i => i.1.castSucc) = i.1 := by
    intro i
    by_cases h : ∃ k : Fin m, k.castSucc = σ i.1
    · simp only [e, dif_pos h, Option.elim]
      rw [h.choose_spec, hσ]
    · simp only [e, dif_neg h, Option.elim]
      have h1 : σ i.1 = Fin.last m := by
        refine Fin.lastCases (motive := fun k => σ i.1 = k → k = Fin.last m) (fun _ => rfl) (fun k hk => absurd ⟨k, hk.symm⟩ h) (σ i.1) rfl
      rw [← h1, hσ]
  have hinj : Function.Injective e := fun i j hij => Subtype.ext (by rw [← he i, ← he j, hij])
  have := hli.comp e hinj
  convert this using 1
  funext i
  change W1 i.1 = W1 (σ _)
  rw [he]

/-- The formula is attained exactly in general position. -/
theorem ncard_eq_iff (W1 : Matrix (Fin (m + 1)) (Fin n) ℝ) :
    (signVectors W1).ncard = 2 * ∑ i ∈ Finset.range n, m.choose i ↔ GeneralPosition W1 :=
  ⟨fun h => of_ncard h.ge, fun h => le_antisymm (Proofs.SignVectors.ncard_le W1) (le_ncard h)⟩

end Proofs.GeneralPosition
