import Mathlib.Data.Fin.Tuple.Basic
import Mathlib.Data.Fintype.Pi
import Mathlib.Data.Fintype.Powerset
import Mathlib.Data.Finset.Powerset
import Mathlib.Algebra.BigOperators.Group.Finset.Basic
import Mathlib.Tactic.Linarith

/-!
# A family of patterns has at least as many members as strongly shattered sets

The inequality opposite to that of Sauer and Shelah.
-/

open Finset

namespace Proofs.StrongShatter

variable {m : ℕ}

/-- `s` is strongly shattered: for some choice outside `s` all patterns on `s` occur. -/
def Strong (A : Finset (Fin m → Bool)) (s : Fin m → Bool) : Prop :=
  ∃ c : Fin m → Bool, ∀ t : Fin m → Bool, (fun i => if s i then t i else c i) ∈ A

open Classical in
/-- The strongly shattered sets. -/
noncomputable def strong (A : Finset (Fin m → Bool)) : Finset (Fin m → Bool) := Finset.univ.filter (Strong A)

/-- The members that begin with `b`, without that entry. -/
def section_ (A : Finset (Fin (m + 1) → Bool)) (b : Bool) : Finset (Fin m → Bool) :=
  Finset.univ.filter fun x => (Fin.cons b x : Fin (m + 1) → Bool) ∈ A

theorem mem_section {A : Finset (Fin (m + 1) → Bool)} {b : Bool} {x : Fin m → Bool} :
    x ∈ section_ A b ↔ (Fin.cons b x : Fin (m + 1) → Bool) ∈ A := by simp [section_]

theorem card_sections (A : Finset (Fin (m + 1) → Bool)) : (section_ A false).card + (section_ A true).card = A.card := by
  classical
  have hinj : ∀ b : Bool, Function.Injective fun x : Fin m → Bool => (Fin.cons b x : Fin (m + 1) → Bool) := fun b x y h =>
    (Fin.cons_inj.mp h).2
  have hA : A = (section_ A false).image (fun x => (Fin.cons false x : Fin (m + 1) → Bool)) ∪
      (section_ A true).image fun x => (Fin.cons true x : Fin (m + 1) → Bool) := by
    ext x
    rw [mem_union, mem_image, mem_image]
    constructor
    · intro hx
      have hx' : (Fin.cons (x 0) (Fin.tail x) : Fin (m + 1) → Bool) = x := Fin.cons_self_tail x
      cases h0 : x 0 with
      | false =>
        rw [h0] at hx'
        exact .inl ⟨Fin.tail x, mem_section.mpr (hx'.symm ▸ hx), hx'⟩
      | true =>
        rw [h0] at hx'
        exact .inr ⟨Fin.tail x, mem_section.mpr (hx'.symm ▸ hx), hx'⟩
    · rintro (⟨y, hy, rfl⟩ | ⟨y, hy, rfl⟩) <;> exact mem_section.mp hy
  conv_rhs => rw [hA]
  rw [card_union_of_disjoint, card_image_of_injective _ (hinj _), card_image_of_injective _ (hinj _)]
  rw [disjoint_left]
  rintro _ h1 h2
  obtain ⟨x, -, rfl⟩ := mem_image.mp h1
  obtain ⟨y, -, h⟩ := mem_image.mp h2
  have := congrFun h 0
  simp at this

/-- The inequality. -/
theorem card_strong_le (A : Finset (Fin m → Bool)) : (strong A).card ≤ A.card := by
  classical
  induction m with
  | zero =>
    rcases A.eq_empty_or_nonempty with rfl | h
    · have : strong (∅ : Finset (Fin 0 → Bool)) = ∅ := by
        refine filter_eq_empty_iff.mpr fun s _ ⟨c, hc⟩ => ?_
        simpa using hc c
      rw [this]
    · exact (card_le_one.mpr fun a _ b _ => Subsingleton.elim a b).trans (card_pos.mpr h)
  | succ m ih =>
    have hsub : strong A ⊆ (strong (section_ A false) ∪ strong (section_ A true)).image (fun x => (Fin.cons false x : Fin (m + 1) → Bool)) ∪
        (strong (section_ A false) ∩ strong (section_ A true)).image fun x => (Fin.cons true x : Fin (m + 1) → Bool) := by
      intro s hs
      obtain ⟨c, hc⟩ := (mem_filter.mp hs).2
      have hs' : (Fin.cons (s 0) (Fin.tail s) : Fin (m + 1) → Bool) = s := Fin.cons_self_tail s
      have key : ∀ b : Bool, (s 0 = true ∨ b = c 0) → Strong (section_ A b) (Fin.tail s) := by
        intro b hb
        refine ⟨Fin.tail c, fun t => mem_section.mpr ?_⟩
        have h := hc (Fin.cons b t)
        convert h using 1
        funext i
        refine Fin.cases ?_ (fun i => ?_) i
        · rcases hb with hb | hb
          · simp [hb]
          · simp [hb]
        · simp only [Fin.tail, Fin.cons_succ]
          rfl
      rw [mem_union, mem_image, mem_image]
      cases h0 : s 0 with
      | false =>
        rw [h0] at hs'
        refine .inl ⟨Fin.tail s, mem_union.mpr ?_, hs'⟩
        have := key (c 0) (.inr rfl)
        cases hc0 : c 0 with
        | false => exact .inl (mem_filter.mpr ⟨mem_univ _, hc0 ▸ this⟩)
        | true => exact .inr (mem_filter.mpr ⟨mem_univ _, hc0 ▸ this⟩)
      | true =>
        rw [h0] at hs'
        exact .inr ⟨Fin.tail s, mem_inter.mpr ⟨mem_filter.mpr ⟨mem_univ _, key _ (.inl h0)⟩,
          mem_filter.mpr ⟨mem_univ _, key _ (.inl h0)⟩⟩, hs'⟩
    calc (strong A).card ≤ _ := card_le_card hsub
      _ ≤ _ := card_union_le _ _
      _ ≤ (strong (section_ A false) ∪ strong (section_ A true)).card + (strong (section_ A false) ∩ strong (section_ A true)).card :=
        Nat.add_le_add card_image_le card_image_le
      _ = (strong (section_ A false)).card + (strong (section_ A true)).card := card_union_add_card_inter _ _
      _ ≤ (section_ A false).card + (section_ A true).card := Nat.add_le_add (ih _) (ih _)
      _ = A.card := card_sections A

/-- If all sets with fewer than `n` elements are strongly shattered, there are many patterns. -/
theorem sum_choose_le (A : Finset (Fin m → Bool)) (n : ℕ)
    (h : ∀ s : Finset (Fin m), s.card < n → ∃ c : Fin m → Bool, ∀ t : Fin m → Bool, ∃ x ∈ A, ∀ i, x i = if i ∈ s then t i else c i) :
    ∑ i ∈ Finset.range n, m.choose i ≤ A.card := by
  classical
  refine le_trans ?_ (card_strong_le A)
  let F : Finset (Finset (Fin m)) := (Finset.range n).biUnion fun i => Finset.powersetCard i Finset.univ
  have hF : F.card = ∑ i ∈ Finset.range n, m.choose i := by
    rw [card_biUnion]
    · simp
    · intro i _ j _ hij
      refine disjoint_left.mpr fun s hs hs' => ?_
      exact hij ((mem_powersetCard.mp hs).2.symm.trans (mem_powersetCard.mp hs').2)
  rw [← hF]
  refine card_le_card_of_injOn (fun s i => decide (i ∈ s)) ?_ ?_
  · intro s hs
    obtain ⟨i, hi, hs'⟩ := mem_biUnion.mp hs
    obtain ⟨c, hc⟩ := h s ((mem_powersetCard.mp hs').2 ▸ mem_range.mp hi)
    refine mem_filter.mpr ⟨mem_univ _, c, fun t => ?_⟩
    obtain ⟨x, hx, he⟩ := hc t
    convert hx using 1
    funext i
    simp [he]
  · intro s _ t _ hst
    ext i
    have := congrFun hst i
    simpa using this

end Proofs.StrongShatter
