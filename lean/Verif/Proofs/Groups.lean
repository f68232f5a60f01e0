import Verif.Model.ActiveSurfaces
import Verif.Props.Misc

/-!
# Means and variances over groups of rows
-/

open Py Model.Misc Model.ActiveSurfaces

namespace Proofs.Groups

variable {M K G T V : ℕ}

/-- A group listed without repetitions. -/
theorem meanOn_image {s : Finset (Fin M)} (e : Fin T → Fin M) (he : Function.Injective e) (hs : ∀ r, r ∈ s ↔ ∃ t, e t = r)
    (f : Fin M → ℝ) : Spec.meanOn s f = Spec.meanOn Finset.univ fun t => f (e t) := by
  have h : s = Finset.univ.map ⟨e, he⟩ := by
    ext r
    rw [hs]
    simp
  unfold Spec.meanOn
  rw [h, Finset.sum_map, Finset.card_map]
  rfl

theorem varOn_image {s : Finset (Fin M)} (e : Fin T → Fin M) (he : Function.Injective e) (hs : ∀ r, r ∈ s ↔ ∃ t, e t = r)
    (f : Fin M → ℝ) : Spec.varOn s f = Spec.varOn Finset.univ fun t => f (e t) := by
  have h0 := meanOn_image e he hs f
  have h : s = Finset.univ.map ⟨e, he⟩ := by
    ext r
    rw [hs]
    simp
  unfold Spec.varOn
  rw [h0]
  generalize (Spec.meanOn Finset.univ fun t => f (e t)) = mu
  rw [h, Finset.sum_map, Finset.card_map]
  rfl

/-- `conditional_expectations` when every index from 0 to `K-1` occurs. -/
theorem condExp_of (hK : 0 < K) (F ind : Matrix (Fin M) (Fin 1) ℝ) (idx : Fin M → Fin K) (hind : ∀ r, ind r 0 = ((idx r : ℕ) : ℝ))
    (hs : Function.Surjective idx) :
    condExp (NpMat.of F) (NpMat.of ind) = .ok ⟨K, fun i => some (Spec.meanOn (Finset.univ.filter fun r => idx r = i) fun r => F r 0),
      fun i => some (Spec.varOn (Finset.univ.filter fun r => idx r = i) fun r => F r 0)⟩ := by
  have hM : 0 < M := by
    obtain ⟨r, -⟩ := hs ⟨0, hK⟩
    exact r.pos
  have e1 : (fun i : Fin M => (NpMat.of F).get i 0) = fun r => F r 0 := funext fun r => NpMat.get_of F r 0
  have e2 : (fun i : Fin M => ⌊(NpMat.of ind).get i 0⌋) = fun r => ((idx r : ℕ) : ℤ) := by
    funext r
    have : (NpMat.of ind).get r 0 = ind r 0 := NpMat.get_of ind r 0
    rw [this, hind, Int.floor_natCast]
  have e3 : condExp (NpMat.of F) (NpMat.of ind) = conditional_expectations (fun r => F r 0) fun r => ((idx r : ℕ) : ℤ) := by
    unfold condExp
    refine (if_pos rfl).trans ?_
    change conditional_expectations (fun i : Fin M => (NpMat.of F).get i 0) (fun i : Fin M => ⌊(NpMat.of ind).get i 0⌋) = _
    rw [e1, e2]
  rw [e3]
  obtain ⟨r, hr, h1, ⟨j, h2⟩, h3⟩ := Props.C05_group_means hM (fun r => F r 0) (fun r => ((idx r : ℕ) : ℤ)) (fun _ => by positivity)
  rw [hr]
  obtain ⟨n, Ef, Vf⟩ := r
  dsimp only at h1 h2 h3
  have hn : n = K := by
    obtain ⟨r, h4⟩ := hs ⟨K - 1, by omega⟩
    have h5 := h1 r
    rw [h4] at h5
    dsimp only at h5
    have := (idx j).2
    omega
  subst hn
  have h6 : ∀ i : Fin n, (Finset.univ.filter fun j : Fin M => ((idx j : ℕ) : ℤ) = (i : ℕ)) = Finset.univ.filter fun r => idx r = i := by
    intro i
    ext r
    simp [Fin.ext_iff]
  have h7 : ∀ i : Fin n, ∃ j : Fin M, ((idx j : ℕ) : ℤ) = (i : ℕ) := fun i => by
    obtain ⟨r, rfl⟩ := hs i
    exact ⟨r, rfl⟩
  congr 2
  · funext i
    rw [((h3 i).1 (h7 i)).1, h6]
  · funext i
    rw [((h3 i).1 (h7 i)).2, h6]

/-- `G` groups of `T` rows each. -/
theorem condExp_blocks (hG : 0 < G) (hT : 0 < T) (F ind : Matrix (Fin (G * T)) (Fin 1) ℝ)
    (hind : ∀ r, ind r 0 = (((r : ℕ) / T : ℕ) : ℝ)) :
    condExp (NpMat.of F) (NpMat.of ind) = .ok ⟨G, fun a => some (Spec.meanOn Finset.univ fun t : Fin T => F (finProdFinEquiv (a, t)) 0),
      fun a => some (Spec.varOn Finset.univ fun t : Fin T => F (finProdFinEquiv (a, t)) 0)⟩ := by
  have hinv : ∀ (a : Fin G) (t : Fin T), (finProdFinEquiv (a, t)).divNat = a := fun a t =>
    congrArg Prod.fst (finProdFinEquiv.symm_apply_apply (a, t))
  have hmem : ∀ (a : Fin G) (r : Fin (G * T)), r ∈ (Finset.univ.filter fun r : Fin (G * T) => r.divNat = a) ↔ ∃ t, finProdFinEquiv (a, t) = r := by
    intro a r
    rw [Finset.mem_filter]
    constructor
    · rintro ⟨-, rfl⟩
      exact ⟨r.modNat, finProdFinEquiv.apply_symm_apply r⟩
    · rintro ⟨t, rfl⟩
      exact ⟨Finset.mem_univ _, hinv a t⟩
  have hinj : ∀ a : Fin G, Function.Injective fun t : Fin T => finProdFinEquiv (a, t) := fun a t t' h =>
    (Prod.mk.inj (finProdFinEquiv.injective h)).2
  rw [condExp_of hG F ind (fun r => r.divNat) (fun r => hind r) (fun a => ⟨finProdFinEquiv (a, ⟨0, hT⟩), hinv _ _⟩)]
  congr 2
  · funext a
    rw [meanOn_image _ (hinj a) (hmem a)]
  · funext a
    rw [varOn_image _ (hinj a) (hmem a)]

/-- `G` groups of `T` rows each, followed by `V` single rows. -/
theorem condExp_blocks_append (hG : 0 < G) (hT : 0 < T) (F ind : Matrix (Fin (G * T + V)) (Fin 1) ℝ)
    (hind : ∀ r : Fin (G * T), ind (Fin.castAdd V r) 0 = (((r : ℕ) / T : ℕ) : ℝ)) (hind' : ∀ i : Fin V, ind (Fin.natAdd (G * T) i) 0 = ((G + i : ℕ) : ℝ)) :
    condExp (NpMat.of F) (NpMat.of ind) = .ok ⟨G + V,
      fun i => some (Fin.append (fun a => Spec.meanOn Finset.univ fun t : Fin T => F (Fin.castAdd V (finProdFinEquiv (a, t))) 0)
        (fun i => F (Fin.natAdd (G * T) i) 0) i),
      fun i => some (Fin.append (fun a => Spec.varOn Finset.univ fun t : Fin T => F (Fin.castAdd V (finProdFinEquiv (a, t))) 0)
        (fun _ => 0) i)⟩ := by
  let idx : Fin (G * T + V) → Fin (G + V) := Fin.append (fun r : Fin (G * T) => Fin.castAdd V r.divNat) (fun i => Fin.natAdd G i)
  have hinv : ∀ (a : Fin G) (t : Fin T), (finProdFinEquiv (a, t)).divNat = a := fun a t =>
    congrArg Prod.fst (finProdFinEquiv.symm_apply_apply (a, t))
  have i1 : ∀ r, idx (Fin.castAdd V r) = Fin.castAdd V r.divNat := fun r => Fin.append_left _ _ r
  have i2 : ∀ i, idx (Fin.natAdd (G * T) i) = Fin.natAdd G i := fun i => Fin.append_right _ _ i
  have hind2 : ∀ r, ind r 0 = ((idx r : ℕ) : ℝ) := by
    intro r
    refine Fin.addCases (fun r => ?_) (fun i => ?_) r
    · rw [i1, hind]
      rfl
    · rw [i2, hind']
      rfl
  have hs : Function.Surjective idx := by
    intro i
    refine Fin.addCases (fun a => ⟨Fin.castAdd V (finProdFinEquiv (a, ⟨0, hT⟩)), ?_⟩) (fun i => ⟨Fin.natAdd (G * T) i, i2 i⟩) i
    rw [i1, hinv]
  have hmem : ∀ (a : Fin G) (r : Fin (G * T + V)), r ∈ (Finset.univ.filter fun r => idx r = Fin.castAdd V a) ↔
      ∃ t, Fin.castAdd V (finProdFinEquiv (a, t)) = r := by
    intro a r
    rw [Finset.mem_filter]
    constructor
    · rintro ⟨-, h⟩
      revert h
      refine Fin.addCases (fun r => ?_) (fun i => ?_) r
      · intro h
        rw [i1] at h
        have := Fin.castAdd_injective _ _ h
        subst this
        exact ⟨r.modNat, congrArg _ (finProdFinEquiv.apply_symm_apply r)⟩
      · intro h
        rw [i2] at h
        have := congrArg Fin.val h
        simp only [Fin.val_natAdd, Fin.val_castAdd] at this
        omega
    · rintro ⟨t, rfl⟩
      exact ⟨Finset.mem_univ _, by rw [i1, hinv]⟩
  have hinj : ∀ a : Fin G, Function.Injective fun t : Fin T => Fin.castAdd V (finProdFinEquiv (a, t)) := fun a t t' h =>
    (Prod.mk.inj (finProdFinEquiv.injective (Fin.castAdd_injective _ _ h))).2
  have hmem' : ∀ (i : Fin V), (Finset.univ.filter fun r => idx r = Fin.natAdd G i) = {Fin.natAdd (G * T) i} := by
    intro i
    ext r
    rw [Finset.mem_filter, Finset.mem_singleton]
    constructor
    · rintro ⟨-, h⟩
      revert h
      refine Fin.addCases (fun r => ?_) (fun j => ?_) r
      · intro h
        rw [i1] at h
        have := congrArg Fin.val h
        simp only [Fin.val_natAdd, Fin.val_castAdd] at this
        have := r.divNat.2
        omega
      · intro h
        rw [i2] at h
        rw [Fin.natAdd_injective _ _ h]
    · rintro rfl
      exact ⟨Finset.mem_univ _, i2 i⟩
  rw [condExp_of (by omega) F ind idx hind2 hs]
  congr 2
  · funext i
    refine Fin.addCases (fun a => ?_) (fun i => ?_) i
    · rw [Fin.append_left, meanOn_image _ (hinj a) (hmem a)]
    · rw [Fin.append_right, hmem']
      simp [Spec.meanOn]
  · funext i
    refine Fin.addCases (fun a => ?_) (fun i => ?_) i
    · rw [Fin.append_left, varOn_image _ (hinj a) (hmem a)]
    · rw [Fin.append_right, hmem']
      simp [Spec.varOn, Spec.meanOn]

end Proofs.Groups
