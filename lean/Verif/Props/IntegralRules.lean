import Verif.Props.TensorExact
import Verif.Props.Integrals
import Verif.Props.Zonotope
import Verif.Props.Maximin
import Verif.Props.ActiveTraining
import Verif.Proofs.DoubleRoot

/-!
# Properties C58, C59 and C60: quadrature rules on the active variables
-/

open Py Model.Misc Model.QPSolver Model.Subspaces Model.Domains Model.ResponseSurfaces Model.ActiveSurfaces Model.Integrals Model.Quadrature Proofs.Run
open Spec MeasureTheory ProbabilityTheory

namespace Props

variable {S E : Type} {m n k G T : ℕ}

/-! ## C59: the interval rule -/

/-- The `i`-th of `K` equal parts of `[a, b]`: closed on the left, open on the right except the last. -/
def cell (a b : ℝ) (K i : ℕ) : Set ℝ :=
  {t | a + i * ((b - a) / K) ≤ t ∧ (t < a + (i + 1) * ((b - a) / K) ∨ (i + 1 = K ∧ t = b))}

theorem linspace_eq (a b : ℝ) (K : ℕ) (i : Fin (K + 1)) : Np.linspace a b (K + 1) i = a + (i : ℕ) * ((b - a) / K) := by
  unfold Np.linspace
  push_cast
  rw [add_sub_cancel_right]

open Classical in
theorem card_diff {NX : ℕ} (p q : Fin NX → Prop) (h : ∀ i, p i → q i) :
    (((Finset.univ.filter q).card : ℤ) - (Finset.univ.filter p).card) = (Finset.univ.filter fun i => q i ∧ ¬p i).card := by
  have h1 : Finset.univ.filter p ⊆ Finset.univ.filter q := fun i hi => by
    simp only [Finset.mem_filter, Finset.mem_univ, true_and] at hi ⊢
    exact h i hi
  have h2 := Finset.card_sdiff_add_card_eq_card h1
  have h3 : Finset.univ.filter q \ Finset.univ.filter p = Finset.univ.filter fun i => q i ∧ ¬p i := by
    ext i
    simp
  rw [h3] at h2
  omega

open Classical in
/-- The counts are the numbers of samples in the cells. -/
theorem histogram_cell {NX K : ℕ} {x : Fin NX → ℝ} {a b : ℝ} {c : Fin K → ℤ} (h : histogram x (Np.linspace a b (K + 1)) = .ok c) (i : Fin K) :
    c i = (Finset.univ.filter fun s => x s ∈ cell a b K i).card := by
  unfold histogram at h
  split_ifs at h with h1
  push Not at h1
  have h2 := h1 i
  rw [← Except.ok.inj h]
  have hK : (0 : ℝ) < K := by exact_mod_cast (Nat.zero_le _).trans_lt i.2
  have e0 : Np.linspace a b (K + 1) i.castSucc = a + (i : ℕ) * ((b - a) / K) := linspace_eq _ _ _ _
  have e1 : Np.linspace a b (K + 1) i.succ = a + ((i : ℕ) + 1) * ((b - a) / K) := by
    rw [linspace_eq]
    push_cast [Fin.val_succ]
    rfl
  rw [e0, e1] at h2
  beta_reduce
  unfold cumCount
  rw [if_neg (Fin.castSucc_lt_last i).ne, e0, e1]
  by_cases hl : i.succ = Fin.last K
  · rw [if_pos hl]
    have hl' : (i : ℕ) + 1 = K := congrArg Fin.val hl
    have hb : a + ((i : ℕ) + 1) * ((b - a) / K) = b := by
      rw [show ((i : ℕ) : ℝ) + 1 = (K : ℝ) by exact_mod_cast hl']
      field_simp
      ring
    rw [card_diff]
    · congr 2
      ext s
      simp only [cell, Set.mem_setOf_eq, not_lt, hb, hl', true_and, Finset.mem_filter, Finset.mem_univ, ← le_iff_lt_or_eq]
      exact and_comm
    · intro s hs
      linarith
  · rw [if_neg hl]
    have hl' : (i : ℕ) + 1 ≠ K := fun e => hl (Fin.ext e)
    rw [card_diff]
    · congr 2
      ext s
      simp only [cell, Set.mem_setOf_eq, not_lt, hl', false_and, or_false, Finset.mem_filter, Finset.mem_univ, true_and]
      exact and_comm
    · intro s hs
      linarith

open Classical in
/-- C59: the nodes of the interval rule are the midpoints of `N` equal parts and the weights the fractions of the samples in the parts. -/
theorem C59_interval {rng : Rng S} {b : Boundary} {V : Matrix (Fin m) (Fin 1) ℝ} {N : ℤ} {NX : ℕ} {w w' : S × E} {r : Rule}
    (h : (interval_quadrature_rule rng b (NpMat.of V) N NX).run w = (.ok r, w')) :
    ∃ (K : ℕ) (lo hi : ℝ) (x wt : Fin K → ℝ), (K : ℤ) = N ∧ (0 < K → lo ≤ hi) ∧
      (NpMat.of b.verts.Y).item 0 0 = .ok lo ∧ (NpMat.of b.verts.Y).item 1 0 = .ok hi ∧
      r.x = NpMat.of (Matrix.of fun i (_ : Fin 1) => x i) ∧ r.w = NpMat.of (Matrix.of fun i (_ : Fin 1) => wt i) ∧
      w' = ((rng.uniform NX m w.1).2, w.2) ∧
      ∀ i : Fin K, x i = ((lo + i * ((hi - lo) / K)) + (lo + (i + 1) * ((hi - lo) / K))) / 2 ∧
        wt i = ((Finset.univ.filter fun s : Fin NX => ∑ j, (rng.uniform NX m w.1).1 s j * V j 0 ∈ cell lo hi K i).card : ℝ) / NX := by
  obtain ⟨K, lo, hi, c, hK, h1, h2, h3, rfl, h5⟩ := interval_rule_inv h
  refine ⟨K, lo, hi, fun i => 0.5 * (Np.linspace lo hi (K + 1) i.succ + Np.linspace lo hi (K + 1) i.castSucc), fun i => (c i : ℝ) / NX,
    hK, fun hpos => ?_, h1, h2, rfl, rfl, h5, fun i => ⟨?_, ?_⟩⟩
  · unfold histogram at h3
    split_ifs at h3 with h6
    push Not at h6
    have := h6 ⟨0, hpos⟩
    rw [linspace_eq, linspace_eq] at this
    have hK : (0 : ℝ) < K := by exact_mod_cast hpos
    simp only [Fin.succ_mk, Fin.castSucc_mk, Nat.cast_zero, zero_add, Nat.cast_one] at this
    have h7 : 0 ≤ (hi - lo) / K := by linarith
    have h8 := (div_nonneg_iff.mp h7)
    rcases h8 with h8 | h8
    · linarith [h8.1]
    · linarith [h8.2]
  · dsimp only
    rw [linspace_eq, linspace_eq]
    push_cast [Fin.val_succ, Fin.val_castSucc]
    ring
  · dsimp only
    rw [histogram_cell h3 i]
    simp only [Matrix.mul_apply, Int.cast_natCast]
    congr!

/-! ## C58: sums of the weights -/

theorem sum_diff (K : ℕ) (f : Fin (K + 1) → ℤ) : ∑ i : Fin K, (f i.succ - f i.castSucc) = f (Fin.last K) - f 0 := by
  induction K with
  | zero => simp
  | succ K ih =>
    rw [Fin.sum_univ_castSucc]
    have := ih fun i => f i.castSucc
    simp only [Fin.succ_castSucc, Fin.castSucc_zero, Fin.succ_last] at this ⊢
    rw [this]
    ring

open Classical in
/-- C58: the weights of the interval rule are non-negative and sum to the fraction of the samples in the interval. -/
theorem C58_interval {rng : Rng S} {b : Boundary} {V : Matrix (Fin m) (Fin 1) ℝ} {N : ℤ} (hN : 1 ≤ N) {NX : ℕ} {w w' : S × E} {r : Rule}
    (h : (interval_quadrature_rule rng b (NpMat.of V) N NX).run w = (.ok r, w')) :
    ∃ lo hi : ℝ, (NpMat.of b.verts.Y).item 0 0 = .ok lo ∧ (NpMat.of b.verts.Y).item 1 0 = .ok hi ∧ (∀ i : Fin r.x.rows, 0 ≤ r.w.get i 0) ∧
      ∑ i : Fin r.x.rows, r.w.get i 0
        = ((Finset.univ.filter fun s : Fin NX => lo ≤ ∑ j, (rng.uniform NX m w.1).1 s j * V j 0 ∧ ∑ j, (rng.uniform NX m w.1).1 s j * V j 0 ≤ hi).card : ℝ) / NX := by
  obtain ⟨K', lo', hi', x', wt', hK', hle, i1, i2, e1, e2, -, h7⟩ := C59_interval h
  obtain ⟨K, lo, hi, c, hK, h1, h2, h3, rfl, h5⟩ := interval_rule_inv h
  obtain rfl : K' = K := by exact_mod_cast hK'.trans hK.symm
  obtain rfl := Except.ok.inj (i1.symm.trans h1)
  obtain rfl := Except.ok.inj (i2.symm.trans h2)
  have hpos : 0 < K' := by omega
  have hlh := hle hpos
  refine ⟨lo', hi', h1, h2, fun i => ?_, ?_⟩
  · have := (NpMat.get_of (Matrix.of fun (i : Fin K') (_ : Fin 1) => (c i : ℝ) / (NX : ℝ)) i 0)
    refine le_of_le_of_eq ?_ this.symm
    change 0 ≤ (c i : ℝ) / (NX : ℝ)
    rw [histogram_cell h3 i]
    positivity
  · have : ∀ i : Fin K', (NpMat.of (Matrix.of fun (i : Fin K') (_ : Fin 1) => (c i : ℝ) / (NX : ℝ))).get i 0 = (c i : ℝ) / NX :=
      fun i => NpMat.get_of _ i 0
    refine (Finset.sum_congr (s₁ := (Finset.univ : Finset (Fin K'))) rfl fun i _ => this i).trans ?_
    rw [← Finset.sum_div]
    congr 1
    unfold histogram at h3
    split_ifs at h3 with h6
    rw [← Except.ok.inj h3, ← Int.cast_sum, sum_diff K' fun i => (cumCount _ _ i : ℤ)]
    unfold cumCount
    rw [if_pos rfl, if_neg (by intro e; have := congrArg Fin.val e; simp at this; omega)]
    have e0 : Np.linspace lo' hi' (K' + 1) 0 = lo' := by
      rw [linspace_eq]
      simp
    have e1 : Np.linspace lo' hi' (K' + 1) (Fin.last K') = hi' := by
      rw [linspace_eq]
      have hK : (0 : ℝ) < K' := by exact_mod_cast hpos
      rw [Fin.val_last]
      field_simp
      ring
    rw [e0, e1, card_diff _ _ fun s hs => hs.le.trans hlh, Int.cast_natCast]
    congr 2
    ext s
    simp only [not_lt, Matrix.mul_apply]
    simp only [Finset.mem_filter, Finset.mem_univ, true_and]
    exact and_comm

/-- C58: on the interval computed by `interval_endpoints` the weights sum to one for all samples from the cube. -/
theorem C58_interval_one {rng : Rng S} {V : Matrix (Fin m) (Fin 1) ℝ} {X : Matrix (Fin 2) (Fin m) ℝ} {N : ℤ} (hN : 1 ≤ N) {NX : ℕ} (hNX : 1 ≤ NX)
    {w w' : S × E} {r : Rule} (hU : ∀ i j, -1 ≤ (rng.uniform NX m w.1).1 i j ∧ (rng.uniform NX m w.1).1 i j ≤ 1)
    (h : (interval_quadrature_rule rng ⟨m, 1, ⟨2, (interval_endpoints V).1, X⟩, none, none⟩ (NpMat.of V) N NX).run w = (.ok r, w')) :
    (∀ i : Fin r.x.rows, 0 ≤ r.w.get i 0) ∧ ∑ i : Fin r.x.rows, r.w.get i 0 = 1 := by
  classical
  obtain ⟨lo, hi, h1, h2, h3, h4⟩ := C58_interval hN h
  refine ⟨h3, h4.trans ?_⟩
  have e1 : lo = (interval_endpoints V).1 0 0 := by
    have : (NpMat.of (interval_endpoints V).1).item 0 0 = .ok ((interval_endpoints V).1 0 0) := by
      simp [NpMat.item, NpMat.get, NpMat.of]
    exact Except.ok.inj (h1.symm.trans this)
  have e2 : hi = (interval_endpoints V).1 1 0 := by
    have : (NpMat.of (interval_endpoints V).1).item 1 0 = .ok ((interval_endpoints V).1 1 0) := by
      simp [NpMat.item, NpMat.get, NpMat.of]
    exact Except.ok.inj (h2.symm.trans this)
  rw [Finset.filter_true_of_mem, Finset.card_univ, Fintype.card_fin, div_self (by positivity)]
  intro s _
  rw [e1, e2]
  refine (C49_range V _).mpr ⟨fun j => (rng.uniform NX m w.1).1 s j, hU s, fun j => ?_⟩
  exact Finset.sum_congr rfl fun i _ => by rw [Subsingleton.elim j 0, mul_comm]

open Classical in
/-- C58: every successful zonotope rule has a node at the centroid of each simplex of the triangulation of the vertices and the design, with
the fraction of the samples found in that simplex; the weights sum to one minus the fraction of the samples in no simplex. -/
theorem C58_zonotope {lib : Model.Integrals.Lib} {rng : Rng S} {b : Boundary} {V : Matrix (Fin m) (Fin n) ℝ} {N : ℤ} {NX : ℕ} (hNX : 1 ≤ NX)
    {w w' : S × E} {r : Rule} (h : (zonotope_quadrature_rule lib rng b (NpMat.of V) N NX).run w = (.ok r, w')) :
    ∃ (K : ℕ) (D : Matrix (Fin K) (Fin b.n) ℝ) (w1 : S × E) (Tr : Tri (b.verts.num + K) b.n) (pt : Fin NX → Fin b.n → ℝ), (K : ℤ) = N ∧
      (Model.Designs.maximin_design lib.base.des rng b.verts.Y K).run w = (.ok D, w1) ∧ w1 = w ∧
      lib.delaunay (Np.vstack b.verts.Y D) = .ok Tr ∧ n = b.n ∧
      (∀ s (j : Fin b.n) (j' : Fin n), (j : ℕ) = j' → pt s j = ∑ i, (rng.uniform NX m w1.1).1 s i * V i j') ∧
      r.x.rows = Tr.nsimplex ∧ r.x.cols = b.n ∧
      (∀ (t : Fin Tr.nsimplex) (j : Fin b.n), r.x.get t j = (∑ i, Np.vstack b.verts.Y D (Tr.simplices t i) j) / (b.n + 1)) ∧
      (∀ t : Fin Tr.nsimplex, r.w.get t 0 = ((Finset.univ.filter fun s => Tr.find_simplex (pt s) = some t).card : ℝ) / NX) ∧
      (∀ i : Fin r.x.rows, 0 ≤ r.w.get i 0) ∧
      ∑ i : Fin r.x.rows, r.w.get i 0 = 1 - ((Finset.univ.filter fun s => Tr.find_simplex (pt s) = none).card : ℝ) / NX := by
  unfold zonotope_quadrature_rule at h
  by_cases hN : N < 0
  · rw [if_pos hN] at h
    exact absurd (Prod.mk.inj h).1 (by simp)
  rw [if_neg hN] at h
  obtain ⟨D, w1, h1, q1⟩ := bind_inv h
  obtain ⟨Tr, w2, h2, q2⟩ := bind_inv q1
  obtain ⟨h2', rfl⟩ := lift_inv h2
  obtain ⟨U, w3, h3, q3⟩ := bind_inv q2
  obtain ⟨rfl, rfl⟩ := draw_inv h3
  obtain ⟨s, w4, h4, q4⟩ := bind_inv q3
  obtain ⟨h4', rfl⟩ := lift_inv h4
  have h6 : NpMat.dot (NpMat.of (rng.uniform NX m w2.1).1) (NpMat.of V) = .ok (NpMat.of ((rng.uniform NX m w2.1).1 * V)) := dot_of _ _
  have h7 : s = NpMat.of ((rng.uniform NX m w2.1).1 * V) := Except.ok.inj (h4'.symm.trans h6)
  dsimp only at q4
  by_cases hc : s.cols = b.n
  · rw [if_pos hc] at q4
    obtain ⟨rfl, -⟩ := pure_inv q4
    have hw : ∀ t : Fin Tr.nsimplex, (NpMat.of (Matrix.of fun (t : Fin Tr.nsimplex) (_ : Fin 1) =>
        ((Finset.univ.filter fun i : Fin NX => (Tr.find_simplex fun j => s.get i j) = some t).card : ℝ) / (NX : ℝ))).get t 0
          = ((Finset.univ.filter fun i : Fin NX => (Tr.find_simplex fun j => s.get i j) = some t).card : ℝ) / (NX : ℝ) :=
      fun t => NpMat.get_of _ t 0
    refine ⟨N.toNat, D, w2, Tr, fun i j => s.get i j, by omega, h1, C18_maximin_restores _ _ _ _ _ _ _ h1, h2', ?_, ?_, rfl, rfl, ?_, hw, fun i => ?_, ?_⟩
    · rw [← hc, h7]
      rfl
    · intro i j j' hj
      rw [h7]
      beta_reduce
      rw [hj]
      exact (NpMat.get_of _ i j').trans (Matrix.mul_apply)
    · intro t j
      refine (NpMat.get_of _ t j).trans ?_
      push_cast
      rfl
    · rw [hw i]
      positivity
    · refine (Finset.sum_congr (s₁ := (Finset.univ : Finset (Fin Tr.nsimplex))) rfl fun i _ => hw i).trans ?_
      rw [← Finset.sum_div, eq_sub_iff_add_eq, ← add_div, div_eq_one_iff_eq (by positivity)]
      have h8 : (Finset.univ : Finset (Fin NX)).card
          = ∑ o : Option (Fin Tr.nsimplex), (Finset.univ.filter fun i : Fin NX => (Tr.find_simplex fun j => s.get i j) = o).card :=
        Finset.card_eq_sum_card_fiberwise fun i _ => Finset.mem_univ _
      rw [Fintype.sum_option, Finset.card_univ, Fintype.card_fin] at h8
      have h9 : (NX : ℝ) = _ := congrArg (Nat.cast (R := ℝ)) h8
      rw [h9]
      push_cast
      ring
  · rw [if_neg hc] at q4
    exact absurd (Prod.mk.inj q4).1 (by simp)

/-- C58: the weights on the full space inherit sign and sum. -/
theorem C58_full (hT : 0 < T) {V1 : Matrix (Fin m) (Fin n) ℝ} {Yp : Matrix (Fin G) (Fin n) ℝ} {Yw : Fin G → ℝ}
    {X : Matrix (Fin (G * T)) (Fin m) ℝ} {Xw : Fin (G * T) → ℝ} (h : IsFullRule V1 Yp Yw X Xw) (hw : ∀ i, 0 ≤ Yw i) :
    (∀ r, 0 ≤ Xw r) ∧ ∑ r, Xw r = ∑ i, Yw i := by
  refine ⟨fun r => ?_, h.sum_weights hT⟩
  rw [show r = finProdFinEquiv (r.divNat, r.modNat) from (finProdFinEquiv.apply_symm_apply r).symm, h.weight]
  exact div_nonneg (hw _) (Nat.cast_nonneg _)

/-! ## C60: the rule on an unbounded domain -/

/-- The largest number of nodes in each dimension. -/
theorem exists_root {N : ℤ} (hN : 1 ≤ N) (hn : 1 ≤ n) : ∃ k : ℕ, 1 ≤ k ∧ ((k : ℤ) ^ n ≤ N) ∧ N < ((k : ℤ) + 1) ^ n := by
  have hN' : (1 : ℝ) ≤ N := by exact_mod_cast hN
  have hn' : (0 : ℝ) < n := by exact_mod_cast hn
  have hn0 : n ≠ 0 := by omega
  set x : ℝ := (N : ℝ) ^ (1 / (n : ℝ)) with hx
  have hx1 : 1 ≤ x := Real.one_le_rpow hN' (by positivity)
  have hxn : x ^ n = N := by
    rw [hx, ← Real.rpow_natCast, ← Real.rpow_mul (by linarith), one_div, inv_mul_cancel₀ hn'.ne', Real.rpow_one]
  have hf : 1 ≤ ⌊x⌋ := Int.le_floor.mpr (by exact_mod_cast hx1)
  have hk : ((⌊x⌋.toNat : ℕ) : ℤ) = ⌊x⌋ := Int.toNat_of_nonneg (by omega)
  refine ⟨⌊x⌋.toNat, by omega, ?_, ?_⟩
  · rw [hk]
    have : ((⌊x⌋ : ℤ) : ℝ) ^ n ≤ N := by
      rw [← hxn]
      exact pow_le_pow_left₀ (by exact_mod_cast (by omega : (0 : ℤ) ≤ ⌊x⌋)) (Int.floor_le x) n
    exact_mod_cast this
  · rw [hk]
    have : (N : ℝ) < (((⌊x⌋ : ℤ) : ℝ) + 1) ^ n := by
      rw [← hxn]
      exact pow_lt_pow_left₀ (Int.lt_floor_add_one x) (by linarith) hn0
    exact_mod_cast this

/-- The number of nodes in each dimension, computed in double precision: the largest number, except that for a perfect power it may be one
less when `1/n` is not a double. -/
theorem root_bounds {root : ℤ → ℕ → ℝ} {N : ℤ} (hN : 1 ≤ N) (hn : 1 ≤ n) (hs : (n : ℤ) * 2 ^ n * N ≤ 2 ^ 45) (hroot : DoubleRoot N n (root N n)) :
    ∃ k : ℕ, rootInt root N n = .ok k ∧ 1 ≤ k ∧ (k : ℤ) ^ n ≤ N ∧ N ≤ ((k : ℤ) + 1) ^ n ∧
      ((∀ q : ℤ, q ^ n ≠ N) ∨ IsDouble (1 / (n : ℝ)) → N < ((k : ℤ) + 1) ^ n) := by
  obtain ⟨k, h1, h2, h3⟩ := exists_root hN hn
  have hs' : (n : ℤ) * ((k : ℤ) + 1) ^ n ≤ 2 ^ 45 := by
    refine le_trans ?_ hs
    rw [mul_assoc]
    refine mul_le_mul_of_nonneg_left ?_ (by omega)
    calc ((k : ℤ) + 1) ^ n ≤ (2 * k) ^ n := pow_le_pow_left₀ (by omega) (by omega) n
      _ = 2 ^ n * (k : ℤ) ^ n := mul_pow _ _ _
      _ ≤ 2 ^ n * N := mul_le_mul_of_nonneg_left h2 (by positivity)
  obtain ⟨h4, h5, h6, h7⟩ := Proofs.Doubles.floor_root hn h1 h2 h3 hs' hroot
  have hk : ((⌊root N n⌋.toNat : ℕ) : ℤ) = ⌊root N n⌋ := Int.toNat_of_nonneg (by omega)
  refine ⟨⌊root N n⌋.toNat, ?_, by omega, ?_, ?_, fun hc => ?_⟩
  · unfold rootInt
    rw [if_neg (by omega), hk]
  · rw [hk]
    exact (pow_le_pow_left₀ (by omega) h6 n).trans h2
  · rw [hk]
    by_cases he : (k : ℤ) ^ n = N
    · exact he.ge.trans (pow_le_pow_left₀ (by omega) (by omega) n)
    · rw [h7 (.inl he)]
      exact h3.le
  · rw [hk, h7 (hc.imp_left fun h => h _)]
    exact h3

variable {a : AVMap S E} {V1 : Matrix (Fin m) (Fin n) ℝ}

/-- C60, C58: on an unbounded domain the rule has `k^n <= N` nodes, where `k` is the largest such number (unless `N` is a
perfect power, see `C60_refuted`), positive weights that sum to one, and
is exact for polynomials of degree at most `2k-1` in each active variable. -/
theorem C60_rule_partial (hd : a.dom = .unbounded) (hW : a.subspaces.W1 = some (NpMat.of V1)) (hn : 1 ≤ n) {lib : Model.Integrals.Lib}
    (hq : Proofs.Quadrature.LibOK lib.base.quad) (rng : Rng S) {N : ℤ} (hN : 1 ≤ N) (hs : (n : ℤ) * 2 ^ n * N ≤ 2 ^ 45)
    (hroot : DoubleRoot N n (lib.base.root N n)) {w w' : S × Files × E} {r : Rule}
    (hr : (av_quadrature_rule lib rng a N).run w = (.ok r, w')) :
    w' = w ∧ ∃ k : ℕ, 1 ≤ k ∧ (k : ℤ) ^ n ≤ N ∧ N ≤ ((k : ℤ) + 1) ^ n ∧
      ((∀ q : ℤ, q ^ n ≠ N) ∨ IsDouble (1 / (n : ℝ)) → N < ((k : ℤ) + 1) ^ n) ∧ r.x.rows = k ^ n ∧ r.x.cols = n ∧
      (∀ i : Fin r.x.rows, 0 < r.w.get i 0) ∧ ∑ i : Fin r.x.rows, r.w.get i 0 = 1 ∧
      (k ≤ 10 ^ 11 → ∀ p : MvPolynomial (Fin n) ℝ, (∀ j, p.degreeOf j ≤ 2 * k - 1) →
        ∑ i : Fin r.x.rows, r.w.get i 0 * MvPolynomial.eval (fun j : Fin n => r.x.get i j) p
          = ∫ y, MvPolynomial.eval y p ∂(Measure.pi fun _ : Fin n => gaussianReal 0 1)) := by
  obtain ⟨k, h1, h2, h3, h4, h4'⟩ := root_bounds hN hn hs hroot
  unfold av_quadrature_rule at hr
  rw [hW, hd] at hr
  dsimp only at hr
  have h5 : rootList lib.base.root N (NpMat.of V1).cols = .ok (List.replicate n (.int k)) := by
    unfold rootList
    rw [show (NpMat.of V1).cols = n from rfl, h1]
    rfl
  rw [h5, PyM.run_bind_ok (PyM.run_lift _ _)] at hr
  obtain ⟨h6, rfl⟩ := lift_inv hr
  obtain ⟨e1, e2, e3, e4⟩ := C24_weights hq (List.replicate n (k : ℤ)) (r := r) (.inl (by rw [List.map_replicate]; exact h6))
  refine ⟨rfl, k, h2, h3, h4, h4', ?_, ?_, e3, e4, fun hk p hp => ?_⟩
  · rw [e1, List.map_replicate, List.prod_replicate, Int.toNat_natCast, max_eq_right h2]
  · rw [e2, List.length_replicate]
  · exact C24_hermite_exact hq (fun _ : Fin n => k) (fun _ => ⟨h2, hk⟩) (by rw [List.ofFn_const]; exact h6) p hp

/-- C60: on an unbounded domain the rule is returned whenever `eig` succeeds on symmetric matrices. -/
theorem C60_returns (hd : a.dom = .unbounded) (hW : a.subspaces.W1 = some (NpMat.of V1)) (hn : 1 ≤ n) {lib : Model.Integrals.Lib}
    (heig : ∀ {n : ℕ} (A : Matrix (Fin n) (Fin n) ℝ), A.transpose = A → ∃ eV, lib.base.quad.eig A = .ok eV)
    (rng : Rng S) {N : ℤ} (hN : 1 ≤ N) (hs : (n : ℤ) * 2 ^ n * N ≤ 2 ^ 45) (hroot : DoubleRoot N n (lib.base.root N n)) (w : S × Files × E) :
    ∃ r, (av_quadrature_rule lib rng a N).run w = (.ok r, w) := by
  obtain ⟨k, h1, -⟩ := root_bounds hN hn hs hroot
  obtain ⟨r, hr⟩ := ((C24_cases lib.base.quad).2.2.2.2.2 heig (List.replicate n (k : ℤ))).1
  refine ⟨r, ?_⟩
  unfold av_quadrature_rule
  rw [hW, hd]
  dsimp only
  have h5 : rootList lib.base.root N (NpMat.of V1).cols = .ok (List.replicate n (.int k)) := by
    unfold rootList
    rw [show (NpMat.of V1).cols = n from rfl, h1]
    rfl
  rw [List.map_replicate] at hr
  rw [h5, PyM.run_bind_ok (PyM.run_lift _ _), hr]
  rfl

theorem calls_det {W α β : Type} {f : α → PyM W β} {xs : List α} {w w1 w2 : W} {vs us : List β} (h : Spec.Calls f xs w vs w1)
    (h' : Spec.Calls f xs w us w2) : vs = us ∧ w1 = w2 := by
  induction h generalizing us with
  | nil =>
    cases h'
    exact ⟨rfl, rfl⟩
  | cons hx _ ih =>
    cases h' with
    | cons hx' hs =>
      obtain ⟨e1, e2⟩ := Prod.mk.inj (hx.symm.trans hx')
      obtain rfl := Except.ok.inj e1
      subst e2
      obtain ⟨rfl, rfl⟩ := ih hs
      exact ⟨rfl, rfl⟩

/-- C60: on an unbounded domain `av_integrate` returns the Gaussian integral of every polynomial of degree at most `2k-1` in each active
variable, where `k` is the largest number with `k^n <= N` and `N` is not a perfect
power or `1/n` a double; the polynomial may be given as a function or as the predictions of a surface. -/
theorem C60_av_integrate_partial {k : ℕ} {V1 : Matrix (Fin (n + k)) (Fin n) ℝ} {V2 : Matrix (Fin (n + k)) (Fin k) ℝ} (h : Split a.subspaces V1 V2)
    (hd : a.dom = .unbounded) (hn : 1 ≤ n) {lib : Model.Integrals.Lib} (hq : Proofs.Quadrature.LibOK lib.base.quad) (rng : Rng S) {N : ℤ} (hN : 1 ≤ N)
    (hs : (n : ℤ) * 2 ^ n * N ≤ 2 ^ 45) (hroot : DoubleRoot N n (lib.base.root N n)) (hc : (∀ q : ℤ, q ^ n ≠ N) ∨ IsDouble (1 / (n : ℝ)))
    {w w' : S × Files × E} {mu : ℝ} (p : MvPolynomial (Fin n) ℝ) (q : ℕ) (hq1 : N < ((q : ℤ) + 1) ^ n) (hq2 : (q : ℤ) ^ n ≤ N) (hq3 : q ≤ 10 ^ 11)
    (hp : ∀ j, p.degreeOf j ≤ 2 * q - 1) :
    (∀ g : (m : ℕ) → (Fin m → ℝ) → ℝ, (∀ y, g n y = MvPolynomial.eval y p) →
      (av_integrate lib rng (.fn fun m y => pure (g m y)) (some a) (.int N)).run w = (.ok mu, w') →
      mu = ∫ y, MvPolynomial.eval y p ∂(Measure.pi fun _ : Fin n => gaussianReal 0 1)) ∧
    (∀ s : Arr → Except Err (NpVec × Option NpMat),
      (∀ (G : ℕ) (Y : Matrix (Fin G) (Fin n) ℝ), ∃ d, s (.mat (NpMat.of Y)) = .ok (NpVec.of fun i => MvPolynomial.eval (Y i) p, d)) →
      (av_integrate lib rng (.surface s) (some a) (.int N)).run w = (.ok mu, w') →
      mu = ∫ y, MvPolynomial.eval y p ∂(Measure.pi fun _ : Fin n => gaussianReal 0 1)) := by
  have key : ∀ (G : ℕ) (Yp : Matrix (Fin G) (Fin n) ℝ) (Yw : Fin G → ℝ) (w0 : S × Files × E),
      (av_quadrature_rule lib rng a N).run w = (.ok ⟨NpMat.of Yp, NpMat.of (Matrix.of fun i (_ : Fin 1) => Yw i)⟩, w0) →
      ∑ i, Yw i * MvPolynomial.eval (Yp i) p = ∫ y, MvPolynomial.eval y p ∂(Measure.pi fun _ : Fin n => gaussianReal 0 1) := by
    intro G Yp Yw w0 hr
    obtain ⟨-, q', h1, h2, -, h3, -, -, -, -, h4⟩ := C60_rule_partial hd h.w1 hn hq rng hN hs hroot hr
    have h3 := h3 hc
    have hn0 : n ≠ 0 := by omega
    obtain rfl : q' = q := by
      have a1 : (q' : ℤ) ^ n < ((q : ℤ) + 1) ^ n := h2.trans_lt hq1
      have a2 : (q : ℤ) ^ n < ((q' : ℤ) + 1) ^ n := hq2.trans_lt h3
      have a3 := lt_of_pow_lt_pow_left₀ n (by positivity) a1
      have a4 := lt_of_pow_lt_pow_left₀ n (by positivity) a2
      omega
    rw [← h4 hq3 p hp]
    refine Finset.sum_congr (s₁ := (Finset.univ : Finset (Fin G))) rfl fun i _ => ?_
    have e1 : (NpMat.of (Matrix.of fun i (_ : Fin 1) => Yw i)).get i 0 = Yw i := NpMat.get_of _ i 0
    have e2 : ∀ j : Fin n, (NpMat.of Yp).get i j = Yp i j := fun j => NpMat.get_of _ i j
    rw [e1]
    simp only [e2]
  have hb : ∀ b, a.dom = .bounded b → b.n = n := fun b hb => by rw [hd] at hb; cases hb
  constructor
  · intro g hg hr
    obtain ⟨G, Yp, Yw, v, w0, h1, h2, h3⟩ := (C57_av_integrate h hb lib rng N w w' mu).1 _ hr
    have h4 := (calls_det h2 (Spec.calls_pure (g n) (Np.rows Yp) w0)).1
    have h5 : ∀ i, v i = MvPolynomial.eval (Yp i) p := by
      intro i
      rw [← hg]
      have : List.ofFn v = List.ofFn fun i => g n (Yp i) := by
        rw [h4, Np.rows, List.map_map, List.ofFn_eq_map]
        rfl
      exact congrFun (List.ofFn_injective this) i
    rw [h3, ← key G Yp Yw w0 h1]
    simp only [h5]
  · intro s hs hr
    obtain ⟨G, Yp, Yw, v, d, h1, h2, h3⟩ := (C57_av_integrate h hb lib rng N w w' mu).2 _ hr
    obtain ⟨d', h4⟩ := hs G Yp
    have h5 := (Prod.mk.inj (Except.ok.inj (h2.symm.trans h4))).1
    have h6 : v = fun i => MvPolynomial.eval (Yp i) p := by
      have : (⟨G, v⟩ : NpVec) = ⟨G, fun i => MvPolynomial.eval (Yp i) p⟩ := h5
      injection this
    rw [h3, ← key G Yp Yw w' h1, h6]

/-! ## Successful runs -/

/-- C59: the interval rule is returned for every `N >= 0` and every interval. -/
theorem C59_returns (rng : Rng S) {b : Boundary} (V : Matrix (Fin m) (Fin 1) ℝ) (N NX : ℕ) (w : S × E) {lo hi : ℝ} (hle : lo ≤ hi)
    (h1 : (NpMat.of b.verts.Y).item 0 0 = .ok lo) (h2 : (NpMat.of b.verts.Y).item 1 0 = .ok hi) :
    ∃ r, (interval_quadrature_rule rng b (NpMat.of V) N NX).run w = (.ok r, ((rng.uniform NX m w.1).2, w.2)) := by
  unfold interval_quadrature_rule
  rw [h1, PyM.run_bind_ok (PyM.run_lift _ _), h2, PyM.run_bind_ok (PyM.run_lift _ _), if_neg (by omega), PyM.run_bind_ok (Rng.run_draw _ _),
    if_neg (by omega)]
  have h6 : NpMat.dot (NpMat.of (rng.uniform NX m w.1).1) (NpMat.of V) = .ok (NpMat.of ((rng.uniform NX m w.1).1 * V)) := dot_of _ _
  dsimp only
  rw [NpMat.of_rows, h6, PyM.run_bind_ok (PyM.run_lift _ _)]
  have h7 : ∀ x : Fin NX → ℝ, ∃ c, histogram x (Np.linspace lo hi ((N : ℤ).toNat + 1)) = .ok c := by
    intro x
    refine ⟨_, if_neg ?_⟩
    push Not
    intro k
    have hK : (0 : ℝ) < (N : ℤ).toNat := by exact_mod_cast (Nat.zero_le _).trans_lt k.2
    rw [linspace_eq, linspace_eq]
    push_cast [Fin.val_succ, Fin.val_castSucc]
    have : 0 ≤ (hi - lo) / ((N : ℤ).toNat : ℝ) := div_nonneg (by linarith) hK.le
    push_cast at this
    linarith
  obtain ⟨c, h8⟩ := h7 fun i => (NpMat.of ((rng.uniform NX m w.1).1 * V)).get i 0
  rw [h8, PyM.run_bind_ok (PyM.run_lift _ _)]
  exact ⟨_, rfl⟩

/-- C58: the zonotope rule is returned when the design and the triangulation are. -/
theorem C58_zonotope_returns {lib : Model.Integrals.Lib} (rng : Rng S) {b : Boundary} (V : Matrix (Fin m) (Fin b.n) ℝ) (N NX : ℕ) (w : S × E)
    {D : Matrix (Fin N) (Fin b.n) ℝ} {Tr : Tri (b.verts.num + N) b.n}
    (h1 : (Model.Designs.maximin_design lib.base.des rng b.verts.Y N).run w = (.ok D, w)) (h2 : lib.delaunay (Np.vstack b.verts.Y D) = .ok Tr) :
    ∃ r, (zonotope_quadrature_rule lib rng b (NpMat.of V) N NX).run w = (.ok r, ((rng.uniform NX m w.1).2, w.2)) := by
  unfold zonotope_quadrature_rule
  rw [if_neg (by omega), Int.toNat_natCast, PyM.run_bind_ok h1]
  dsimp only
  rw [h2, PyM.run_bind_ok (PyM.run_lift _ _), PyM.run_bind_ok (Rng.run_draw _ _)]
  have h6 : NpMat.dot (NpMat.of (rng.uniform NX m w.1).1) (NpMat.of V) = .ok (NpMat.of ((rng.uniform NX m w.1).1 * V)) := dot_of _ _
  rw [NpMat.of_rows, h6, PyM.run_bind_ok (PyM.run_lift _ _)]
  rw [if_pos (NpMat.of_cols _)]
  exact ⟨_, rfl⟩

/-- C57: the rule on the full space is returned when the one on the active variables and the inactive variables are. -/
theorem C57_rule_returns {k : ℕ} {V1 : Matrix (Fin (n + k)) (Fin n) ℝ} {V2 : Matrix (Fin (n + k)) (Fin k) ℝ} (h : Split a.subspaces V1 V2)
    (lib : Model.Integrals.Lib) (rng : Rng S) (N : ℤ) (T : ℕ) (w w1 w2 : S × Files × E) (Y : Matrix (Fin G) (Fin n) ℝ) (Yw : NpMat)
    (Z : Fin G → Fin k → Fin T → ℝ) (h1 : (av_quadrature_rule lib rng a N).run w = (.ok ⟨NpMat.of Y, Yw⟩, w1))
    (h2 : (a.regularize_z (NpMat.of Y) T).run w1 = (.ok (some ⟨G, k, T, Z⟩), w2)) :
    ∃ q, (quadrature_rule lib rng (some a) (.int N) (.int T)).run w = (.ok (some q), w2) ∧ q.Xp.rows = G * T := by
  obtain ⟨X, ind, h3, h4⟩ := rotate_x_ok V1 V2 Y Z
  have h5 : (a.inverse (.mat (NpMat.of Y)) (.int T)).run w1 = (.ok (some (NpMat.of X, NpMat.of ind)), w2) := by
    unfold AVMap.inverse inverse
    have e : process_inputs (.mat (NpMat.of Y)) = .ok (NpMat.of Y) := rfl
    rw [e, PyM.run_bind_ok (PyM.run_lift _ _)]
    dsimp only
    rw [if_neg (by omega), Int.toNat_natCast, PyM.run_bind_ok h2]
    dsimp only
    rw [h.eig]
    dsimp only
    rw [h3]
    rfl
  refine ⟨⟨NpMat.of X, (kronOnes Yw (T : ℤ).toNat).map fun t => t / ((T : ℤ) : ℝ), NpMat.of ind⟩, ?_, rfl⟩
  change (ruleBody lib rng a N T).run w = _
  unfold ruleBody
  rw [PyM.run_bind_ok h1, PyM.run_bind_ok h5]
  rfl

/-! ## Examples -/

/-- The interval of the first of two variables. -/
theorem toy_endpoints : (interval_endpoints (Matrix.of fun (i : Fin (1 + 1)) (_ : Fin 1) => if i = 0 then 1 else 0)).1 0 0 = -1 ∧
    (interval_endpoints (Matrix.of fun (i : Fin (1 + 1)) (_ : Fin 1) => if i = 0 then 1 else 0)).1 1 0 = 1 := by
  rw [interval_eq]
  have : ∑ i : Fin (1 + 1), |(if i = 0 then (1 : ℝ) else 0)| = 1 := by
    rw [Fin.sum_univ_two]
    norm_num
  constructor
  · change -∑ i : Fin (1 + 1), |(if i = 0 then (1 : ℝ) else 0)| = -1
    rw [this]
  · exact this

/-- The map on the interval of the first of two variables. -/
noncomputable def toyMap (S E : Type) (X : Matrix (Fin 2) (Fin (1 + 1)) ℝ) : AVMap S E :=
  ⟨.bounded ⟨1 + 1, 1, ⟨2, (interval_endpoints (Matrix.of fun (i : Fin (1 + 1)) (_ : Fin 1) => if i = 0 then 1 else 0)).1, X⟩, none, none⟩,
    toySubspaces, toyZ S E⟩

/-- C57, C58, C59: three nodes on the interval, two points for each: `integrate` returns for every simulation that does not raise, and a
constant is integrated exactly, with bounds of width zero, whatever the samples from the cube. -/
example (lib : Model.Integrals.Lib) (rng : Rng S) (hU : ∀ r c s i j, -1 ≤ (rng.uniform r c s).1 i j ∧ (rng.uniform r c s).1 i j ≤ 1)
    (X : Matrix (Fin 2) (Fin (1 + 1)) ℝ) (w : S × Files × E) (g : (m : ℕ) → (Fin m → ℝ) → ℝ) :
    ∃ mu lb ub w', (integrate lib rng (fun m x => pure (g m x)) (some (toyMap S E X)) (.int 3) (.int 2)).run w = (.ok (some (mu, lb, ub)), w') ∧
      ∀ c, (∀ x, g 2 x = c) → mu = c ∧ lb = c ∧ ub = c := by
  have e0 : (NpMat.of (interval_endpoints (Matrix.of fun (i : Fin (1 + 1)) (_ : Fin 1) => if i = 0 then 1 else 0)).1).item 0 0 = .ok (-1) :=
    (by simp [NpMat.item, NpMat.get, NpMat.of] : _ = Except.ok _).trans (congrArg Except.ok toy_endpoints.1)
  have e1 : (NpMat.of (interval_endpoints (Matrix.of fun (i : Fin (1 + 1)) (_ : Fin 1) => if i = 0 then 1 else 0)).1).item 1 0 = .ok 1 :=
    (by simp [NpMat.item, NpMat.get, NpMat.of] : _ = Except.ok _).trans (congrArg Except.ok toy_endpoints.2)
  obtain ⟨r, hr⟩ := C59_returns (E := Files × E) rng (b := ⟨1 + 1, 1, ⟨2, (interval_endpoints (Matrix.of fun (i : Fin (1 + 1)) (_ : Fin 1) =>
    if i = 0 then 1 else 0)).1, X⟩, none, none⟩) (Matrix.of fun (i : Fin (1 + 1)) (_ : Fin 1) => if i = 0 then 1 else 0) 3 10000 w
    (by norm_num : (-1 : ℝ) ≤ 1) e0 e1
  obtain ⟨hw1, hw2⟩ := C58_interval_one (N := 3) (by norm_num) (by norm_num) (fun i j => hU _ _ _ i j) hr
  have hav : (av_quadrature_rule lib rng (toyMap S E X) 3).run w = (.ok r, ((rng.uniform 10000 (1 + 1) w.1).2, w.2)) := hr
  obtain ⟨K, lo, hi, x, wt, hK, -, -, -, hx, hwt, -⟩ := C59_interval hr
  obtain rfl : K = 3 := by exact_mod_cast hK
  obtain ⟨rx, rw'⟩ := r
  change rx = _ at hx
  change rw' = _ at hwt
  subst hx hwt
  obtain ⟨q, hq, hrows⟩ := C57_rule_returns (a := toyMap S E X) toySplit lib rng 3 2 w _ _ _ _ (fun _ _ t => t + 1) hav rfl
  obtain ⟨P, X', Xw, h1, h2, h3⟩ := C57_returns (a := toyMap S E X) toySplit (toyZ_shape S E) (by rintro b ⟨⟩; rfl) lib rng 3 2 w _ q
    (by rw [hrows]; norm_num) hq
  obtain ⟨G, T, Yp, Yw, X2, Xw2, ind, w0, hT, h4, h5, h6, -⟩ := C57_rule (a := toyMap S E X) toySplit (toyZ_shape S E) (by rintro b ⟨⟩; rfl) lib rng 3 2 _ _ q hq
  obtain ⟨lb, ub, h7, h8⟩ := h3 g
  refine ⟨_, lb, ub, _, h7, fun c hc => h8 c hc ?_⟩
  have hT' : 0 < T := by omega
  have h9 := h6.sum_weights hT'
  rw [h5] at h2
  have hP : P = G * T := by
    have := congrArg NpMat.rows (h1.symm.trans (congrArg FullRule.Xp h5))
    exact this
  subst hP
  have h10 : Xw = Xw2 := by
    have := NpMat.of_injective h2
    funext r
    exact (congrFun (congrFun this r) 0).symm
  rw [h10, h9]
  have h11 := congrArg Rule.w (Except.ok.inj (Prod.mk.inj (hav.symm.trans h4)).1)
  have h12 : G = 3 := (congrArg NpMat.rows h11).symm
  subst h12
  have h13 : wt = Yw := by
    have := NpMat.of_injective h11
    funext r
    exact congrFun (congrFun this r) 0
  rw [← h13, ← hw2]
  exact Finset.sum_congr (s₁ := (Finset.univ : Finset (Fin 3))) rfl fun i _ => (NpMat.get_of (Matrix.of fun i (_ : Fin 1) => wt i) i 0).symm

/-- C60: one active variable on an unbounded domain, `N = 3`: `y^4` is integrated exactly (degree at most 5). -/
example {lib : Model.Integrals.Lib} (hq : Proofs.Quadrature.LibOK lib.base.quad) (hroot : DoubleRoot 3 1 (lib.base.root 3 1)) (rng : Rng S) (w w' : S × Files × E) (mu : ℝ)
    (h : (av_integrate lib rng (.fn fun _ y => pure (∑ j, y j ^ 4)) (some ⟨.unbounded, toySubspaces, toyZ S E⟩) (.int 3)).run w = (.ok mu, w')) :
    mu = ∫ y : Fin 1 → ℝ, ∑ j, y j ^ 4 ∂(Measure.pi fun _ : Fin 1 => gaussianReal 0 1) := by
  have h1 := (C60_av_integrate_partial (a := ⟨.unbounded, toySubspaces, toyZ S E⟩) toySplit rfl le_rfl hq rng (N := 3) (by norm_num) (by norm_num)
    hroot (.inr (by simpa using Proofs.Doubles.isDouble_int (z := 1) (by norm_num))) (w := w) (w' := w') (mu := mu)
    (∑ j, MvPolynomial.X j ^ 4) 3 (by norm_num) (by norm_num) (by norm_num) (by
      intro j
      rw [Fin.sum_univ_one, Subsingleton.elim j 0]
      refine (MvPolynomial.degreeOf_pow_le _ _ _).trans ?_
      simp [MvPolynomial.degreeOf_X])).1 (fun _ y => ∑ j, y j ^ 4) (by intro y; simp) h
  rw [h1]
  simp

end Props
