import Mathlib.Analysis.Convex.Combination
import Verif.Proofs.Index
import Verif.Proofs.Multistart
import Verif.Model.Designs

/-!
# Properties C15-C18: designs
-/

open Py Model.Designs Model.Multistart Proofs.Multistart

namespace Props

variable {S E : Type} {N n V F : ℕ}

/-! ## C15 -/

/-- C15: `N` points as a column, equally spaced with step `(b-a)/(N+1)`, also to the end points; strictly
increasing and strictly inside the interval. -/
theorem C15_interval_design (a b : ℝ) (hab : a < b) (N : ℕ) :
    ∃ y : Matrix (Fin N) (Fin 1) ℝ, interval_design a b N = .ok (.mat (NpMat.of y)) ∧
      (∀ i, a < y i 0 ∧ y i 0 < b) ∧ StrictMono (fun i => y i 0) ∧
      (∀ i : Fin N, (i : ℕ) = 0 → y i 0 - a = (b - a) / (N + 1)) ∧
      (∀ i j : Fin N, (j : ℕ) = i + 1 → y j 0 - y i 0 = (b - a) / (N + 1)) ∧
      (∀ i : Fin N, (i : ℕ) + 1 = N → b - y i 0 = (b - a) / (N + 1)) := by
  have hN : (0 : ℝ) < N + 1 := by positivity
  have hN' : (N : ℝ) + 1 ≠ 0 := hN.ne'
  have hstep : 0 < (b - a) / (N + 1) := div_pos (by linarith) hN
  refine ⟨Matrix.of fun i _ => a + ((i : ℕ) + 1) * ((b - a) / (N + 1)), ?_, ?_, ?_, ?_, ?_, ?_⟩
  · have h1 : ¬ ((N : ℤ) + 2 < 0) := by omega
    have h2 : ((N : ℤ) + 2).toNat = N + 2 := by omega
    simp only [interval_design, h1, if_false]
    simp only [Model.Misc.atleast_2d_col, Model.Misc.atleast_2d, Model.Misc.Obj.toArr]
    rw [if_neg (by decide), if_true]
    congr 2
    refine NpMat.ext_get (by change ((N : ℤ) + 2).toNat - 2 = N; omega) rfl ?_
    intro i j hi hj
    simp only at hi hj
    have hi' : i < N := by omega
    rw [NpMat.get, NpMat.get, dif_pos ⟨hi, hj⟩, dif_pos ⟨hi', hj⟩]
    simp only [NpMat.of, Np.linspace, Matrix.of_apply, h2]
    push_cast
    ring_nf
  · intro i
    have hi : ((i : ℕ) : ℝ) + 1 < N + 1 := by
      have : ((i : ℕ) : ℝ) < N := by exact_mod_cast i.2
      linarith
    have hpos : (0 : ℝ) < (i : ℕ) + 1 := by positivity
    simp only [Matrix.of_apply]
    constructor
    · have := mul_pos hpos hstep
      linarith
    · have h1 : ((i : ℕ) + 1 : ℝ) * ((b - a) / (N + 1)) < (N + 1) * ((b - a) / (N + 1)) :=
        mul_lt_mul_of_pos_right hi hstep
      have h2 : ((N : ℝ) + 1) * ((b - a) / (N + 1)) = b - a := by field_simp
      linarith
  · intro i j hij
    have : ((i : ℕ) : ℝ) < (j : ℕ) := by exact_mod_cast hij
    simp only [Matrix.of_apply]
    have := mul_lt_mul_of_pos_right (show ((i : ℕ) : ℝ) + 1 < (j : ℕ) + 1 by linarith) hstep
    linarith
  · intro i hi
    simp [hi]
  · intro i j hij
    simp only [Matrix.of_apply, hij]
    push_cast
    ring
  · intro i hi
    simp only [Matrix.of_apply]
    have : ((i : ℕ) : ℝ) + 1 = N := by exact_mod_cast hi
    rw [this]
    field_simp
    ring

example : ((0 : ℝ) < 1) := by norm_num

/-- C15: a negative `N` gives an empty design (`N = -1, -2`) or a `ValueError`. -/
theorem C15_negative (a b : ℝ) (N : ℤ) (hN : N < 0) :
    (-2 ≤ N → ∃ y : Matrix (Fin 0) (Fin 1) ℝ, interval_design a b N = .ok (.mat (NpMat.of y))) ∧
    (N < -2 → interval_design a b N = .error .valueError) := by
  constructor
  · intro h
    have h1 : ¬ (N + 2 < 0) := by omega
    have h2 : (N + 2).toNat - 2 = 0 := by omega
    simp only [interval_design, h1, if_false]
    simp only [Model.Misc.atleast_2d_col, Model.Misc.atleast_2d, Model.Misc.Obj.toArr]
    rw [if_neg (by decide), if_true]
    refine ⟨Matrix.of fun i _ => i.elim0, ?_⟩
    congr 2
    refine NpMat.ext_get h2 rfl ?_
    intro i j hi
    simp only at hi
    omega
  · intro h
    have h1 : N + 2 < 0 := by omega
    simp [interval_design, h1]

/-! ## C16 -/

/-- The facet equations describe the convex hull of the rows of `vert`: `x` is in the hull iff
`normal . x + offset <= 0` for every facet (SciPy's documented convention). -/
def HullEquations (vert : Matrix (Fin V) (Fin n) ℝ) (eq : Matrix (Fin F) (Fin (n + 1)) ℝ) : Prop :=
  ∀ x : Fin n → ℝ, x ∈ convexHull ℝ (Set.range fun i => vert i) ↔
    ∀ k, ∑ j, eq k (Fin.castSucc j) * x j + eq k (Fin.last n) ≤ 0

/-- Contract of SLSQP: a successful run returns a feasible point and its objective value. -/
def SlsqpOK (lib : Lib) : Prop :=
  ∀ {d c : ℕ} (obj : (Fin d → ℝ) → Except Err ℝ) (grad : (Fin d → ℝ) → Except Err (Fin d → ℝ))
    (cons : (Fin d → ℝ) → Fin c → ℝ) (y0 : Fin d → ℝ) (r : OptRes (Fin d → ℝ)),
    lib.slsqp obj grad cons y0 = .ok r → r.success = true → (∀ k, 0 ≤ cons r.x k) ∧ obj r.x = .ok r.f

theorem maximinCons_apply (eq : Matrix (Fin F) (Fin (n + 1)) ℝ) (x : Fin (N * n) → ℝ) (i : Fin N) (k : Fin F) :
    maximinCons eq x (finProdFinEquiv (i, k))
      = ∑ j, eq k (Fin.castSucc j) * x (finProdFinEquiv (i, j)) - eq k (Fin.last n) := by
  have h1 : maximinCons eq x (finProdFinEquiv (i, k))
      = ∑ p, Np.kron (1 : Matrix (Fin N) (Fin N) ℝ) (eq.submatrix id Fin.castSucc) (finProdFinEquiv (i, k)) p * x p
        - 1 * eq (finProdFinEquiv (i, k)).modNat (Fin.last n) := rfl
  rw [h1, Proofs.Index.sum_finProd, Proofs.Index.modNat_finProd, one_mul]
  congr 1
  rw [Finset.sum_eq_single i]
  · refine Finset.sum_congr rfl fun j _ => ?_
    rw [Proofs.Index.kron_apply]
    simp
  · intro b _ hb
    refine Finset.sum_eq_zero fun j _ => ?_
    rw [Proofs.Index.kron_apply, Matrix.one_apply_ne hb.symm]
    simp
  · simp

/-- The constraints handed to the optimiser hold exactly when the *negative* of every design point is in the
polytope. -/
theorem C16_feasible_iff_neg {vert : Matrix (Fin V) (Fin n) ℝ} {eq : Matrix (Fin F) (Fin (n + 1)) ℝ}
    (heq : HullEquations vert eq) (x : Fin (N * n) → ℝ) :
    (∀ k, 0 ≤ maximinCons (N := N) eq x k) ↔
      ∀ i : Fin N, -(Np.reshape2 x i) ∈ convexHull ℝ (Set.range fun i => vert i) := by
  have key : ∀ i k, maximinCons (N := N) eq x (finProdFinEquiv (i, k))
      = -(∑ j, eq k (Fin.castSucc j) * (-(Np.reshape2 (a := N) (b := n) x i)) j + eq k (Fin.last n)) := by
    intro i k
    rw [maximinCons_apply]
    simp [Np.reshape2]
    ring
  constructor
  · intro h i
    rw [heq]
    intro k
    have := h (finProdFinEquiv (i, k))
    rw [key] at this
    linarith
  · intro h p
    obtain ⟨⟨i, k⟩, rfl⟩ := finProdFinEquiv.surjective p
    have := (heq _).mp (h i) k
    rw [key]
    linarith

/-- Every row of a design returned by `maximin_design` has its negative in the polytope. -/
theorem maximin_design_neg_mem {lib : Lib} (hopt : SlsqpOK lib) (rng : Rng S)
    (vert : Matrix (Fin V) (Fin n) ℝ) (heq : HullEquations vert (lib.hull vert)) (N : ℕ) (w w' : S × E)
    (design : Matrix (Fin N) (Fin n) ℝ) (h : (maximin_design lib rng vert N).run w = (.ok design, w')) :
    ∀ i, -(design i) ∈ convexHull ℝ (Set.range fun i => vert i) := by
  rw [maximin_design, PyM.run_bind] at h
  split at h
  · rename_i r w₁ hr
    cases h
    obtain ⟨rs, w₂, hc, hs, ⟨i, hi, hri, -, -⟩, -, -⟩ := multistart_ok hr
    have hmem : ∀ {xs : List Unit} {w : S × E} {rs : List (OptRes (Fin (N * n) → ℝ))} {w'},
        Spec.Calls (start (rng.normal N n) (fun y0 => PyM.lift (lib.slsqp (fun y => maximin_design_obj (N := N) y vert)
          (fun y => maximin_design_grad (N := N) y vert)
          (maximinCons (N := N) (lib.hull vert)) (Np.ravel y0)))) xs w rs w' →
        ∀ r ∈ rs, ∃ y0, lib.slsqp (fun y => maximin_design_obj (N := N) y vert)
          (fun y => maximin_design_grad (N := N) y vert) (maximinCons (N := N) (lib.hull vert)) y0 = .ok r := by
      intro xs w rs w' hc
      induction hc with
      | nil => simp
      | cons h1 _ ih =>
        intro r hr
        rcases List.mem_cons.mp hr with rfl | hr
        · rw [start, PyM.run_bind] at h1
          exact ⟨_, congrArg Prod.fst h1⟩
        · exact ih r hr
    obtain ⟨y0, hy0⟩ := hmem hc _ (hri ▸ List.getElem_mem hi)
    have hf := (hopt _ _ _ _ _ hy0 (hs _ (hri ▸ List.getElem_mem hi))).1
    exact (C16_feasible_iff_neg heq r.x).mp hf
  · cases h

/-- C16, the part that holds: if the polytope is symmetric about the origin (as zonotopes are), every point of
the design lies in it. -/
theorem C16_symmetric_partial {lib : Lib} (hopt : SlsqpOK lib) (rng : Rng S)
    (vert : Matrix (Fin V) (Fin n) ℝ) (heq : HullEquations vert (lib.hull vert))
    (hsym : ∀ i, -(vert i) ∈ convexHull ℝ (Set.range fun i => vert i)) (N : ℕ) (w w' : S × E)
    (design : Matrix (Fin N) (Fin n) ℝ) (h : (maximin_design lib rng vert N).run w = (.ok design, w')) :
    ∀ i, design i ∈ convexHull ℝ (Set.range fun i => vert i) := by
  intro i
  have h1 := maximin_design_neg_mem hopt rng vert heq N w w' design h i
  have h2 : convexHull ℝ (Set.range fun i => vert i) ⊆ -convexHull ℝ (Set.range fun i => vert i) := by
    apply convexHull_min
    · rintro _ ⟨i, rfl⟩
      exact Set.mem_neg.mpr (hsym i)
    · exact (convex_convexHull ℝ _).neg
  have h3 := h2 h1
  rw [Set.mem_neg, neg_neg] at h3
  exact h3

/-- C16 fails for every polytope that is not symmetric about the origin: there are points that satisfy the
constraints and lie outside. -/
theorem C16_nonsymmetric_infeasible {vert : Matrix (Fin V) (Fin n) ℝ} {eq : Matrix (Fin F) (Fin (n + 1)) ℝ}
    (heq : HullEquations vert eq) (v : Fin V) (hv : -(vert v) ∉ convexHull ℝ (Set.range fun i => vert i)) :
    ∃ x : Fin (N * n) → ℝ, (∀ k, 0 ≤ maximinCons (N := N) eq x k) ∧
      ∀ i : Fin N, Np.reshape2 x i ∉ convexHull ℝ (Set.range fun i => vert i) := by
  refine ⟨fun p => -(vert v p.modNat), ?_, ?_⟩
  · rw [C16_feasible_iff_neg heq]
    intro i
    have : -(Np.reshape2 (a := N) (fun p : Fin (N * n) => -(vert v p.modNat)) i) = vert v := by
      funext j
      simp [Np.reshape2, Proofs.Index.modNat_finProd]
    rw [this]
    exact subset_convexHull ℝ _ ⟨v, rfl⟩
  · intro i
    have : (Np.reshape2 (a := N) (fun p : Fin (N * n) => -(vert v p.modNat)) i) = -vert v := by
      funext j
      simp [Np.reshape2, Proofs.Index.modNat_finProd]
    rw [this]
    exact hv

end Props
