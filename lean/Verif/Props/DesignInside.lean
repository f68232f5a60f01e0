import Verif.Props.ActiveTraining
import Verif.Props.Maximin
import Verif.Props.ZonotopeHull

/-!
# Property C73: designs lie in the domain of the active variables
-/

open Py Model.Misc Model.Subspaces Model.QPSolver Model.Domains Model.ActiveSurfaces Proofs.Run Spec

namespace Props

variable {S E : Type} {m n k NY : ℕ}

/-- The design on an interval. -/
theorem designPoints_interval (lib : Model.ActiveSurfaces.Lib) (rng : Rng S) (W1 : Matrix (Fin m) (Fin 1) ℝ) (N : ℤ) (w : S × E)
    (ch : Option (Hull 1)) (cs : Option (Constraints 1)) (X : Matrix (Fin 2) (Fin m) ℝ) :
    (designPoints lib rng (NpMat.of W1) (.bounded ⟨m, 1, ⟨2, (interval_endpoints W1).1, X⟩, ch, cs⟩) N).run w =
      ((Model.Designs.interval_design (-∑ i, |W1 i 0|) (∑ i, |W1 i 0|) N).bind process_inputs, w) := by
  unfold designPoints
  dsimp only
  rw [if_pos (NpMat.of_cols _), interval_eq]
  have e0 : (NpMat.of (Matrix.of ![![-∑ i, |W1 i 0|], ![∑ i, |W1 i 0|]] : Matrix (Fin 2) (Fin 1) ℝ)).item 0 0 = .ok (-∑ i, |W1 i 0|) := by
    simp [NpMat.item, NpMat.get, NpMat.of]
  have e1 : (NpMat.of (Matrix.of ![![-∑ i, |W1 i 0|], ![∑ i, |W1 i 0|]] : Matrix (Fin 2) (Fin 1) ℝ)).item 1 0 = .ok (∑ i, |W1 i 0|) := by
    simp [NpMat.item, NpMat.get, NpMat.of]
  rw [e0, PyM.run_bind_ok (PyM.run_lift _ _), e1, PyM.run_bind_ok (PyM.run_lift _ _)]
  cases h : Model.Designs.interval_design (-∑ i, |W1 i 0|) (∑ i, |W1 i 0|) N with
  | error e => rfl
  | ok Y => rw [PyM.run_bind_ok (PyM.run_lift _ _)]; rfl

/-- C73, one active variable: on the domain built for `W1` the design always exists; its points divide the range `[-s, s]` of the
active variable over the cube into `N + 1` equal parts. -/
theorem C73_interval (lib : Model.ActiveSurfaces.Lib) (rng : Rng S) (W1 : Matrix (Fin m) (Fin 1) ℝ) (hW : ∃ i, W1 i 0 ≠ 0) (N : ℕ) (w : S × E)
    (b : Boundary) {E' : Type} {v v' : S × Files × Out × E'} (hb : (boundary lib.dom rng (NpMat.of W1)).run v = (.ok b, v')) :
    ∃ Y : Matrix (Fin N) (Fin 1) ℝ, (designPoints lib rng (NpMat.of W1) (.bounded b) N).run w = (.ok (NpMat.of Y), w) ∧
      ∃ s > 0, (∀ t, (fun _ => t) ∈ zonotope W1 ↔ -s ≤ t ∧ t ≤ s) ∧ ∀ i, Y i 0 = -s + ((i : ℕ) + 1) * (2 * s / (N + 1)) := by
  have hs : 0 < ∑ i, |W1 i 0| := by
    obtain ⟨i, hi⟩ := hW
    exact Finset.sum_pos' (fun i _ => abs_nonneg _) ⟨i, Finset.mem_univ _, abs_pos.mpr hi⟩
  obtain ⟨Y, h1, h2, -, h4, h5, -⟩ := C15_interval_design (-∑ i, |W1 i 0|) (∑ i, |W1 i 0|) (by linarith) N
  have hbe : b = ⟨m, 1, ⟨2, (interval_endpoints W1).1, (interval_endpoints W1).2⟩, none, none⟩ :=
    (Except.ok.inj (Prod.mk.inj hb).1).symm
  refine ⟨Y, ?_, _, hs, fun t => ?_, ?_⟩
  · rw [hbe, designPoints_interval, h1]
    rfl
  · rw [← C49_range, interval_eq]
    rfl
  · have key : ∀ (j : ℕ) (hj : j < N), Y ⟨j, hj⟩ 0 = -(∑ i, |W1 i 0|) + ((j : ℕ) + 1) * (2 * (∑ i, |W1 i 0|) / (N + 1)) := by
      intro j
      induction j with
      | zero =>
        intro hj
        have := h4 ⟨0, hj⟩ rfl
        push_cast
        rw [show 2 * (∑ i, |W1 i 0|) = (∑ i, |W1 i 0|) - -(∑ i, |W1 i 0|) by ring, ← this]
        ring
      | succ j ih =>
        intro hj
        have h6 := h5 ⟨j, by omega⟩ ⟨j + 1, hj⟩ rfl
        rw [ih, show (∑ i, |W1 i 0|) - -(∑ i, |W1 i 0|) = 2 * (∑ i, |W1 i 0|) by ring] at h6
        push_cast
        linear_combination h6
    intro i
    exact key i i.2

/-- The design on a zonotope lies in the hull of the vertices. -/
theorem designPoints_zonotope (lib : Model.ActiveSurfaces.Lib) (hopt : SlsqpOK lib.des) (rng : Rng S) (W1 : Matrix (Fin m) (Fin n) ℝ) (hn : n ≠ 1)
    (N : ℤ) (v : Verts m n) (ch : Option (Hull n)) (cs : Option (Constraints n)) (heq : HullEquations v.Y (lib.des.hull v.Y))
    (hsym : ∀ a, ∃ b, ∀ i, v.X b i = -v.X a i) (himg : ∀ a j, v.Y a j = ∑ i, v.X a i * W1 i j) {w w' : S × E}
    {Y : Matrix (Fin NY) (Fin n) ℝ} (h : (designPoints lib rng (NpMat.of W1) (.bounded ⟨m, n, v, ch, cs⟩) N).run w = (.ok (NpMat.of Y), w')) :
    ∀ i, Y i ∈ convexHull ℝ (Set.range fun a => v.Y a) := by
  unfold designPoints at h
  dsimp only at h
  rw [if_neg (by exact hn)] at h
  split_ifs at h with h1
  · exact absurd (Prod.mk.inj h).1 (by simp)
  obtain ⟨D, w1, h2, h3⟩ := bind_inv h
  obtain ⟨h4, -⟩ := pure_inv h3
  have h5 := C16_symmetric_partial hopt rng v.Y heq (fun a => ?_) N.toNat w w1 D h2
  · have e : N.toNat = NY := congrArg NpMat.rows h4
    subst e
    rw [← NpMat.of_injective h4]
    exact h5
  · obtain ⟨b, hb⟩ := hsym a
    have : -(v.Y a) = v.Y b := funext fun j => by
      rw [Pi.neg_apply, himg, himg, ← Finset.sum_neg_distrib]
      exact Finset.sum_congr rfl fun i _ => by rw [hb]; ring
    rw [this]
    exact subset_convexHull ℝ _ ⟨b, rfl⟩

/-- The inactive variables over a point of the zonotope. -/
theorem inactive_nonempty {s : Subspaces} {V1 : Matrix (Fin (n + k)) (Fin n) ℝ} {V2 : Matrix (Fin (n + k)) (Fin k) ℝ} (h : Split s V1 V2)
    {y : Fin n → ℝ} (hy : y ∈ zonotope V1) : (inactive V1 V2 y).Nonempty := by
  obtain ⟨x, hx, hxy⟩ := hy
  refine ⟨V2.transpose.mulVec x, fun i => ?_⟩
  have hy' : y = V1.transpose.mulVec x := funext hxy
  have e : ∑ j, V1 i j * y j + ∑ j, V2 i j * V2.transpose.mulVec x j = x i := by
    have h1 : (V1 * V1.transpose + V2 * V2.transpose).mulVec x i = x i := by rw [h.complete, Matrix.one_mulVec]
    rw [Matrix.add_mulVec, ← Matrix.mulVec_mulVec, ← Matrix.mulVec_mulVec, ← hy'] at h1
    exact h1
  rw [e]
  exact hx i

/-- C73: on the domain built for the current `W1`, the points of every design are active variables of points of the cube, so the
inverse map has feasible inactive variables for each of them. -/
theorem C73_inside {a : AVMap S E} {V1 : Matrix (Fin (n + k)) (Fin n) ℝ} {V2 : Matrix (Fin (n + k)) (Fin k) ℝ} (h : Split a.subspaces V1 V2)
    (hreg : ShapeOK a.regularize_z n k) (lib : Model.ActiveSurfaces.Lib) (hu : UniqueOK lib.dom) (hh : ConvexHullOK lib.dom)
    (hopt : SlsqpOK lib.des) (rng : Rng S) (b : Boundary) (hdom : a.dom = .bounded b) (hnk : 1 ≤ n + k)
    {E' : Type} {v v' : S × Files × Out × E'} (hb : (boundary lib.dom rng (NpMat.of V1)).run v = (.ok b, v'))
    (heq : n ≠ 1 → HullEquations b.verts.Y (lib.des.hull b.verts.Y)) (N NMC : ℕ) (hN : 0 < N) (w w' : S × Files × E) (d : Design)
    (hr : (av_design lib rng (some a) (.int N) (.int NMC)).run w = (.ok (some d), w')) :
    ∃ Y : Matrix (Fin N) (Fin n) ℝ, d.Y = NpMat.of Y ∧ ∀ i, Y i ∈ zonotope V1 ∧ (inactive V1 V2 (Y i)).Nonempty := by
  have hbn : b.n = n := by
    have hb1 := boundary_run hu hh rng _ hnk v v' b hb
    generalize hW : NpMat.of V1 = W at hb1
    cases hb1 with
    | interval => exact (congrArg NpMat.cols hW).symm
    | zonotope => exact (congrArg NpMat.cols hW).symm
  obtain ⟨T, NY, Y, Z, X, ind, -, rfl, -, -, ⟨w1, h1⟩, h2⟩ := C56_design h hreg (fun b' hb' => by
    rw [hdom] at hb'
    cases hb'
    exact hbn) lib rng N NMC w w' d hr
  have hNY : NY = N := by
    have := h2 b hdom (by exact_mod_cast hN)
    exact_mod_cast this
  subst hNY
  refine ⟨Y, rfl, fun i => ?_⟩
  have key : Y i ∈ zonotope V1 := by
    rw [hdom] at h1
    by_cases hn : n = 1
    · subst hn
      have hne : ∃ i, V1 i 0 ≠ 0 := by
        by_contra hcon
        push Not at hcon
        have := h.orth11 0 0
        simp [hcon] at this
      obtain ⟨Y', h3, s, hs, h4, h5⟩ := C73_interval lib rng V1 hne NY w b hb
      rw [h3] at h1
      have hY : Y' = Y := NpMat.of_injective (Except.ok.inj (Prod.mk.inj h1).1)
      subst hY
      have e : Y' i = fun _ => Y' i 0 := funext fun j => by rw [Subsingleton.elim j 0]
      rw [e, h4, h5]
      have hi : ((i : ℕ) : ℝ) + 1 ≤ NY := by exact_mod_cast i.2
      have hd : (0 : ℝ) ≤ 2 * s / (NY + 1) := by positivity
      have hm : (((i : ℕ) : ℝ) + 1) * (2 * s / (NY + 1)) ≤ 2 * s := by
        calc (((i : ℕ) : ℝ) + 1) * (2 * s / (NY + 1)) ≤ (NY + 1) * (2 * s / (NY + 1)) := mul_le_mul_of_nonneg_right (by linarith) hd
          _ = 2 * s := by field_simp
      constructor
      · have : 0 ≤ (((i : ℕ) : ℝ) + 1) * (2 * s / (NY + 1)) := by positivity
        linarith
      · linarith
    · have hb1 := boundary_run hu hh rng _ hnk v v' b hb
      generalize hW : NpMat.of V1 = W at hb1
      cases hb1 with
      | interval W1' => exact absurd (congrArg NpMat.cols hW) hn
      | zonotope W1' v0 H c sign neg img eqs con =>
        cases hW
        have h3 := designPoints_zonotope lib hopt rng V1 hn _ v0 _ _ (heq hn) neg img h1 i
        refine (convexHull_min ?_ (zonotope_convex V1)) h3
        rintro _ ⟨a, rfl⟩
        exact ⟨v0.X a, sign_row_cube (sign a), fun j => by
          beta_reduce
          rw [img]
          exact Finset.sum_congr rfl fun i _ => mul_comm _ _⟩
  exact ⟨key, inactive_nonempty h key⟩

/-- The hypotheses of C73 are met: two variables, the first one active, seven design points. -/
example (des : Model.Designs.Lib) (quad : Model.Quadrature.Lib) (rng : Rng S) (w : S × Files × E) (v : S × Files × Out × E) :
    ∃ (lib : Model.ActiveSurfaces.Lib) (b : Boundary) (d : Design), UniqueOK lib.dom ∧ ConvexHullOK lib.dom ∧ SlsqpOK lib.des ∧
      (boundary lib.dom rng (NpMat.of (Matrix.of fun (i : Fin (1 + 1)) (_ : Fin 1) => if i = 0 then (1 : ℝ) else 0))).run v = (.ok b, v) ∧
      (av_design lib rng (some ⟨.bounded b, toySubspaces, toyZ S E⟩) (.int (7 : ℕ)) (.int (2 : ℕ))).run w = (.ok (some d), w) := by
  obtain ⟨dom, h1, h2, -⟩ := convexHullOK_exists
  let lib : Model.ActiveSurfaces.Lib := ⟨dom, constLib des fun _ _ => 0, quad, fun N _ => N⟩
  have hb : (boundary lib.dom rng (NpMat.of (Matrix.of fun (i : Fin (1 + 1)) (_ : Fin 1) => if i = 0 then (1 : ℝ) else 0))).run v
      = (.ok _, v) := rfl
  obtain ⟨Y, h3, -⟩ := C73_interval lib rng _ ⟨0, by simp⟩ 7 w _ hb
  obtain ⟨X, ind, h4, -⟩ := C56_design_returns (a := ⟨.bounded _, toySubspaces, toyZ S E⟩) toySplit lib rng (7 : ℕ) 2 w w w Y (fun _ _ t => t + 1) h3 rfl
  exact ⟨lib, _, _, h1, h2, constLib_ok des _, hb, h4⟩

end Props
