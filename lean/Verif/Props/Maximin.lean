import Mathlib.Analysis.Convex.StdSimplex
import Mathlib.Tactic.FinCases
import Verif.Props.Designs
import Verif.Props.MaximinObj

/-!
# Properties C16-C18 for `maximin_design`
-/

open Py Model.Designs Model.Multistart Proofs.Multistart

namespace Props

variable {S E : Type} {N n V : ℕ}

/-- The optimiser call of `maximin_design` from one start. -/
noncomputable def maximinRun (lib : Lib) (vert : Matrix (Fin V) (Fin n) ℝ) (N : ℕ) (y0 : Matrix (Fin N) (Fin n) ℝ) :
    Except Err (OptRes (Fin (N * n) → ℝ)) :=
  lib.slsqp (fun y => maximin_design_obj (N := N) y vert) (fun y => maximin_design_grad (N := N) y vert)
    (maximinCons (N := N) (lib.hull vert)) (Np.ravel y0)

theorem maximin_design_run (lib : Lib) (rng : Rng S) (vert : Matrix (Fin V) (Fin n) ℝ) (N : ℕ) (w : S × E) :
    (maximin_design lib rng vert N).run w =
      match (multistart (E := E) rng (rng.normal N n) (fun y0 => PyM.lift (maximinRun lib vert N y0)) 1e10 3).run w with
      | (.ok r, w') => (.ok (Np.reshape2 r.x), w')
      | (.error e, w') => (.error e, w') := by
  rw [maximin_design, PyM.run_bind]
  simp only [maximinRun]
  split <;> (rename_i h; rw [h])
  rfl

/-! ## C17 -/

/-- C17: a returned design is that of the first run with the smallest objective among the three starts drawn
after seeding with 42, all of which succeeded. -/
theorem C17_maximin (lib : Lib) (rng : Rng S) (vert : Matrix (Fin V) (Fin n) ℝ) (N : ℕ) (w w' : S × E)
    (design : Matrix (Fin N) (Fin n) ℝ) (h : (maximin_design lib rng vert N).run w = (.ok design, w')) :
    ∃ rs : List (OptRes (Fin (N * n) → ℝ)), ∃ r,
      (Spec.draws (rng.normal N n) (rng.seeded 42) 3).map (maximinRun lib vert N) = rs.map .ok ∧
      (∀ r ∈ rs, r.success = true) ∧ Spec.IsFirstBest OptRes.f rs r ∧ design = Np.reshape2 r.x := by
  rw [maximin_design_run] at h
  split at h
  · rename_i r w₁ hr
    cases h
    obtain ⟨rs, w₂, hc, hs, hb, -, -⟩ := multistart_ok hr
    exact ⟨rs, r, (calls_lift hc).1, hs, hb, rfl⟩
  · cases h

/-- C17: when all three starts succeed (and the optimiser keeps its contract), the design is returned. -/
theorem C17_maximin_returns (lib : Lib) (hopt : SlsqpOK lib) (rng : Rng S) (vert : Matrix (Fin V) (Fin n) ℝ)
    (hN : 0 < N) (hV : 0 < V) (rs : List (OptRes (Fin (N * n) → ℝ)))
    (h : (Spec.draws (rng.normal N n) (rng.seeded 42) 3).map (maximinRun lib vert N) = rs.map .ok)
    (hs : ∀ r ∈ rs, r.success = true) (w : S × E) :
    ∃ design, (maximin_design lib rng vert N).run w = (.ok design, w) := by
  have hlen : rs.length = 3 := by
    have := congrArg List.length h
    simpa [Spec.draws] using this.symm
  obtain ⟨r, hr⟩ : ∃ r, r ∈ rs := ⟨rs[0], List.getElem_mem _⟩
  have hrun : ∃ y0, maximinRun lib vert N y0 = .ok r := by
    have : (Except.ok r : Except Err _) ∈ rs.map .ok := List.mem_map.mpr ⟨r, hr, rfl⟩
    rw [← h] at this
    obtain ⟨y0, -, hy⟩ := List.mem_map.mp this
    exact ⟨y0, hy⟩
  obtain ⟨y0, hy0⟩ := hrun
  have hf := (hopt _ _ _ _ _ hy0 (hs r hr)).2
  obtain ⟨d, hd, hmem, -⟩ := C19_objective hN hV r.x vert
  have hfd : r.f = -d := by
    rw [hd] at hf
    exact (Except.ok.inj hf).symm
  have hd0 : 0 ≤ d := by
    rcases hmem with (⟨i, j, -, rfl⟩ | ⟨i, v, rfl⟩) | hd
    · exact Finset.sum_nonneg fun _ _ => sq_nonneg _
    · exact Finset.sum_nonneg fun _ _ => sq_nonneg _
    · rw [hd]; norm_num
  obtain ⟨r', hr'⟩ := multistart_of_calls (w := w) (init := 1e10) (calls_lift_of w.2 h) hs
    ⟨r, hr, by rw [hfd]; norm_num; linarith⟩
  rw [maximin_design_run, hr']
  exact ⟨_, rfl⟩

/-! ## C18 -/

/-- C18: a call that returns leaves the whole world, in particular the generator state, as it was. -/
theorem C18_maximin_restores (lib : Lib) (rng : Rng S) (vert : Matrix (Fin V) (Fin n) ℝ) (N : ℕ) (w w' : S × E)
    (design : Matrix (Fin N) (Fin n) ℝ) (h : (maximin_design lib rng vert N).run w = (.ok design, w')) : w' = w := by
  rw [maximin_design_run] at h
  split at h
  · rename_i r w₁ hr
    cases h
    obtain ⟨rs, w₂, hc, -, -, -, rfl⟩ := multistart_ok hr
    rw [(calls_lift hc).2]
  · cases h

/-- C18: the outcome (design or exception) does not depend on the caller's world. -/
theorem C18_maximin_reproducible (lib : Lib) (rng : Rng S) (vert : Matrix (Fin V) (Fin n) ℝ) (N : ℕ)
    (w w' : S × E) : ((maximin_design lib rng vert N).run w).1 = ((maximin_design lib rng vert N).run w').1 := by
  simp only [maximin_design_run, multistart_run]
  have key : ∀ (k : ℕ) (b : Best (Fin (N * n) → ℝ)) (s : S) (e e' : E),
      ((loop (rng.normal N n) (fun y0 => (PyM.lift (maximinRun lib vert N y0) : PyM (S × E) _)) k b).run (s, e)).1
        = ((loop (rng.normal N n) (fun y0 => (PyM.lift (maximinRun lib vert N y0) : PyM (S × E) _)) k b).run (s, e')).1 := by
    intro k
    induction k with
    | zero => intro b s e e'; rfl
    | succ k ih =>
      intro b s e e'
      simp only [loop_succ, start, PyM.run_bind, Rng.run_draw, PyM.run_lift]
      rcases maximinRun lib vert N (rng.normal N n s).1 with _ | r
      · rfl
      · simp only
        split_ifs
        · exact ih _ _ _ _
        · rfl
  have := key 3 ⟨1e10, none⟩ (rng.seeded 42) w.2 w'.2
  revert this
  rcases (loop (rng.normal N n) (fun y0 => (PyM.lift (maximinRun lib vert N y0) : PyM (S × E) _)) 3 ⟨1e10, none⟩).run
    (rng.seeded 42, w.2) with ⟨r, w₁⟩
  rcases (loop (rng.normal N n) (fun y0 => (PyM.lift (maximinRun lib vert N y0) : PyM (S × E) _)) 3 ⟨1e10, none⟩).run
    (rng.seeded 42, w'.2) with ⟨r', w₂⟩
  rintro ⟨⟩
  rcases r with e | ⟨m, _ | r⟩ <;> rfl

/-- C18 fails when a start fails: the exception leaves the generator in the state after `seed(42)` and the draws
made so far, whatever it was before. -/
theorem C18_maximin_failure_leaks (lib : Lib) (rng : Rng S) (vert : Matrix (Fin V) (Fin n) ℝ) (N j : ℕ) (hj : j < 3)
    (rs : List (OptRes (Fin (N * n) → ℝ))) (r : OptRes (Fin (N * n) → ℝ))
    (h : (Spec.draws (rng.normal N n) (rng.seeded 42) (j + 1)).map (maximinRun lib vert N) = (rs ++ [r]).map .ok)
    (hs : ∀ r ∈ rs, r.success = true) (hr : r.success = false) (w : S × E) :
    (maximin_design lib rng vert N).run w
      = (.error .exception, (Spec.stateAfter (rng.normal N n) (rng.seeded 42) (j + 1), w.2)) := by
  rw [maximin_design_run, multistart_fail hj (calls_lift_of w.2 h) hs hr]

/-- C18 fails: with an optimiser that reports failure (which its contract allows), the generator state of a
caller is not restored, for every generator with more than one state. -/
theorem C18_maximin_not_restored [Nontrivial S] (lib : Lib) (rng : Rng S) (vert : Matrix (Fin V) (Fin n) ℝ) (N : ℕ)
    (r : OptRes (Fin (N * n) → ℝ)) (hr : r.success = false) (h : ∀ y0, maximinRun lib vert N y0 = .ok r) (e : E) :
    ∃ s w', (maximin_design lib rng vert N).run (s, e) = (.error .exception, w') ∧ w'.1 ≠ s := by
  obtain ⟨s, hs⟩ := exists_ne (Spec.stateAfter (rng.normal N n) (rng.seeded 42) 1)
  refine ⟨s, _, C18_maximin_failure_leaks lib rng vert N 0 (by norm_num) [] r ?_ (by simp) hr (s, e), hs.symm⟩
  simp [Spec.draws, h]

/-! ## C16: a witness -/

/-- An optimiser that always proposes the point `x`; it keeps the contract. -/
noncomputable def constSlsqp (x : (d : ℕ) → Fin d → ℝ) (d c : ℕ) (obj : (Fin d → ℝ) → Except Err ℝ)
    (cons : (Fin d → ℝ) → Fin c → ℝ) : Except Err (OptRes (Fin d → ℝ)) :=
  open Classical in
  match obj (x d) with
  | .error e => .error e
  | .ok f => .ok ⟨decide (∀ k, 0 ≤ cons (x d) k), x d, f⟩

/-- The library with this optimiser. -/
noncomputable def constLib (lib : Lib) (x : (d : ℕ) → Fin d → ℝ) : Lib :=
  ⟨lib.hullFacets, lib.hull, fun obj _ cons _ => constSlsqp x _ _ obj cons⟩

theorem constLib_slsqp (lib : Lib) (x : (d : ℕ) → Fin d → ℝ) {d c : ℕ} (obj : (Fin d → ℝ) → Except Err ℝ)
    (grad : (Fin d → ℝ) → Except Err (Fin d → ℝ)) (cons : (Fin d → ℝ) → Fin c → ℝ) (y0 : Fin d → ℝ) :
    (constLib lib x).slsqp obj grad cons y0 = constSlsqp x d c obj cons := rfl

theorem constLib_ok (lib : Lib) (x : (d : ℕ) → Fin d → ℝ) : SlsqpOK (constLib lib x) := by
  intro d c obj grad cons y0 r h hs
  change constSlsqp x _ _ obj cons = _ at h
  unfold constSlsqp at h
  split at h
  · cases h
  · rename_i f hf
    cases h
    exact ⟨of_decide_eq_true hs, hf⟩

/-- C16 fails: for every polytope with a vertex whose negative is outside, there is an optimiser that keeps its
contract and makes `maximin_design` return a design with every point outside the polytope. -/
theorem C16_outside (lib : Lib) (rng : Rng S) (vert : Matrix (Fin V) (Fin n) ℝ)
    (heq : HullEquations vert (lib.hull vert)) (v : Fin V)
    (hv : -(vert v) ∉ convexHull ℝ (Set.range fun i => vert i)) (hN : 0 < N) (hn : 0 < n) :
    ∃ lib' : Lib, lib'.hullFacets (V := V) (n := n) = lib.hullFacets ∧ SlsqpOK lib' ∧
      HullEquations vert (lib'.hull vert) ∧
      ∀ w : S × E, ∃ design, (maximin_design lib' rng vert N).run w = (.ok design, w) ∧
        ∀ i, design i ∉ convexHull ℝ (Set.range fun i => vert i) := by
  let X : (d : ℕ) → Fin d → ℝ := fun d p => -(vert v ⟨p % n, Nat.mod_lt _ hn⟩)
  let x := X (N * n)
  let lib' : Lib := constLib lib X
  refine ⟨lib', rfl, constLib_ok lib X, heq, fun w => ?_⟩
  have hx : ∀ i, Np.reshape2 (a := N) (b := n) x i = -vert v := by
    intro i
    funext j
    change -(vert v ⟨(finProdFinEquiv (i, j) : ℕ) % n, _⟩) = -(vert v j)
    congr 2
    have := congrArg Fin.val (Proofs.Index.modNat_finProd i j)
    exact Fin.ext (by simpa [Fin.modNat] using this)
  have hfeas : ∀ k, 0 ≤ maximinCons (N := N) (lib.hull vert) x k := by
    rw [C16_feasible_iff_neg heq]
    intro i
    rw [hx, neg_neg]
    exact subset_convexHull ℝ _ ⟨v, rfl⟩
  obtain ⟨d, hd, hmem, -⟩ := C19_objective (N := N) hN v.pos x vert
  have hrun : ∀ y0, maximinRun lib' vert N y0 = .ok ⟨true, x, -d⟩ := by
    intro y0
    unfold maximinRun
    rw [constLib_slsqp]
    unfold constSlsqp
    have hd' : (fun y => maximin_design_obj (N := N) y vert) (X (N * n)) = .ok (-d) := hd
    rw [hd']
    simp only
    rw [decide_eq_true (show ∀ k, 0 ≤ maximinCons (N := N) (lib'.hull vert) (X (N * n)) k from hfeas)]
  obtain ⟨design, hdes⟩ := C17_maximin_returns lib' (constLib_ok lib X) rng vert hN v.pos
    (List.replicate 3 ⟨true, x, -d⟩) (by simp [Spec.draws, hrun]) (by simp) w
  refine ⟨design, hdes, fun i => ?_⟩
  obtain ⟨rs, r, h1, -, ⟨i', hi', h2, -⟩, h3⟩ := C17_maximin lib' rng vert N w w design hdes
  have hrx : r.x = x := by
    have hm : (Except.ok r : Except Err _) ∈ rs.map .ok := List.mem_map.mpr ⟨r, h2 ▸ List.getElem_mem hi', rfl⟩
    rw [← h1] at hm
    obtain ⟨y0, -, hy⟩ := List.mem_map.mp hm
    rw [hrun] at hy
    cases hy
    rfl
  rw [h3, hrx, hx]
  exact hv

/-- The triangle with vertices (0,0), (1,0), (0,1): Qhull's equations, and a vertex whose negative is outside. -/
example : let vert : Matrix (Fin 3) (Fin 2) ℝ := !![0, 0; 1, 0; 0, 1]
    HullEquations vert !![-1, 0, 0; 0, -1, 0; 1, 1, -1] ∧
      -(vert 1) ∉ convexHull ℝ (Set.range fun i => vert i) := by
  intro vert
  have heq : HullEquations vert !![-1, 0, 0; 0, -1, 0; 1, 1, -1] := by
    intro x
    constructor
    · intro h
      have hconv : Convex ℝ {x : Fin 2 → ℝ | ∀ k : Fin 3, ∑ j, (!![-1, 0, 0; 0, -1, 0; 1, 1, -1] : Matrix (Fin 3) (Fin 3) ℝ) k
          (Fin.castSucc j) * x j + (!![-1, 0, 0; 0, -1, 0; 1, 1, -1] : Matrix (Fin 3) (Fin 3) ℝ) k (Fin.last 2) ≤ 0} := by
        intro a ha b hb s t hs ht hst k
        have h1 := ha k
        have h2 := hb k
        have h3 := mul_le_mul_of_nonneg_left h1 hs
        have h4 := mul_le_mul_of_nonneg_left h2 ht
        simp only [Fin.sum_univ_two, Pi.add_apply, Pi.smul_apply, smul_eq_mul, mul_zero] at h1 h2 h3 h4 ⊢
        have ht' : t = 1 - s := by linarith
        subst ht'
        linarith
      refine convexHull_min ?_ hconv h
      rintro _ ⟨i, rfl⟩ k
      fin_cases i <;> fin_cases k <;> simp [vert, Fin.sum_univ_two]
    · intro h
      have h0 := h 0
      have h1 := h 1
      have h2 := h 2
      simp [Fin.sum_univ_two] at h0 h1 h2
      have hsum : x = ∑ i, (![1 - x 0 - x 1, x 0, x 1] : Fin 3 → ℝ) i • vert i := by
        funext j
        fin_cases j <;> simp [vert, Fin.sum_univ_three]
      rw [hsum]
      refine (convex_convexHull ℝ _).sum_mem ?_ ?_ ?_
      · intro i _
        fin_cases i <;> simp <;> linarith
      · simp only [Fin.sum_univ_three, Matrix.cons_val]
        ring
      · intro i _
        exact subset_convexHull ℝ _ ⟨i, rfl⟩
  refine ⟨heq, ?_⟩
  rw [heq]
  intro h
  have := h 0
  simp [vert, Fin.sum_univ_two] at this
  linarith

end Props
