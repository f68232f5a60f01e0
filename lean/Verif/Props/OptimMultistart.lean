import Verif.Model.Optimizers
import Verif.Proofs.Multistart

/-!
# Properties C17 and C18 for `zonotope_minimize` and `unbounded_minimize`
-/

open Py Model.Optimizers Model.Multistart Proofs.Multistart
open Model.Domains (Boundary Verts Hull Constraints)

namespace Props

variable {S E α β : Type} {n : ℕ}

/-- A multistart whose runs have no effects: what a return means. -/
theorem multistart_lift_ok {rng : Rng S} {draw : S → α × S} {o : α → Except Err (OptRes β)} {init : ℝ} {k : ℕ} {w w' : S × E}
    {r : OptRes β} (h : (multistart rng draw (fun y => PyM.lift (o y)) init k).run w = (.ok r, w')) :
    (∃ rs : List (OptRes β), (Spec.draws draw (rng.seeded 42) k).map o = rs.map .ok ∧ (∀ r ∈ rs, r.success = true) ∧
      Spec.IsFirstBest OptRes.f rs r) ∧ r.f < init ∧ w' = w := by
  obtain ⟨rs, w₂, hc, hs, hb, hi, rfl⟩ := multistart_ok h
  obtain ⟨h1, h2⟩ := calls_lift hc
  exact ⟨⟨rs, h1, hs, hb⟩, hi, by rw [h2]⟩

theorem multistart_lift_indep (rng : Rng S) (draw : S → α × S) (o : α → Except Err (OptRes β)) (init : ℝ) (k : ℕ) (w w' : S × E) :
    ((multistart rng draw (fun y => PyM.lift (o y)) init k).run w).1
      = ((multistart rng draw (fun y => PyM.lift (o y)) init k).run w').1 := by
  simp only [multistart_run]
  have key : ∀ (k : ℕ) (b : Best β) (s : S) (e e' : E),
      ((loop draw (fun y => (PyM.lift (o y) : PyM (S × E) _)) k b).run (s, e)).1
        = ((loop draw (fun y => (PyM.lift (o y) : PyM (S × E) _)) k b).run (s, e')).1 := by
    intro k
    induction k with
    | zero => intro b s e e'; rfl
    | succ k ih =>
      intro b s e e'
      simp only [loop_succ, start, PyM.run_bind, Rng.run_draw, PyM.run_lift]
      rcases o (draw s).1 with _ | r
      · rfl
      · simp only
        split_ifs
        · exact ih _ _ _ _
        · rfl
  have := key k ⟨init, none⟩ (rng.seeded 42) w.2 w'.2
  revert this
  rcases (loop draw (fun y => (PyM.lift (o y) : PyM (S × E) _)) k ⟨init, none⟩).run (rng.seeded 42, w.2) with ⟨r, w₁⟩
  rcases (loop draw (fun y => (PyM.lift (o y) : PyM (S × E) _)) k ⟨init, none⟩).run (rng.seeded 42, w'.2) with ⟨r', w₂⟩
  rintro ⟨⟩
  rcases r with e | ⟨m, _ | r⟩ <;> rfl

/-! ## `zonotope_minimize` -/

theorem zonotope_minimize_run (lib : Lib) (rng : Rng S) (avfun : AvFun) (avdfun : Option AvGrad) (b : Boundary) (n : ℕ) (w : S × E) :
    (zonotope_minimize lib rng avfun avdfun b n).run w =
      match (multistart (E := E) rng (rng.normal 1 n) (fun y0 => PyM.lift (zonotopeRun lib avfun avdfun b y0)) 1e100 10).run w with
      | (.ok r, w') => (.ok (r.x, r.f), w')
      | (.error e, w') => (.error e, w') := by
  rw [zonotope_minimize, PyM.run_bind]
  split <;> (rename_i h; rw [h])
  rfl

/-- C17, C18: a returned pair is point and value of the first best of ten successful runs, from starts drawn after seeding
with 42; the world is as it was. -/
theorem C17_zonotope {lib : Lib} {rng : Rng S} {avfun : AvFun} {avdfun : Option AvGrad} {b : Boundary} {w w' : S × E}
    {y : Fin b.n → ℝ} {f : ℝ} (h : (zonotope_minimize lib rng avfun avdfun b n).run w = (.ok (y, f), w')) :
    (∃ rs : List (OptRes (Fin b.n → ℝ)), ∃ r,
      (Spec.draws (rng.normal 1 n) (rng.seeded 42) 10).map (zonotopeRun lib avfun avdfun b) = rs.map .ok ∧
      (∀ r ∈ rs, r.success = true) ∧ Spec.IsFirstBest OptRes.f rs r ∧ y = r.x ∧ f = r.f) ∧ w' = w := by
  rw [zonotope_minimize_run] at h
  split at h
  · rename_i r w₁ hr
    cases h
    obtain ⟨⟨rs, h1, h2, h3⟩, -, h4⟩ := multistart_lift_ok hr
    exact ⟨⟨rs, r, h1, h2, h3, rfl, rfl⟩, h4⟩
  · cases h

/-- C17: when all starts succeed, a pair is returned provided some value is below 1e100; otherwise `AttributeError` is raised
(and the generator restored). -/
theorem C17_zonotope_returns (lib : Lib) (rng : Rng S) (avfun : AvFun) (avdfun : Option AvGrad) (b : Boundary)
    (rs : List (OptRes (Fin b.n → ℝ)))
    (h : (Spec.draws (rng.normal 1 n) (rng.seeded 42) 10).map (zonotopeRun lib avfun avdfun b) = rs.map .ok)
    (hs : ∀ r ∈ rs, r.success = true) (w : S × E) :
    ((∃ r ∈ rs, r.f < 1e100) → ∃ p, (zonotope_minimize lib rng avfun avdfun b n).run w = (.ok p, w)) ∧
    ((∀ r ∈ rs, 1e100 ≤ r.f) → (zonotope_minimize lib rng avfun avdfun b n).run w = (.error .attributeError, w)) := by
  refine ⟨fun hlt => ?_, fun hge => ?_⟩
  · obtain ⟨r', hr'⟩ := multistart_of_calls (w := w) (init := 1e100) (calls_lift_of w.2 h) hs hlt
    rw [zonotope_minimize_run, hr']
    exact ⟨_, rfl⟩
  · rw [zonotope_minimize_run, multistart_none (calls_lift_of w.2 h) hs hge]

/-- C18: the outcome does not depend on the caller's world. -/
theorem C18_zonotope_reproducible (lib : Lib) (rng : Rng S) (avfun : AvFun) (avdfun : Option AvGrad) (b : Boundary) (n : ℕ)
    (w w' : S × E) : ((zonotope_minimize lib rng avfun avdfun b n).run w).1 = ((zonotope_minimize lib rng avfun avdfun b n).run w').1 := by
  have h := multistart_lift_indep rng (rng.normal 1 n) (zonotopeRun lib avfun avdfun b) 1e100 10 w w'
  rw [zonotope_minimize_run, zonotope_minimize_run]
  revert h
  rcases (multistart (E := E) rng (rng.normal 1 n) (fun y0 => PyM.lift (zonotopeRun lib avfun avdfun b y0)) 1e100 10).run w with ⟨r, w₁⟩
  rcases (multistart (E := E) rng (rng.normal 1 n) (fun y0 => PyM.lift (zonotopeRun lib avfun avdfun b y0)) 1e100 10).run w' with ⟨r', w₂⟩
  rintro ⟨⟩
  rcases r with e | r <;> rfl

/-- C18 fails when a start fails: the exception leaves the generator in the state after `seed(42)` and the draws made. -/
theorem C18_zonotope_failure_leaks (lib : Lib) (rng : Rng S) (avfun : AvFun) (avdfun : Option AvGrad) (b : Boundary) (j : ℕ)
    (hj : j < 10) (rs : List (OptRes (Fin b.n → ℝ))) (r : OptRes (Fin b.n → ℝ))
    (h : (Spec.draws (rng.normal 1 n) (rng.seeded 42) (j + 1)).map (zonotopeRun lib avfun avdfun b) = (rs ++ [r]).map .ok)
    (hs : ∀ r ∈ rs, r.success = true) (hr : r.success = false) (w : S × E) :
    (zonotope_minimize lib rng avfun avdfun b n).run w
      = (.error .exception, (Spec.stateAfter (rng.normal 1 n) (rng.seeded 42) (j + 1), w.2)) := by
  rw [zonotope_minimize_run, multistart_fail hj (calls_lift_of w.2 h) hs hr]

/-- C18 fails: with an optimiser that reports failure the state of the caller is lost, for every generator with two states. -/
theorem C18_zonotope_not_restored [Nontrivial S] (lib : Lib) (rng : Rng S) (avfun : AvFun) (avdfun : Option AvGrad) (b : Boundary)
    (n : ℕ) (r : OptRes (Fin b.n → ℝ)) (hr : r.success = false)
    (h : ∀ y0 : Matrix (Fin 1) (Fin n) ℝ, zonotopeRun lib avfun avdfun b y0 = .ok r) (e : E) :
    ∃ s w', (zonotope_minimize lib rng avfun avdfun b n).run (s, e) = (.error .exception, w') ∧ w'.1 ≠ s := by
  obtain ⟨s, hs⟩ := exists_ne (Spec.stateAfter (rng.normal 1 n) (rng.seeded 42) 1)
  refine ⟨s, _, C18_zonotope_failure_leaks lib rng avfun avdfun b 0 (by norm_num) [] r ?_ (by simp) hr (s, e), hs.symm⟩
  simp [Spec.draws, h]

/-! ## `unbounded_minimize` -/

theorem unbounded_minimize_run (lib : Lib) (rng : Rng S) (avfun : AvFun) (avdfun : Option AvGrad) (n : ℕ) (w : S × E) :
    (unbounded_minimize lib rng avfun avdfun n).run w =
      match (multistart (E := E) rng (rng.normal 1 n) (fun y0 => PyM.lift (unboundedRun lib avfun avdfun y0)) 1e100 10).run w with
      | (.ok r, w') => (.ok (r.x, r.f), w')
      | (.error e, w') => (.error e, w') := by
  rw [unbounded_minimize, PyM.run_bind]
  split <;> (rename_i h; rw [h])
  rfl

/-- C17, C18: as `C17_zonotope`. -/
theorem C17_unbounded {lib : Lib} {rng : Rng S} {avfun : AvFun} {avdfun : Option AvGrad} {w w' : S × E}
    {y : Fin n → ℝ} {f : ℝ} (h : (unbounded_minimize lib rng avfun avdfun n).run w = (.ok (y, f), w')) :
    (∃ rs : List (OptRes (Fin n → ℝ)), ∃ r,
      (Spec.draws (rng.normal 1 n) (rng.seeded 42) 10).map (unboundedRun lib avfun avdfun) = rs.map .ok ∧
      (∀ r ∈ rs, r.success = true) ∧ Spec.IsFirstBest OptRes.f rs r ∧ y = r.x ∧ f = r.f) ∧ w' = w := by
  rw [unbounded_minimize_run] at h
  split at h
  · rename_i r w₁ hr
    cases h
    obtain ⟨⟨rs, h1, h2, h3⟩, -, h4⟩ := multistart_lift_ok hr
    exact ⟨⟨rs, r, h1, h2, h3, rfl, rfl⟩, h4⟩
  · cases h

/-- C17: as `C17_zonotope_returns`. -/
theorem C17_unbounded_returns (lib : Lib) (rng : Rng S) (avfun : AvFun) (avdfun : Option AvGrad) (rs : List (OptRes (Fin n → ℝ)))
    (h : (Spec.draws (rng.normal 1 n) (rng.seeded 42) 10).map (unboundedRun lib avfun avdfun) = rs.map .ok)
    (hs : ∀ r ∈ rs, r.success = true) (w : S × E) :
    ((∃ r ∈ rs, r.f < 1e100) → ∃ p, (unbounded_minimize lib rng avfun avdfun n).run w = (.ok p, w)) ∧
    ((∀ r ∈ rs, 1e100 ≤ r.f) → (unbounded_minimize lib rng avfun avdfun n).run w = (.error .attributeError, w)) := by
  refine ⟨fun hlt => ?_, fun hge => ?_⟩
  · obtain ⟨r', hr'⟩ := multistart_of_calls (w := w) (init := 1e100) (calls_lift_of w.2 h) hs hlt
    rw [unbounded_minimize_run, hr']
    exact ⟨_, rfl⟩
  · rw [unbounded_minimize_run, multistart_none (calls_lift_of w.2 h) hs hge]

/-- C18: the outcome does not depend on the caller's world. -/
theorem C18_unbounded_reproducible (lib : Lib) (rng : Rng S) (avfun : AvFun) (avdfun : Option AvGrad) (n : ℕ)
    (w w' : S × E) : ((unbounded_minimize lib rng avfun avdfun n).run w).1 = ((unbounded_minimize lib rng avfun avdfun n).run w').1 := by
  have h := multistart_lift_indep rng (rng.normal 1 n) (unboundedRun lib avfun avdfun) 1e100 10 w w'
  rw [unbounded_minimize_run, unbounded_minimize_run]
  revert h
  rcases (multistart (E := E) rng (rng.normal 1 n) (fun y0 => PyM.lift (unboundedRun lib avfun avdfun y0)) 1e100 10).run w with ⟨r, w₁⟩
  rcases (multistart (E := E) rng (rng.normal 1 n) (fun y0 => PyM.lift (unboundedRun lib avfun avdfun y0)) 1e100 10).run w' with ⟨r', w₂⟩
  rintro ⟨⟩
  rcases r with e | r <;> rfl

/-- C18 fails when a start fails. -/
theorem C18_unbounded_failure_leaks (lib : Lib) (rng : Rng S) (avfun : AvFun) (avdfun : Option AvGrad) (j : ℕ)
    (hj : j < 10) (rs : List (OptRes (Fin n → ℝ))) (r : OptRes (Fin n → ℝ))
    (h : (Spec.draws (rng.normal 1 n) (rng.seeded 42) (j + 1)).map (unboundedRun lib avfun avdfun) = (rs ++ [r]).map .ok)
    (hs : ∀ r ∈ rs, r.success = true) (hr : r.success = false) (w : S × E) :
    (unbounded_minimize lib rng avfun avdfun n).run w
      = (.error .exception, (Spec.stateAfter (rng.normal 1 n) (rng.seeded 42) (j + 1), w.2)) := by
  rw [unbounded_minimize_run, multistart_fail hj (calls_lift_of w.2 h) hs hr]

/-- C18 fails: as `C18_zonotope_not_restored`. -/
theorem C18_unbounded_not_restored [Nontrivial S] (lib : Lib) (rng : Rng S) (avfun : AvFun) (avdfun : Option AvGrad) (n : ℕ)
    (r : OptRes (Fin n → ℝ)) (hr : r.success = false)
    (h : ∀ y0 : Matrix (Fin 1) (Fin n) ℝ, unboundedRun lib avfun avdfun y0 = .ok r) (e : E) :
    ∃ s w', (unbounded_minimize lib rng avfun avdfun n).run (s, e) = (.error .exception, w') ∧ w'.1 ≠ s := by
  obtain ⟨s, hs⟩ := exists_ne (Spec.stateAfter (rng.normal 1 n) (rng.seeded 42) 1)
  refine ⟨s, _, C18_unbounded_failure_leaks lib rng avfun avdfun 0 (by norm_num) [] r ?_ (by simp) hr (s, e), hs.symm⟩
  simp [Spec.draws, h]

/-- C17: the solver used without constraints is BFGS when there is a gradient and SLSQP otherwise; on a zonotope it is SLSQP
with the constraints of the domain. -/
theorem C17_methods (lib : Lib) (avfun : AvFun) (g : AvGrad) (y0 : Matrix (Fin 1) (Fin n) ℝ) :
    unboundedRun lib avfun (some g) y0 = lib.minimize "BFGS" (avfun n) (some (g n)) none (y0 0) ∧
    unboundedRun lib avfun none y0 = lib.minimize "SLSQP" (avfun n) none none (y0 0) ∧
    ∀ (m : ℕ) (v : Verts m n) (ch : Option (Hull n)) (cons : Constraints n) (dg : Option AvGrad),
      zonotopeRun lib avfun dg ⟨m, n, v, ch, some cons⟩ y0
        = lib.minimize "SLSQP" (avfun n) (dg.map fun g => g n) (some cons) (y0 0) := by
  refine ⟨rfl, rfl, fun m v ch cons dg => ?_⟩
  unfold zonotopeRun
  exact dif_pos rfl

/-- An optimiser that returns its starting point with a fixed report and value. -/
noncomputable def fixedLib (lib : Lib) (ok : Bool) (v : ℝ) : Lib := { lib with minimize := fun _ _ _ _ _ x0 => .ok ⟨ok, x0, v⟩ }

/-- The hypotheses of the theorems above are met: runs that succeed with value 3, with value 1e100, and runs
that fail. -/
example (lib : Lib) (rng : Rng S) (avfun : AvFun) : ∃ rs : List (OptRes (Fin 2 → ℝ)),
    (Spec.draws (rng.normal 1 2) (rng.seeded 42) 10).map (unboundedRun (fixedLib lib true 3) avfun none) = rs.map .ok ∧
    (∀ r ∈ rs, r.success = true) ∧ ∃ r ∈ rs, r.f < 1e100 := by
  refine ⟨(Spec.draws (rng.normal 1 2) (rng.seeded 42) 10).map fun y0 => ⟨true, y0 0, 3⟩, ?_, ?_, ?_⟩
  · rw [List.map_map]; rfl
  · intro r hr
    obtain ⟨y0, -, rfl⟩ := List.mem_map.mp hr
    rfl
  · exact ⟨⟨true, (rng.normal 1 2 (rng.seeded 42)).1 0, 3⟩, List.mem_map.mpr ⟨_, List.mem_cons_self, rfl⟩, by norm_num⟩

example (lib : Lib) (rng : Rng S) (avfun : AvFun) : ∃ rs : List (OptRes (Fin 2 → ℝ)),
    (Spec.draws (rng.normal 1 2) (rng.seeded 42) 10).map (unboundedRun (fixedLib lib true 1e100) avfun none) = rs.map .ok ∧
    (∀ r ∈ rs, r.success = true) ∧ ∀ r ∈ rs, 1e100 ≤ r.f := by
  refine ⟨(Spec.draws (rng.normal 1 2) (rng.seeded 42) 10).map fun y0 => ⟨true, y0 0, 1e100⟩, ?_, ?_, ?_⟩
  · rw [List.map_map]; rfl
  · intro r hr
    obtain ⟨y0, -, rfl⟩ := List.mem_map.mp hr
    rfl
  · intro r hr
    obtain ⟨y0, -, rfl⟩ := List.mem_map.mp hr
    exact le_rfl

example (lib : Lib) (avfun : AvFun) : ∃ (lib' : Lib) (r : OptRes (Fin 2 → ℝ)), r.success = false ∧
    ∀ y0 : Matrix (Fin 1) (Fin 2) ℝ, unboundedRun lib' avfun none y0 = .ok r :=
  ⟨{ lib with minimize := fun _ _ _ _ _ _ => .ok ⟨false, 0, 0⟩ }, ⟨false, 0, 0⟩, rfl, fun _ => rfl⟩

end Props
