import Verif.Proofs.SimRunners
import Verif.Proofs.Misc

/-!
# Properties C07-C09: `utils/simrunners.py`
-/

open Py Model.SimRunners Proofs.SimRunners

namespace Props

variable {W : Type} {M m : ℕ}

/-! ## C07 -/

/-- C07: if calling the simulation on the rows of `X` one after the other returns `vs` and ends in `w'`, then
`run(X)` returns the M-by-1 array holding `vs` in order and ends in exactly that world. -/
theorem C07_run_ok (sim : (m : ℕ) → Sim W m) (X : Matrix (Fin M) (Fin m) ℝ) (w : W) {vs : List ℝ} {w' : W}
    (h : Spec.Calls (sim m) (Np.rows X) w vs w') :
    ∃ F : Matrix (Fin M) (Fin 1) ℝ, (run sim (.mat (.of X))).run w = (.ok (.of F), w') ∧
      List.ofFn (fun i => F i 0) = vs := by
  have hl : vs.length = M := by simpa using h.length
  unfold Np.rows at h
  have h1 := foldlM_calls (put := fun (F : Matrix (Fin M) (Fin 1) ℝ) i v => Matrix.updateRow F i (fun _ => v))
    (List.finRange M) (Np.zeros M 1) w h
  rw [fill_rows (fun v _ => v) vs hl] at h1
  refine ⟨Matrix.of fun i _ => vs.get (i.cast hl.symm), ?_, ?_⟩
  · simp only [run, Model.Misc.process_inputs, PyM.run_bind]
    erw [h1]
    rfl
  · subst hl
    simp only [Matrix.of_apply, Fin.cast_eq_self]
    exact List.ofFn_get vs

/-- C07: every run is one of the two: all calls succeed (see `C07_run_ok`) or some call raises
(see `C08_run_fail`). -/
theorem C07_cases (sim : Sim W m) (X : Matrix (Fin M) (Fin m) ℝ) (w : W) :
    (∃ vs w', Spec.Calls sim (Np.rows X) w vs w') ∨
      (∃ k e w', Spec.CallsFail sim (Np.rows X) w k e w') :=
  Spec.calls_or_fail sim _ w

/-- C07: a successful run calls the simulation on every row exactly once, in row order. -/
theorem C07_calls_each_row_once (sim : Sim W m) (X : Matrix (Fin M) (Fin m) ℝ) (w : W)
    {F' : Matrix (Fin M) (Fin 1) ℝ} {w' : W × List (Fin m → ℝ)}
    (hrun : (runMat (Spec.logged sim) X).run (w, []) = (.ok F', w')) :
    w'.2 = Np.rows X := by
  rcases Spec.calls_or_fail (Spec.logged sim) (Np.rows X) (w, []) with ⟨vs, w₁, h⟩ | ⟨k, e, w₁, h⟩
  · have h' := h.log
    unfold Np.rows at h
    have h1 := foldlM_calls (put := fun (F : Matrix (Fin M) (Fin 1) ℝ) i v => Matrix.updateRow F i (fun _ => v))
      (List.finRange M) (Np.zeros M 1) (w, []) h
    erw [h1] at hrun
    cases hrun
    simpa using h'
  · unfold Np.rows at h
    have h1 := foldlM_callsFail
      (put := fun (F : Matrix (Fin M) (Fin 1) ℝ) i v => Matrix.updateRow F i (fun _ => v))
      (List.finRange M) (Np.zeros M 1) (w, []) h
    erw [h1] at hrun
    cases hrun

/-- C07: for a pure simulation row `i` of the output is the value at row `i` of the input. -/
theorem C07_pure (g : (m : ℕ) → (Fin m → ℝ) → ℝ) (X : Matrix (Fin M) (Fin m) ℝ) (w : W) :
    ∃ F : Matrix (Fin M) (Fin 1) ℝ,
      (run (fun m x => pure (g m x)) (.mat (.of X))).run w = (.ok (.of F), w) ∧
        ∀ i, F i 0 = g m (X i) := by
  obtain ⟨F, hF, hv⟩ := C07_run_ok (fun m x => pure (g m x)) X w (Spec.calls_pure (g m) (Np.rows X) w)
  refine ⟨F, hF, fun i => ?_⟩
  rw [Np.rows, List.map_map, ← List.ofFn_eq_map] at hv
  exact congrFun (List.ofFn_injective hv) i

/-- C07: a simulation that counts its calls; on two rows it returns 1 and 2. -/
example : ∃ F : Matrix (Fin 2) (Fin 1) ℝ,
    (run (W := ℕ) (fun _ _ n => (.ok ((n : ℝ) + 1), n + 1)) (.mat (.of !![5, 6; 7, 8]))).run 0
      = (.ok (.of F), 2) ∧ List.ofFn (fun i => F i 0) = [1, 2] := by
  apply C07_run_ok
  simp only [Np.rows, List.finRange_succ, List.finRange_zero, List.map_cons, List.map_nil]
  refine .cons (w₁ := 1) ?_ (.cons (w₁ := 2) ?_ (.nil _))
  · simp [PyM.run]
  · simp [PyM.run]; norm_num

/-! ## C08 -/

/-- C08: if the simulation raises at row `k`, `run` raises the same exception and the world is the one
left by that call. -/
theorem C08_run_fail (sim : (m : ℕ) → Sim W m) (X : Matrix (Fin M) (Fin m) ℝ) (w : W) {k : ℕ} {e : Err} {w' : W}
    (h : Spec.CallsFail (sim m) (Np.rows X) w k e w') :
    (run sim (.mat (.of X))).run w = (.error e, w') := by
  unfold Np.rows at h
  have h1 := foldlM_callsFail
    (put := fun (F : Matrix (Fin M) (Fin 1) ℝ) i v => Matrix.updateRow F i (fun _ => v))
    (List.finRange M) (Np.zeros M 1) w h
  simp only [run, Model.Misc.process_inputs, PyM.run_bind]
  erw [h1]

/-- C08: a failing run has called the simulation on exactly the rows `0..k`, in order, where `k` is the
row that raised; no later row is evaluated. -/
theorem C08_calls_until_failure (sim : Sim W m) (X : Matrix (Fin M) (Fin m) ℝ) (w : W) {e : Err}
    {w' : W × List (Fin m → ℝ)}
    (hrun : (runMat (Spec.logged sim) X).run (w, []) = (.error e, w')) :
    ∃ k : ℕ, k < M ∧ w'.2 = (Np.rows X).take (k + 1) ∧
      Spec.CallsFail (Spec.logged sim) (Np.rows X) (w, []) k e w' := by
  rcases Spec.calls_or_fail (Spec.logged sim) (Np.rows X) (w, []) with ⟨vs, w₁, h⟩ | ⟨k, e', w₁, h⟩
  · unfold Np.rows at h
    have h1 := foldlM_calls (put := fun (F : Matrix (Fin M) (Fin 1) ℝ) i v => Matrix.updateRow F i (fun _ => v))
      (List.finRange M) (Np.zeros M 1) (w, []) h
    erw [h1] at hrun
    cases hrun
  · have hlog := h.log
    have hlt := h.lt
    have h0 := h
    unfold Np.rows at h
    have h1 := foldlM_callsFail
      (put := fun (F : Matrix (Fin M) (Fin 1) ℝ) i v => Matrix.updateRow F i (fun _ => v))
      (List.finRange M) (Np.zeros M 1) (w, []) h
    erw [h1] at hrun
    cases hrun
    exact ⟨k, by simpa using hlt, by simpa using hlog, h0⟩

/-- C08: a simulation that raises on its second call. -/
example : Spec.CallsFail (W := ℕ) (fun (_ : Fin 1 → ℝ) n => if n = 1 then (.error (.user 7), 9) else (.ok 0, n + 1))
    (Np.rows (!![5; 6; 7] : Matrix (Fin 3) (Fin 1) ℝ)) 0 1 (.user 7) 9 := by
  simp only [Np.rows, List.finRange_succ, List.finRange_zero, List.map_cons, List.map_nil]
  exact .later (w₁ := 1) (v := 0) (by simp [PyM.run]) (.here (by simp [PyM.run]))

/-- C08: inputs that are not two-dimensional are rejected before any call. -/
theorem C08_bad_shape (sim : (m : ℕ) → Sim W m) (dsim : (m : ℕ) → GradSim W m) (X : Arr) (h : X.ndim ≠ 2) (w : W) :
    (run sim X).run w = (.error .valueError, w) ∧ (runGrad dsim X).run w = (.error .valueError, w) := by
  simp [run, runGrad, Proofs.Misc.process_inputs_error h]

/-! ## C09 -/

/-- The gradient function together with the `reshape((1,m))` check applied to its result. -/
def checked (dfun : GradSim W m) : GradSim W m := fun x => do
  let df ← dfun x
  if df.length = m then return df else PyM.raise .valueError

theorem runGradMat_eq (dfun : GradSim W m) (X : Matrix (Fin M) (Fin m) ℝ) :
    runGradMat dfun X = (List.finRange M).foldlM (fun dF i => do
      let df ← checked dfun (X i)
      return Matrix.updateRow dF i (fun j => df.getD j 0)) (Np.zeros M m) := by
  unfold runGradMat
  congr 1
  funext dF i w
  simp only [checked, bind, PyM.bind]
  rcases dfun (X i) w with ⟨_ | df, w'⟩
  · rfl
  · by_cases h : df.length = m
    · simp only [h, if_true]; rfl
    · simp only [h, if_false]; rfl

theorem calls_checked {dfun : GradSim W m} {xs : List (Fin m → ℝ)} {w w' : W} {vs : List (List ℝ)}
    (h : Spec.Calls dfun xs w vs w') (hs : ∀ v ∈ vs, v.length = m) :
    Spec.Calls (checked dfun) xs w vs w' := by
  induction h with
  | nil => exact .nil _
  | @cons x xs w w₁ w₂ v vs hx _ ih =>
    refine .cons ?_ (ih fun u hu => hs u (List.mem_cons_of_mem _ hu))
    rw [checked, PyM.run_bind, hx]
    simp [hs v List.mem_cons_self]

theorem callsFail_append {f : GradSim W m} {xs ys : List (Fin m → ℝ)} {w w₁ w₂ : W} {vs : List (List ℝ)}
    {k : ℕ} {e : Err} (h : Spec.Calls f xs w vs w₁) (h' : Spec.CallsFail f ys w₁ k e w₂) :
    ∃ k', Spec.CallsFail f (xs ++ ys) w k' e w₂ := by
  induction h with
  | nil => exact ⟨_, h'⟩
  | cons hx _ ih =>
    obtain ⟨k', hk⟩ := ih h'
    exact ⟨_, .later hx hk⟩

/-- C09: if the calls on the rows return gradients of the right size, `run` returns them row by row. -/
theorem C09_run_ok (dfun : (m : ℕ) → GradSim W m) (X : Matrix (Fin M) (Fin m) ℝ) (w : W)
    {vs : List (List ℝ)} {w' : W} (h : Spec.Calls (dfun m) (Np.rows X) w vs w')
    (hsize : ∀ v ∈ vs, v.length = m) :
    ∃ F : Matrix (Fin M) (Fin m) ℝ, (runGrad dfun (.mat (.of X))).run w = (.ok (.of F), w') ∧
      List.ofFn (fun i => List.ofFn (F i)) = vs := by
  have hl : vs.length = M := by simpa using h.length
  unfold Np.rows at h
  have h1 := foldlM_calls
    (put := fun (F : Matrix (Fin M) (Fin m) ℝ) i (df : List ℝ) => Matrix.updateRow F i (fun j => df.getD j 0))
    (List.finRange M) (Np.zeros M m) w (calls_checked h hsize)
  rw [fill_rows (fun (v : List ℝ) (j : Fin m) => v.getD j 0) vs hl] at h1
  refine ⟨Matrix.of fun i (j : Fin m) => (vs.get (i.cast hl.symm)).getD j 0, ?_, ?_⟩
  · simp only [runGrad, Model.Misc.process_inputs, PyM.run_bind, runGradMat_eq]
    erw [h1]
    rfl
  · subst hl
    apply List.ext_getElem
    · simp
    · intro i h1 h2
      simp only [List.getElem_ofFn, Matrix.of_apply]
      have hs := hsize vs[i] (List.getElem_mem h2)
      apply List.ext_getElem
      · simp [hs]
      · intro j hj1 hj2
        simp [hj2]

/-- C09: if the call for row `k` raises, or returns a gradient of the wrong size, `run` raises that
exception (`ValueError` for the size) and rows after `k` are not evaluated: the world is the one left by
call `k`. -/
theorem C09_run_fail (dfun : (m : ℕ) → GradSim W m) (X : Matrix (Fin M) (Fin m) ℝ) (w : W)
    {pre suf : List (Fin m → ℝ)} {x : Fin m → ℝ} (hX : Np.rows X = pre ++ x :: suf)
    {vs : List (List ℝ)} {w₁ w₂ : W} (hpre : Spec.Calls (dfun m) pre w vs w₁) (hsize : ∀ v ∈ vs, v.length = m)
    (r : Except Err (List ℝ)) (hx : (dfun m x).run w₁ = (r, w₂)) (e : Err)
    (hbad : r = .error e ∨ (∃ v, r = .ok v ∧ v.length ≠ m ∧ e = .valueError)) :
    (runGrad dfun (.mat (.of X))).run w = (.error e, w₂) := by
  have hhere : Spec.CallsFail (checked (dfun m)) (x :: suf) w₁ 0 e w₂ := by
    refine .here ?_
    rw [checked, PyM.run_bind, hx]
    rcases hbad with rfl | ⟨v, rfl, hv, rfl⟩
    · rfl
    · simp [hv]
  obtain ⟨k, hf⟩ := callsFail_append (calls_checked hpre hsize) hhere
  rw [← hX] at hf
  unfold Np.rows at hf
  have h1 := foldlM_callsFail
    (put := fun (F : Matrix (Fin M) (Fin m) ℝ) i (df : List ℝ) => Matrix.updateRow F i (fun j => df.getD j 0))
    (List.finRange M) (Np.zeros M m) w hf
  simp only [runGrad, Model.Misc.process_inputs, PyM.run_bind, runGradMat_eq]
  erw [h1]

/-- C09: both constructors reject exactly the objects that cannot be called, with `TypeError`. -/
theorem C09_init {S : Type} (f : Option S) :
    (f = none → init f = .error .typeError) ∧ (∀ g, f = some g → init f = .ok g) := by
  constructor
  · rintro rfl; rfl
  · rintro g rfl; rfl

example : Spec.Calls (W := Unit) (fun (x : Fin 2 → ℝ) => (pure [x 1, x 0] : PyM Unit (List ℝ)))
    (Np.rows (!![1, 2; 3, 4] : Matrix (Fin 2) (Fin 2) ℝ)) () [[2, 1], [4, 3]] () := by
  simpa [Np.rows, List.finRange_succ] using Spec.calls_pure (W := Unit) (fun (x : Fin 2 → ℝ) => [x 1, x 0])
    (Np.rows (!![1, 2; 3, 4] : Matrix (Fin 2) (Fin 2) ℝ)) ()

end Props
