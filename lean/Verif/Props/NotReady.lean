import Verif.Model.Integrals
import Verif.Model.Optimizers
import Verif.Props.IndexSet
import Verif.Spec.Refused

/-!
# C106: objects that are not ready are refused and nothing is changed
-/

open Py Model.Misc Model.QPSolver Model.Subspaces Model.Domains Model.ResponseSurfaces Model.ActiveSurfaces Spec

namespace Props

variable {S R E W α β : Type}

theorem refused_raise (e : Err) : Refused (PyM.raise e : PyM W α) e := fun _ => rfl

theorem refused_bind {x : PyM W α} {e : Err} (h : Refused x e) (f : α → PyM W β) : Refused (x >>= f) e := fun w => PyM.run_bind_error (h w)

theorem refused_lift {x : Except Err α} {e : Err} (h : x = .error e) : Refused (PyM.lift x : PyM W α) e := fun w => by
  rw [h]
  rfl

/-- `partition` before `compute`, with something that is not an integer, and with a dimension out of range. -/
theorem C106_partition :
    (∀ n : ℤ, ∀ w : S × Subspaces, w.2.eigenvecs = none → (partition (.int n)).run w = (.error .attributeError, w)) ∧
    Refused (partition .other : PyM (S × Subspaces) Unit) .typeError ∧
    ∀ (n : ℤ) (w : S × Subspaces) (V : NpMat), w.2.eigenvecs = some V → n < 1 ∨ (V.rows : ℤ) < n →
      (partition (.int n)).run w = (.error .valueError, w) := by
  refine ⟨fun n w h => ?_, refused_raise _, fun n w V h hn => ?_⟩
  · refine (PyM.run_bind_ok (PyM.run_get w)).trans ?_
    rw [h]
    rfl
  · refine (PyM.run_bind_ok (PyM.run_get w)).trans ?_
    rw [h]
    dsimp only
    rw [if_pos hn]
    rfl

/-- The domains. -/
theorem C106_domains (lib : Model.Domains.Lib) (rng : Rng S) {s : Subspaces} (hs : Fresh s) :
    unboundedInit (some s) = .error .valueError ∧ Refused (boundedInit lib rng (some s) : PyM (S × Files × Out × E) Domain) .valueError ∧
    unboundedInit none = .error .typeError ∧ Refused (boundedInit lib rng none : PyM (S × Files × Out × E) Domain) .typeError ∧
    ∀ d, Refused (compute_boundary lib rng s d : PyM (S × Files × Out × E) Domain) .attributeError := by
  refine ⟨?_, ?_, rfl, refused_raise _, fun d => ?_⟩
  · unfold unboundedInit; simp only [hs.W1]
  · unfold boundedInit; simp only [hs.W1]; exact refused_raise _
  · unfold compute_boundary; simp only [hs.W1]; exact refused_raise _

/-- The four maps: `forward` and `inverse`. -/
theorem C106_maps (lib : Model.Domains.Lib) (rng : Rng S) {s : Subspaces} (hs : Fresh s) (X : NpMat) (Y : NpMat) (N : ℕ) (d : Option Model.Optimizers.MinData) :
    forward s (.mat X) = .error .typeError ∧
    Refused (boundedInverse lib rng s (.mat Y) (.int N) : PyM (S × Files × E) _) .attributeError ∧
    Refused (unboundedInverse rng s (.mat Y) (.int N) : PyM (S × Files × E) _) .attributeError ∧
    Refused (inverse (Model.Optimizers.boundedMinZ lib rng s d) s (.mat Y) (.int 1) : PyM (S × Files × E) _) .attributeError ∧
    Refused (inverse (Model.Optimizers.unboundedMinZ s d) s (.mat Y) (.int 1) : PyM (S × Files × E) _) .attributeError := by
  have hinv : ∀ (r : NpMat → ℕ → PyM (S × Files × E) (Option Arr3)) (K : ℕ) (e : Err), Refused (r Y K) e →
      Refused (inverse r s (.mat Y) (.int K)) e := fun r K e h w => by
    refine (PyM.run_bind_ok (w' := w) (a := Y) rfl).trans ?_
    dsimp only
    rw [if_neg (by omega)]
    exact PyM.run_bind_error (h w)
  refine ⟨?_, hinv _ _ _ ?_, hinv _ _ _ ?_, hinv _ 1 _ ?_, hinv _ 1 _ ?_⟩
  · unfold forward; simp only [hs.W1, hs.W2]; rfl
  · unfold boundedZ; simp only [hs.W1, hs.W2]; exact refused_raise _
  · unfold unboundedZ; simp only [hs.W1]; exact refused_raise _
  · unfold Model.Optimizers.boundedMinZ; simp only [hs.W1]; exact refused_raise _
  · unfold Model.Optimizers.unboundedMinZ; simp only [hs.W1]; exact refused_raise _

/-- The rules and integrals: the simulation is not run. -/
theorem C106_integrals (lib : Model.Integrals.Lib) (rng : Rng S) (a : AVMap S E) (hs : Fresh a.subspaces) (N NMC : ℤ)
    (fn : (m : ℕ) → Model.SimRunners.Sim (S × Files × E) m) (g : Model.Integrals.AvFun (S × Files × E)) :
    Refused (Model.Integrals.quadrature_rule lib rng (some a) (.int N) (.int NMC)) .attributeError ∧
    Refused (Model.Integrals.integrate lib rng fn (some a) (.int N) (.int NMC)) .attributeError ∧
    Refused (Model.Integrals.av_integrate lib rng g (some a) (.int N)) .attributeError := by
  have h : ∀ K, Refused (Model.Integrals.av_quadrature_rule lib rng a K) .attributeError := fun K => by
    unfold Model.Integrals.av_quadrature_rule; simp only [hs.W1]; exact refused_raise _
  have h2 : Refused (Model.Integrals.quadrature_rule lib rng (some a) (.int N) (.int NMC)) .attributeError := refused_bind (h N) _
  exact ⟨h2, refused_bind h2 _, refused_bind (h N) _⟩

/-- The response surfaces: the simulation is not run and the surface not changed. -/
theorem C106_surfaces (lib : Model.ActiveSurfaces.Lib) (rng : Rng S) (surf : Surface R) (a : AVMap S (R × E)) (hs : Fresh a.subspaces) (N NMC : ℤ)
    (fn : (m : ℕ) → Model.SimRunners.Sim (S × Files × R × E) m) (X : NpMat) (f : Arr) (v : Option NpVec) (r : R) (c : Bool) :
    Refused (av_design lib rng (some a) (.int N) (.int NMC)) .attributeError ∧
    Refused (train_with_interface lib rng surf a fn (.int N) (.int NMC)) .attributeError ∧
    Refused (train_with_data surf a (.mat X) f v) .typeError ∧
    Model.ActiveSurfaces.predict surf r a.subspaces (.mat X) c = .error .typeError := by
  have h : Refused (av_design lib rng (some a) (.int N) (.int NMC)) .attributeError := by
    unfold av_design; simp only [hs.W1]; exact refused_raise _
  have hf : forward a.subspaces (.mat X) = .error .typeError := by
    unfold forward; simp only [hs.W1, hs.W2]; rfl
  refine ⟨h, refused_bind h _, refused_bind (refused_lift hf) _, ?_⟩
  unfold Model.ActiveSurfaces.predict
  rw [hf]
  rfl

/-- The optimizers. -/
theorem C106_minimize (lib : Model.Optimizers.Lib) (rng : Rng S) (surf : Surface R) (r : R) (a : AVMap S E) (hs : Fresh a.subspaces)
    (hd : a.dom ≠ .other) (X f : NpMat) (hX : f.rows = X.rows ∧ f.cols = 1) :
    Model.Optimizers.train lib.rs a.subspaces (.mat X) (.mat f) = .error .attributeError ∧
    Refused (Model.Optimizers.minimize lib rng surf r a (.mat X) (.mat f)) .attributeError := by
  have hp : process_inputs_outputs (.mat X) (.mat f) = .ok ⟨X, f⟩ := by
    change (if f.rows ≠ X.rows then _ else if f.cols ≠ 1 then _ else _) = _
    rw [if_neg (not_not.2 hX.1), if_neg (not_not.2 hX.2)]
  constructor
  · unfold Model.Optimizers.train
    rw [hp]
    simp only [hs.W1]
    rfl
  · intro w
    refine (PyM.run_bind_ok (w' := w) (a := ⟨X, f⟩) (by rw [hp]; rfl)).trans ?_
    have h : ∀ z, Refused (Model.Optimizers.minimizeWith lib rng surf r a z X f) .attributeError := fun z => by
      refine refused_bind ?_ _
      unfold Model.Optimizers.av_minimize
      cases hdom : a.dom with
      | unbounded => simp only [hs.W1]; exact refused_raise _
      | bounded b => simp only [hs.W1]; exact refused_raise _
      | other => exact absurd hdom hd
    cases hdom : a.dom with
    | unbounded => exact h _ w
    | bounded b => exact h _ w
    | other => exact absurd hdom hd

/-- Response surfaces that were not trained. -/
theorem C106_untrained (N : ℕ) (X : NpMat) (hX : 1 ≤ X.cols) (c : Bool) :
    ({ N := N } : PolyApprox).predict (.mat X) c = .error .typeError ∧ ({ N := N } : RBF).predict (.mat X) c = .error .attributeError := by
  refine ⟨?_, rfl⟩
  obtain ⟨I, hI, -⟩ := C25_enumerates N X.cols hX
  have : ({ N := N } : PolyApprox).predictMat X.val c = .error .typeError := by
    unfold PolyApprox.predictMat polynomial_bases
    dsimp only
    rw [hI]
    rfl
  unfold PolyApprox.predict
  simp only [process_inputs, this]

/-- A new object, and an object with a map of each kind. -/
example : Fresh {} ∧ (⟨.unbounded, {}, fun _ _ => pure none⟩ : AVMap S E).dom ≠ .other :=
  ⟨⟨rfl, rfl, rfl⟩, by simp⟩

end Props
