import Verif.Model.Domains

/-!
# Runs that ended without an exception
-/

open Py

namespace Proofs.Run

variable {W S E α β : Type}

/-- A successful sequence is a success of both parts. -/
theorem bind_inv {x : PyM W α} {f : α → PyM W β} {w w' : W} {b : β} (h : (x >>= f).run w = (.ok b, w')) :
    ∃ a w1, x.run w = (.ok a, w1) ∧ (f a).run w1 = (.ok b, w') := by
  rw [PyM.run_bind] at h
  split at h
  · rename_i a w1 heq
    exact ⟨a, w1, heq, h⟩
  · exact absurd (Prod.mk.inj h).1 (by simp)

theorem pure_inv {a b : α} {w w' : W} (h : (pure a : PyM W α).run w = (.ok b, w')) : a = b ∧ w = w' :=
  ⟨Except.ok.inj (Prod.mk.inj h).1, (Prod.mk.inj h).2⟩

theorem lift_inv {x : Except Err α} {b : α} {w w' : W} (h : (PyM.lift x).run w = (.ok b, w')) : x = .ok b ∧ w' = w :=
  ⟨(Prod.mk.inj h).1, (Prod.mk.inj h).2.symm⟩

theorem draw_inv {f : S → α × S} {b : α} {w w' : S × E} (h : (Rng.draw f).run w = (.ok b, w')) :
    b = (f w.1).1 ∧ w' = ((f w.1).2, w.2) := ⟨(Except.ok.inj (Prod.mk.inj h).1).symm, (Prod.mk.inj h).2.symm⟩

/-- Every element of a successful loop comes from a successful call. -/
theorem mapFin_inv {k : ℕ} {f : Fin k → PyM W α} {w w' : W} {as : Fin k → α} (h : (PyM.mapFin k f).run w = (.ok as, w')) :
    ∀ i, ∃ w1 w2, (f i).run w1 = (.ok (as i), w2) := by
  induction k generalizing w with
  | zero => exact fun i => i.elim0
  | succ k ih =>
    obtain ⟨a, w1, h1, h2⟩ := bind_inv (h : ((f 0 >>= fun a => PyM.mapFin k (fun i => f i.succ) >>= fun as => pure (Fin.cons (α := fun _ => α) a as)) : PyM W (Fin (k + 1) → α)).run w = _)
    obtain ⟨as', w2, h3, h4⟩ := bind_inv h2
    obtain ⟨rfl, rfl⟩ := pure_inv h4
    refine Fin.cases ⟨w, w1, h1⟩ fun i => ?_
    exact ih h3 i

/-- A loop of calls that keep the world keeps it. -/
theorem mapFin_keep {k : ℕ} {f : Fin k → PyM W α} {w w' : W} {as : Fin k → α} (h : (PyM.mapFin k f).run w = (.ok as, w'))
    (hf : ∀ i a w1 w2, (f i).run w1 = (.ok a, w2) → w2 = w1) : w' = w ∧ ∀ i, (f i).run w = (.ok (as i), w) := by
  induction k generalizing w with
  | zero =>
    obtain ⟨-, rfl⟩ := pure_inv (h : (pure Fin.elim0 : PyM W (Fin 0 → α)).run w = _)
    exact ⟨rfl, fun i => i.elim0⟩
  | succ k ih =>
    obtain ⟨a, w1, h1, h2⟩ := bind_inv (h : ((f 0 >>= fun a => PyM.mapFin k (fun i => f i.succ) >>= fun as => pure (Fin.cons (α := fun _ => α) a as)) : PyM W (Fin (k + 1) → α)).run w = _)
    obtain ⟨as', w2, h3, h4⟩ := bind_inv h2
    obtain ⟨rfl, rfl⟩ := pure_inv h4
    obtain rfl := hf _ _ _ _ h1
    obtain ⟨rfl, h5⟩ := ih h3 fun i => hf i.succ
    exact ⟨rfl, Fin.cases h1 h5⟩

/-- A loop succeeds when its calls do. -/
theorem mapFin_run {k : ℕ} {f : Fin k → PyM W α} {w : W} {as : Fin k → α} (h : ∀ i, (f i).run w = (.ok (as i), w)) :
    (PyM.mapFin k f).run w = (.ok as, w) := by
  induction k with
  | zero => exact congrArg (fun a => (Except.ok a, w)) (funext fun i => i.elim0)
  | succ k ih =>
    have h1 := ih (f := fun i => f i.succ) (as := fun i => as i.succ) fun i => h i.succ
    change ((f 0 >>= fun a => PyM.mapFin k (fun i => f i.succ) >>= fun as => pure (Fin.cons (α := fun _ => α) a as)) : PyM W (Fin (k + 1) → α)).run w = _
    rw [PyM.run_bind_ok (h 0), PyM.run_bind_ok h1]
    exact congrArg (fun a => (Except.ok a, w)) (Fin.cons_self_tail as)

end Proofs.Run
