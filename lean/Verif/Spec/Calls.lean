import Verif.Py

/-!
# Specification of a sequence of calls of a stateful function
-/

open Py

namespace Spec

variable {W α β : Type}

/-- Calling `f` on the arguments `xs` one after the other, starting in world `w`, returns `vs` and ends
in world `w'`. -/
inductive Calls (f : α → PyM W β) : List α → W → List β → W → Prop
  | nil (w : W) : Calls f [] w [] w
  | cons {x : α} {xs : List α} {w w₁ w₂ : W} {v : β} {vs : List β} :
      (f x).run w = (.ok v, w₁) → Calls f xs w₁ vs w₂ → Calls f (x :: xs) w (v :: vs) w₂

/-- Calling `f` on the arguments `xs` one after the other, starting in world `w`: the call with number `k`
is the first to raise; it raises `e` and leaves the world `w'`. -/
inductive CallsFail (f : α → PyM W β) : List α → W → ℕ → Err → W → Prop
  | here {x : α} {xs : List α} {w w₁ : W} {e : Err} :
      (f x).run w = (.error e, w₁) → CallsFail f (x :: xs) w 0 e w₁
  | later {x : α} {xs : List α} {w w₁ w₂ : W} {v : β} {k : ℕ} {e : Err} :
      (f x).run w = (.ok v, w₁) → CallsFail f xs w₁ k e w₂ → CallsFail f (x :: xs) w (k + 1) e w₂

/-- `f` instrumented with a log of the arguments it is called with. -/
def logged (f : α → PyM W β) : α → PyM (W × List α) β := fun x wl =>
  let r := f x wl.1
  (r.1, (r.2, wl.2 ++ [x]))

/-- Exactly one of success and failure happens. -/
theorem calls_or_fail (f : α → PyM W β) (xs : List α) (w : W) :
    (∃ vs w', Calls f xs w vs w') ∨ (∃ k e w', CallsFail f xs w k e w') := by
  induction xs generalizing w with
  | nil => exact .inl ⟨[], w, .nil w⟩
  | cons x xs ih =>
    rcases h : (f x).run w with ⟨r, w₁⟩
    cases r with
    | error e => exact .inr ⟨0, e, w₁, .here h⟩
    | ok v =>
      rcases ih w₁ with ⟨vs, w', h'⟩ | ⟨k, e, w', h'⟩
      · exact .inl ⟨_, _, .cons h h'⟩
      · exact .inr ⟨_, _, _, .later h h'⟩

theorem Calls.length {f : α → PyM W β} {xs : List α} {w : W} {vs : List β} {w' : W}
    (h : Calls f xs w vs w') : vs.length = xs.length := by
  induction h with
  | nil => rfl
  | cons _ _ ih => simp [ih]

theorem CallsFail.lt {f : α → PyM W β} {xs : List α} {w : W} {k : ℕ} {e : Err} {w' : W}
    (h : CallsFail f xs w k e w') : k < xs.length := by
  induction h with
  | here _ => simp
  | later _ _ ih => simpa using ih

theorem Calls.append {f : α → PyM W β} {xs ys : List α} {w w₁ w₂ : W} {vs us : List β}
    (h : Calls f xs w vs w₁) (h' : Calls f ys w₁ us w₂) : Calls f (xs ++ ys) w (vs ++ us) w₂ := by
  induction h with
  | nil => exact h'
  | cons hx _ ih => exact .cons hx (ih h')

/-- A logged run that succeeds has called `f` on all arguments, in order. -/
theorem Calls.log {f : α → PyM W β} {xs : List α} {w : W × List α} {vs : List β} {w' : W × List α}
    (h : Calls (logged f) xs w vs w') : w'.2 = w.2 ++ xs := by
  induction h with
  | nil => simp
  | @cons x xs w w₁ w₂ v vs hx _ ih =>
    have h1 : w₁.2 = w.2 ++ [x] := by
      have := congrArg (fun r => r.2.2) hx
      simpa [logged, PyM.run] using this.symm
    rw [ih, h1]; simp

/-- A logged run that fails at call `k` has called `f` on exactly the arguments `0..k`, in order. -/
theorem CallsFail.log {f : α → PyM W β} {xs : List α} {w : W × List α} {k : ℕ} {e : Err}
    {w' : W × List α} (h : CallsFail (logged f) xs w k e w') : w'.2 = w.2 ++ xs.take (k + 1) := by
  induction h with
  | @here x xs w w₁ e hx =>
    have := congrArg (fun r => r.2.2) hx
    simpa [logged, PyM.run] using this.symm
  | @later x xs w w₁ w₂ v k e hx _ ih =>
    have h1 : w₁.2 = w.2 ++ [x] := by
      have := congrArg (fun r => r.2.2) hx
      simpa [logged, PyM.run] using this.symm
    rw [ih, h1]; simp

/-- A pure function called in sequence. -/
theorem calls_pure (g : α → β) (xs : List α) (w : W) :
    Calls (fun x => (pure (g x) : PyM W β)) xs w (xs.map g) w := by
  induction xs with
  | nil => exact .nil w
  | cons x xs ih => exact .cons rfl ih

end Spec
