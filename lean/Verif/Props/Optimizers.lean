import Verif.Props.MinMapZ
import Verif.Props.OptimMultistart
import Verif.Props.ActiveSurfaces
import Verif.Props.IntegralRules

/-!
# Property C61: what `minimize` returns
-/

open Py Model.Optimizers Model.ResponseSurfaces Model.Subspaces Model.QPSolver Model.Multistart Spec Proofs.Run
open Model.ActiveSurfaces (Surface AVMap DomKind predict_av)
open Model.Domains (Arr3 polyA polyB Boundary forward Constraints)
open scoped Matrix

namespace Props

variable {S R E : Type} {n k NY : ℕ} {s : Subspaces} {V1 : Matrix (Fin (n + k)) (Fin n) ℝ} {V2 : Matrix (Fin (n + k)) (Fin k) ℝ}

/-- Contract of SciPy's optimisers: a successful run reports the value of the function at the point returned, which satisfies
the constraints or bounds given. -/
structure OptLibOK (lib : Model.Optimizers.Lib) : Prop where
  minimize : ∀ {d : ℕ} (method : String) (f : (Fin d → ℝ) → Except Err ℝ) jac cons x0 r, lib.minimize method f jac cons x0 = .ok r →
    r.success = true → f r.x = .ok r.f ∧ ∀ c, cons = some c → ∀ i, 0 ≤ c.func r.x i
  fminbound : ∀ (f : ℝ → Except Err ℝ) a b x v, lib.fminbound f a b = .ok (x, v, false) → f x = .ok v ∧ (a ≤ b → a ≤ x ∧ x ≤ b)

/-- The point `y` is admissible for the active variables. -/
def Admissible (dom : DomKind) (n : ℕ) (y : Fin n → ℝ) : Prop :=
  match dom with
  | .unbounded => True
  | .bounded b => if n = 1 then ∀ l u, (NpMat.of b.verts.Y).item 0 0 = .ok l → (NpMat.of b.verts.Y).item 1 0 = .ok u → l ≤ u →
        ∀ j, l ≤ y j ∧ y j ≤ u
      else ∀ (h : b.n = n) c, b.constraints = some c → ∀ i, 0 ≤ c.func (fun j => y (Fin.cast h j)) i
  | .other => False

theorem firstBest_mem {α : Type} {f : α → ℝ} {rs : List α} {r : α} (h : Spec.IsFirstBest f rs r) : r ∈ rs := by
  obtain ⟨j, hj, hr, -⟩ := h
  subst hr
  exact List.getElem_mem _

theorem draws_run {α β : Type} {l : List α} {g : α → Except Err β} {rs : List β} (h : l.map g = rs.map .ok) {r : β} (hr : r ∈ rs) :
    ∃ a, g a = .ok r := by
  have : Except.ok r ∈ l.map g := h ▸ List.mem_map_of_mem hr
  obtain ⟨a, -, ha⟩ := List.mem_map.mp this
  exact ⟨a, ha⟩

/-- C61: the point found for the active variables is admissible and the value reported is that of the function. -/
theorem C61_active (hw1 : s.W1 = some (NpMat.of V1)) {lib : Model.Optimizers.Lib} (hl : OptLibOK lib) {rng : Rng S} {f : AvFun} {g : Option AvGrad}
    {dom : DomKind} {w w' : S × E} {Y : NpMat} {v : ℝ} (hr : (av_minimize lib rng f dom s g).run w = (.ok (Y, v), w')) :
    ∃ y : Fin n → ℝ, Y = rowOf y ∧ f n y = .ok v ∧ Admissible dom n y ∧ w' = w := by
  unfold av_minimize at hr
  cases dom with
  | unbounded =>
    rw [hw1] at hr
    dsimp only at hr
    obtain ⟨⟨y, v'⟩, w1, h1, h2⟩ := bind_inv hr
    obtain ⟨h3, rfl⟩ := pure_inv h2
    cases h3
    obtain ⟨⟨rs, r, e1, e2, e3, rfl, rfl⟩, rfl⟩ := C17_unbounded h1
    obtain ⟨y0, hy0⟩ := draws_run e1 (firstBest_mem e3)
    exact ⟨r.x, rfl, (hl.minimize _ _ _ _ _ _ hy0 (e2 r (firstBest_mem e3))).1, trivial, rfl⟩
  | bounded b =>
    rw [hw1] at hr
    dsimp only at hr
    by_cases hn : n = 1
    · subst hn
      rw [if_pos (NpMat.of_cols V1)] at hr
      obtain ⟨hi, rfl⟩ := lift_inv hr
      clear hr
      have hr := hi
      unfold interval_minimize at hr
      cases e1 : (NpMat.of b.verts.Y).item 0 0 with
      | error e => rw [e1] at hr; cases hr
      | ok l =>
        cases e2 : (NpMat.of b.verts.Y).item 1 0 with
        | error e => rw [e1, e2] at hr; cases hr
        | ok u =>
          rw [e1, e2] at hr
          cases e3 : lib.fminbound (fun t => f 1 fun _ => t) l u with
          | error e => simp only [bind, Except.bind, e3] at hr; cases hr
          | ok p =>
            obtain ⟨x, v', bad⟩ := p
            simp only [bind, Except.bind, e3] at hr
            cases bad with
            | true => cases hr
            | false =>
              rw [if_neg (by simp)] at hr
              obtain ⟨rfl, rfl⟩ := Prod.mk.inj (Except.ok.inj hr)
              obtain ⟨h1, h2⟩ := hl.fminbound _ _ _ _ _ e3
              refine ⟨fun _ => x, rfl, h1, ?_, rfl⟩
              unfold Admissible
              simp only [if_true]
              intro l' u' hl' hu' hlu j
              rw [e1] at hl'
              rw [e2] at hu'
              cases hl'
              cases hu'
              exact h2 hlu
    · rw [if_neg (by exact hn)] at hr
      obtain ⟨⟨y, v'⟩, w1, h1, h2⟩ := bind_inv hr
      obtain ⟨h3, rfl⟩ := pure_inv h2
      cases h3
      obtain ⟨⟨rs, r, e1, e2, e3, rfl, rfl⟩, rfl⟩ := C17_zonotope h1
      obtain ⟨y0, hy0⟩ := draws_run e1 (firstBest_mem e3)
      unfold zonotopeRun at hy0
      cases hc : b.constraints with
      | none => simp only [hc] at hy0; cases hy0
      | some c =>
        simp only [hc] at hy0
        by_cases h : b.n = n
        · rw [dif_pos (show b.n = (NpMat.of V1).cols from h)] at hy0
          obtain ⟨h4, h5⟩ := hl.minimize _ _ _ _ _ _ hy0 (e2 r (firstBest_mem e3))
          refine ⟨fun j => r.x (Fin.cast h.symm j), ?_, ?_, ?_, rfl⟩
          · clear * -
            subst h
            rfl
          · clear * - h4
            subst h
            exact h4
          · unfold Admissible
            simp only [if_neg hn]
            intro h' c' hc' i
            rw [hc] at hc'
            cases hc'
            exact h5 c rfl i
        · rw [dif_neg (by exact h)] at hy0
          cases hy0
  | other => exact absurd (congrArg Prod.fst hr) (by simp [PyM.raise, PyM.run])

theorem avfun_ok {surf : Surface R} {r : R} {y : Fin n → ℝ} {v : ℝ} (h : avfun surf r n y = .ok v) :
    ∃ p, surf.predict r (.mat (rowOf y)) false = .ok p ∧ ∃ h : 0 < p.1.n, p.1.val ⟨0, h⟩ = v := by
  unfold avfun predict_av at h
  cases e : surf.predict r (.mat (rowOf y)) false with
  | error err => rw [e] at h; cases h
  | ok p =>
    rw [e] at h
    refine ⟨p, rfl, ?_⟩
    simp only [bind, Except.bind] at h
    unfold NpMat.item at h
    split_ifs at h with h1
    refine ⟨h1.1, ?_⟩
    rw [← Except.ok.inj h]
    exact (NpMat.get_of (colMat p.1.val) ⟨0, h1.1⟩ 0).symm

theorem shapeOK_unboundedMin (hw1 : s.W1 = some (NpMat.of V1)) (d : Option MinData) : ShapeOK (S := S) (E := E) (unboundedMinZ s d) n k := by
  intro NY Y N w w' Z hr
  unfold unboundedMinZ at hr
  by_cases hN : N ≠ 1
  · rw [if_pos hN] at hr
    cases hr
  · rw [if_neg hN, hw1] at hr
    change (unboundedMinRows d (NpMat.of Y) (n + k - n)).run w = _ at hr
    unfold unboundedMinRows at hr
    obtain ⟨Zl, w1, -, h2⟩ := bind_inv hr
    obtain ⟨h3, -⟩ := pure_inv h2
    cases h3
    exact ⟨rfl, Nat.add_sub_cancel_left n k, (not_not.mp hN).symm⟩

theorem shapeOK_boundedMin (hw1 : s.W1 = some (NpMat.of V1)) (lib : Model.Domains.Lib) (rng : Rng S) (d : Option MinData) :
    ShapeOK (E := E) (boundedMinZ lib rng s d) n k := by
  intro NY Y N w w' Z hr
  unfold boundedMinZ at hr
  by_cases hN : N ≠ 1
  · rw [if_pos hN] at hr
    cases hr
  · rw [if_neg hN, hw1] at hr
    cases hw2 : s.W2 with
    | none => rw [hw2] at hr; cases hr
    | some W2 =>
      rw [hw2] at hr
      change (boundedMinRows lib rng (NpMat.of V1) W2 d (NpMat.of Y) (n + k - n)).run w = _ at hr
      unfold boundedMinRows at hr
      obtain ⟨Zl, w1, -, h2⟩ := bind_inv hr
      obtain ⟨h3, -⟩ := pure_inv h2
      cases h3
      exact ⟨rfl, Nat.add_sub_cancel_left n k, (not_not.mp hN).symm⟩

/-- The maps of `optimizers.py` leave the world alone. -/
theorem unboundedMin_world {d : MinData} {Y : NpMat} {N : ℕ} {w w' : S × Files × E} {o : Option Arr3}
    (hr : (unboundedMinZ s (some d) Y N).run w = (.ok o, w')) : w' = w := by
  unfold unboundedMinZ at hr
  split_ifs at hr with hN
  · cases hr
  · cases hw1 : s.W1 with
    | none => rw [hw1] at hr; cases hr
    | some W1 =>
      rw [hw1] at hr
      dsimp only at hr
      unfold unboundedMinRows at hr
      obtain ⟨Zl, w1, h1, h2⟩ := bind_inv hr
      obtain ⟨-, rfl⟩ := pure_inv h2
      refine (mapFin_keep h1 fun i a w1 w2 h => ?_).1
      dsimp only at h
      split_ifs at h
      · exact (lift_inv h).2
      · cases h

theorem mapFin_forall {W α : Type} {k : ℕ} {f : Fin k → PyM W α} {w w' : W} {as : Fin k → α} {Q : Fin k → α → Prop}
    (h : (PyM.mapFin k f).run w = (.ok as, w')) (hf : ∀ i a w1 w2, (f i).run w1 = (.ok a, w2) → w2 = w1 ∧ Q i a) :
    w' = w ∧ ∀ i, Q i (as i) := by
  obtain ⟨h1, h2⟩ := mapFin_keep h fun i a w1 w2 h => (hf i a w1 w2 h).1
  exact ⟨h1, fun i => (hf i _ _ _ (h2 i)).2⟩

/-- The points of `BoundedMinVariableMap` are feasible, whatever was stored. -/
theorem boundedMin_feasible (hs : Split s V1 V2) {lib : Model.Domains.Lib} (hq : QPLibOK lib.qp) {rng : Rng S} {d : MinData}
    {Y : Matrix (Fin NY) (Fin n) ℝ} {N : ℕ} {w w' : S × Files × E} {Z : Fin NY → Fin k → Fin N → ℝ}
    (hr : (boundedMinZ lib rng s (some d) (NpMat.of Y) N).run w = (.ok (some ⟨NY, k, N, Z⟩), w')) :
    w' = w ∧ ∀ i t, (fun j => Z i j t) ∈ inactive V1 V2 (Y i) := by
  unfold boundedMinZ at hr
  by_cases hN : N ≠ 1
  · rw [if_pos hN] at hr
    cases hr
  · rw [if_neg hN, hs.w1, hs.w2] at hr
    change (boundedMinRows lib rng (NpMat.of V1) (NpMat.of V2) (some d) (NpMat.of Y) (n + k - n)).run w = _ at hr
    rw [Nat.add_sub_cancel_left] at hr
    unfold boundedMinRows at hr
    obtain ⟨Zl, w1, h1, h2⟩ := bind_inv hr
    obtain ⟨h3, rfl⟩ := pure_inv h2
    obtain ⟨rfl, h5⟩ := mapFin_forall (Q := fun i a => a ∈ inactive V1 V2 (Y i)) h1 fun i a w1 w2 h => by
      dsimp only at h
      split_ifs at h
      · obtain ⟨h4, h5⟩ := quadratic_ineq_feasible hq rng _ _ _ _ _ _ _ _ h
        have h4' : a ∈ ineqSet (polyA ((NpMat.of V2).toMat (n + k) k)) (polyB (((NpMat.of V1).toMat (n + k) n).mulVec (Y i))) := h4
        rw [toMat_of, toMat_of, ineqSet_poly] at h4'
        exact ⟨h5, h4'⟩
      · cases h
    refine ⟨rfl, fun i t => ?_⟩
    have hN : N = 1 := not_not.mp hN
    subst hN
    injection (Option.some.inj h3).symm with _ _ _ e
    have : Z = fun i j _ => Zl i j := e
    rw [this]
    exact h5 i

/-- C61: a pair returned by `minimize` is one point and one number.  The point maps forward to the minimiser found for the active
variables, which is admissible, and the response surface at the point is the number.  On a bounded domain the point is in the cube.
Nothing else changes. -/
theorem C61_minimize {a : AVMap S E} (hs : Split a.subspaces V1 V2) {lib : Model.Optimizers.Lib} (hl : OptLibOK lib) (hq : QPLibOK lib.dom.qp)
    {rng : Rng S} {surf : Surface R} {r : R} {X f : Arr} {w w' : S × Files × E} {xs : NpMat} {v : ℝ}
    (hr : (minimize lib rng surf r a X f).run w = (.ok (some (xs, v)), w')) :
    ∃ (x : Fin (n + k) → ℝ) (y : Fin n → ℝ) (z : Fin k → ℝ), xs = rowOf x ∧
      (av_minimize lib rng (avfun surf r) a.dom a.subspaces (some (avdfun surf r))).run w = (.ok (rowOf y, v), w) ∧
      Admissible a.dom n y ∧ forward a.subspaces (.mat xs) = .ok (rowOf y, rowOf z) ∧
      (∃ p, Model.ActiveSurfaces.predict surf r a.subspaces (.mat xs) false = .ok (p, none) ∧ ∃ h : 0 < p.n, p.val ⟨0, h⟩ = v) ∧
      (∀ b, a.dom = .bounded b → x ∈ cube (n + k)) ∧ w' = w := by
  have key : ∀ (reg : MinData → NpMat → ℕ → PyM (S × Files × E) (Option Arr3)) (X' f' : NpMat), (∀ d, ShapeOK (reg d) n k) →
      (∀ d (Y : Matrix (Fin 1) (Fin n) ℝ) Z w w', (reg d (NpMat.of Y) 1).run w = (.ok (some ⟨1, k, 1, Z⟩), w') →
        w' = w ∧ ∀ b, a.dom = .bounded b → (fun j => Z 0 j 0) ∈ inactive V1 V2 (Y 0)) →
      (minimizeWith lib rng surf r a reg X' f').run w = (.ok (some (xs, v)), w') →
      ∃ (x : Fin (n + k) → ℝ) (y : Fin n → ℝ) (z : Fin k → ℝ), xs = rowOf x ∧
      (av_minimize lib rng (avfun surf r) a.dom a.subspaces (some (avdfun surf r))).run w = (.ok (rowOf y, v), w) ∧
      Admissible a.dom n y ∧ forward a.subspaces (.mat xs) = .ok (rowOf y, rowOf z) ∧
      (∃ p, Model.ActiveSurfaces.predict surf r a.subspaces (.mat xs) false = .ok (p, none) ∧ ∃ h : 0 < p.n, p.val ⟨0, h⟩ = v) ∧
      (∀ b, a.dom = .bounded b → x ∈ cube (n + k)) ∧ w' = w := by
    intro reg X' f' hshape hworld h
    unfold minimizeWith at h
    obtain ⟨⟨Y, v'⟩, w1, h1, g1⟩ := bind_inv h
    obtain ⟨y, rfl, hy, hadm, rfl⟩ := C61_active hs.w1 hl h1
    obtain ⟨d, w2, h2, g2⟩ := bind_inv g1
    obtain ⟨-, rfl⟩ := lift_inv h2
    obtain ⟨o, w3, h3, g3⟩ := bind_inv g2
    cases o with
    | none => obtain ⟨h4, -⟩ := pure_inv g3; cases h4
    | some p =>
      obtain ⟨h4, rfl⟩ := pure_inv g3
      cases h4
      obtain ⟨Z, Xm, ind, h5, rfl, h6⟩ := C44_inverse hs (hshape d) (Matrix.of fun (_ : Fin 1) j => y j) 1 _ _ _ h3
      obtain ⟨rfl, h7⟩ := hworld d _ Z _ _ h5
      have hx : NpMat.of Xm = rowOf (Xm (0 : Fin 1)) := by
        change NpMat.of Xm = NpMat.of (Matrix.of fun (_ : Fin 1) j => Xm (0 : Fin 1) j)
        congr 1
        funext i
        rw [Subsingleton.elim (α := Fin 1) i 0]
        rfl
      obtain ⟨Y', Z', h8, h9⟩ := C44_forward hs h6
      obtain ⟨h10, -, -⟩ := h9 0 0 (0 : Fin 1) rfl
      have hY' : NpMat.of Y' = rowOf y := by
        change NpMat.of Y' = NpMat.of (Matrix.of fun (_ : Fin 1) j => y j)
        congr 1
        funext i j
        rw [Subsingleton.elim (α := Fin 1) i 0]
        exact h10 j
      have hZ' : NpMat.of Z' = rowOf (Z' (0 : Fin 1)) := by
        change NpMat.of Z' = NpMat.of (Matrix.of fun (_ : Fin 1) j => Z' (0 : Fin 1) j)
        congr 1
        funext i
        rw [Subsingleton.elim (α := Fin 1) i 0]
        rfl
      rw [hY', hZ'] at h8
      refine ⟨Xm (0 : Fin 1), y, Z' (0 : Fin 1), hx, h1, hadm, h8, ?_, fun b hb => ?_, rfl⟩
      · obtain ⟨p, hp, hv⟩ := avfun_ok hy
        refine ⟨p.1, ?_, hv⟩
        unfold Model.ActiveSurfaces.predict
        dsimp only
        rw [h8]
        simp only [bind, Except.bind, predict_av, hp]
        rfl
      · have h11 := (mem_cube_iff V1 V2 y _).mpr (h7 b hb)
        have : Xm (0 : Fin 1) = fun i => ∑ j, V1 i j * y j + ∑ j, V2 i j * Z 0 j 0 := funext fun i => h6.point 0 0 (0 : Fin 1) rfl i
        rw [this]
        exact h11
  unfold minimize at hr
  obtain ⟨d, w1, h1, h⟩ := bind_inv hr
  obtain ⟨-, rfl⟩ := lift_inv h1
  cases hd : a.dom with
  | unbounded =>
    rw [hd] at h
    rw [← hd]
    exact key _ _ _ (fun d => shapeOK_unboundedMin hs.w1 (some d))
      (fun d Y Z w w' hw => ⟨unboundedMin_world hw, fun b hb => by rw [hd] at hb; cases hb⟩) h
  | bounded b =>
    rw [hd] at h
    rw [← hd]
    refine key _ _ _ (fun d => shapeOK_boundedMin hs.w1 lib.dom rng (some d)) (fun d Y Z w w' hw => ?_) h
    obtain ⟨e1, e2⟩ := boundedMin_feasible hs hq hw
    exact ⟨e1, fun _ _ => e2 0 0⟩
  | other =>
    rw [hd] at h
    cases h

/-- C61: other domains and unusable data are rejected. -/
theorem C61_rejects {a : AVMap S E} {lib : Model.Optimizers.Lib} {rng : Rng S} {surf : Surface R} {r : R} {X f : Arr} {w : S × Files × E} :
    (∀ e, Model.Misc.process_inputs_outputs X f = .error e → (minimize lib rng surf r a X f).run w = (.error e, w)) ∧
    (∀ d, Model.Misc.process_inputs_outputs X f = .ok d → a.dom = .other → (minimize lib rng surf r a X f).run w = (.error .exception, w)) := by
  refine ⟨fun e h => ?_, fun d h hd => ?_⟩ <;> unfold minimize <;> rw [h]
  · rfl
  · rw [PyM.run_bind_ok (PyM.run_lift _ _), hd]
    rfl

/-- C61: the pair is returned whenever the three stages succeed. -/
theorem C61_returns {a : AVMap S E} (hs : Split a.subspaces V1 V2) {lib : Model.Optimizers.Lib} {rng : Rng S} {surf : Surface R} {r : R} {X f : Arr}
    {w : S × Files × E} {d : Model.Misc.InOut} {t : MinData} {y : Fin n → ℝ} {z : Fin k → ℝ} {v : ℝ} (h1 : Model.Misc.process_inputs_outputs X f = .ok d)
    (h2 : (av_minimize lib rng (avfun surf r) a.dom a.subspaces (some (avdfun surf r))).run w = (.ok (rowOf y, v), w))
    (h3 : Model.Optimizers.train lib.rs a.subspaces (.mat d.X) (.mat d.f) = .ok t)
    (h4 : (∃ b, a.dom = .bounded b ∧ (boundedMinZ lib.dom rng a.subspaces (some t) (rowOf y) 1).run w = (.ok (some ⟨1, k, 1, fun _ j _ => z j⟩), w)) ∨
      (a.dom = .unbounded ∧ (unboundedMinZ a.subspaces (some t) (rowOf y) 1).run w = (.ok (some ⟨1, k, 1, fun _ j _ => z j⟩), w))) :
    (minimize lib rng surf r a X f).run w = (.ok (some (rowOf (V1 *ᵥ y + V2 *ᵥ z), v)), w) := by
  obtain ⟨Xm, ind, e1, e2⟩ := rotate_x_ok V1 V2 (Matrix.of fun (_ : Fin 1) j => y j) (fun (_ : Fin 1) j (_ : Fin 1) => z j)
  have hx : NpMat.of Xm = rowOf (V1 *ᵥ y + V2 *ᵥ z) := by
    change NpMat.of Xm = NpMat.of (Matrix.of fun (_ : Fin 1) j => (V1 *ᵥ y + V2 *ᵥ z) j)
    congr 1
    funext i j
    rw [Subsingleton.elim (α := Fin 1) i 0]
    exact e2.point 0 0 (0 : Fin 1) rfl j
  rw [hx] at e1
  have key : ∀ reg : MinData → NpMat → ℕ → PyM (S × Files × E) (Option Arr3),
      (reg t (rowOf y) 1).run w = (.ok (some ⟨1, k, 1, fun _ j _ => z j⟩), w) →
      (minimizeWith lib rng surf r a reg d.X d.f).run w = (.ok (some (rowOf (V1 *ᵥ y + V2 *ᵥ z), v)), w) := fun reg hreg => by
    have hinv : (Model.Domains.inverse (reg t) a.subspaces (.mat (rowOf y)) (.int 1)).run w
        = (.ok (some (rowOf (V1 *ᵥ y + V2 *ᵥ z), NpMat.of ind)), w) := by
      unfold Model.Domains.inverse
      rw [show Model.Misc.process_inputs (.mat (rowOf y)) = .ok (rowOf y) from rfl, PyM.run_bind_ok (PyM.run_lift _ _)]
      dsimp only
      rw [if_neg (by norm_num), Int.toNat_one, PyM.run_bind_ok hreg]
      simp only [hs.eig]
      rw [show Model.Domains.rotate_x (rowOf y) ⟨1, k, 1, fun _ j _ => z j⟩ (NpMat.of (Np.hstack V1 V2)) = _ from e1,
        PyM.run_bind_ok (PyM.run_lift _ _)]
      rfl
    unfold minimizeWith
    rw [PyM.run_bind_ok h2, h3, PyM.run_bind_ok (PyM.run_lift _ _), PyM.run_bind_ok hinv]
    rfl
  unfold minimize
  rw [h1, PyM.run_bind_ok (PyM.run_lift _ _)]
  rcases h4 with ⟨b, hb, h4⟩ | ⟨hb, h4⟩
  · rw [hb]
    exact key (fun d => boundedMinZ lib.dom rng a.subspaces (some d)) h4
  · rw [hb]
    exact key (fun d => unboundedMinZ a.subspaces (some d)) h4

/-! ## When the optimiser finds the minimum -/

/-- On one active variable every point of the range of the active variable is admissible. -/
theorem admissible_interval (V1 : Matrix (Fin (1 + k)) (Fin 1) ℝ) {m : ℕ} (X : Matrix (Fin 2) (Fin m) ℝ) (y : Fin 1 → ℝ) (hy : y ∈ zonotope V1) :
    Admissible (.bounded ⟨m, 1, ⟨2, (Model.Domains.interval_endpoints V1).1, X⟩, none, none⟩) 1 y := by
  unfold Admissible
  simp only [if_true]
  intro l u hl hu _ j
  have e0 : (NpMat.of (Model.Domains.interval_endpoints V1).1).item 0 0 = .ok ((Model.Domains.interval_endpoints V1).1 0 0) := by
    simp [NpMat.item, NpMat.get, NpMat.of]
  have e1 : (NpMat.of (Model.Domains.interval_endpoints V1).1).item 1 0 = .ok ((Model.Domains.interval_endpoints V1).1 1 0) := by
    simp [NpMat.item, NpMat.get, NpMat.of]
  rw [e0] at hl
  rw [e1] at hu
  cases hl
  cases hu
  have : (fun _ => y 0) ∈ zonotope V1 := by
    rwa [show (fun _ => y 0) = y from funext fun i => by rw [Subsingleton.elim i 0]]
  rw [Subsingleton.elim j 0]
  exact (C49_range V1 (y 0)).mpr this

/-- On more active variables the same, when the hull of the vertices is the zonotope (C52). -/
theorem admissible_zonotope (hn : n ≠ 1) {m : ℕ} (v : Model.Domains.Verts m n) (H : Option (Model.Domains.Hull n)) (c : Constraints n)
    (hc : ∀ x, (∀ i, 0 ≤ c.func x i) ↔ x ∈ convexHull ℝ (Set.range fun a => v.Y a)) (hfull : convexHull ℝ (Set.range fun a => v.Y a) = zonotope V1)
    (y : Fin n → ℝ) (hy : y ∈ zonotope V1) : Admissible (.bounded ⟨m, n, v, H, some c⟩) n y := by
  unfold Admissible
  simp only [if_neg hn]
  intro _ c' hc'
  cases hc'
  exact (hc y).mpr (hfull ▸ hy)

/-- C61: if no admissible point has a smaller value than the one reported, then the value is the least value of the response
surface over the cube, attained in the cube at the point returned. -/
theorem C61_optimal {a : AVMap S E} (hs : Split a.subspaces V1 V2) {lib : Model.Optimizers.Lib} (hl : OptLibOK lib) (hq : QPLibOK lib.dom.qp)
    {rng : Rng S} {surf : Surface R} {r : R} {X f : Arr} {w w' : S × Files × E} {xs : NpMat} {v : ℝ} {b : Boundary} (hb : a.dom = .bounded b)
    (hr : (minimize lib rng surf r a X f).run w = (.ok (some (xs, v)), w')) (hadm : ∀ y ∈ zonotope V1, Admissible a.dom n y)
    (hmin : ∀ y v', Admissible a.dom n y → avfun surf r n y = .ok v' → v ≤ v') (g : (Fin n → ℝ) → ℝ) (hg : Evaluates surf r g) :
    ∃ x, xs = rowOf x ∧ IsMinimiser (cube (n + k)) (fun x => g fun j => ∑ i, x i * V1 i j) x ∧ (g fun j => ∑ i, x i * V1 i j) = v := by
  have hval : ∀ y, avfun surf r n y = .ok (g y) := fun y => by
    obtain ⟨df, e1, -, -⟩ := hg 1 (Matrix.of fun (_ : Fin 1) j => y j)
    unfold avfun predict_av rowOf
    rw [e1]
    rfl
  obtain ⟨x, y, z, h1, h2, h3, h4, -, h6, -⟩ := C61_minimize hs hl hq hr
  obtain ⟨y', e1, e2, -⟩ := C61_active hs.w1 hl h2
  have hy : (fun j => ∑ i, x i * V1 i j) = y := by
    subst h1
    have e := (forward_of hs (Matrix.of fun (_ : Fin 1) j => x j)).symm.trans h4
    have e' := (Prod.mk.inj (Except.ok.inj e)).1
    funext j
    have := congrArg (fun A => A.get 0 j) e'
    have l1 : (NpMat.of ((Matrix.of fun (_ : Fin 1) j => x j) * V1)).get ((0 : Fin 1) : ℕ) j = _ := NpMat.get_of _ 0 j
    have l2 : (rowOf y).get ((0 : Fin 1) : ℕ) j = y j := NpMat.get_of _ 0 j
    calc _ = ((Matrix.of fun (_ : Fin 1) j => x j) * V1) 0 j := (Matrix.mul_apply ..).symm
      _ = _ := l1.symm
      _ = _ := this
      _ = _ := l2
  have hv : g y = v := by
    have : y' = y := by
      funext j
      have := congrArg (fun A => A.get ((0 : Fin 1) : ℕ) j) e1
      simp only [rowOf] at this
      rw [NpMat.get_of, NpMat.get_of] at this
      exact this.symm
    subst this
    rw [hval] at e2
    exact Except.ok.inj e2
  refine ⟨x, h1, ⟨h6 b hb, fun x' hx' => ?_⟩, by rw [hy, hv]⟩
  simp only [hy, hv]
  refine hmin _ _ (hadm _ ⟨x', hx', fun j => ?_⟩) (hval _)
  exact Finset.sum_congr rfl fun i _ => mul_comm _ _

/-! ## An example -/

/-- An optimiser that evaluates the function at the middle of the interval, and one that tests its starting point. -/
noncomputable def lazyLib (dom : Model.Domains.Lib) (rs : Model.ResponseSurfaces.Lib) : Model.Optimizers.Lib where
  dom := dom
  rs := rs
  fminbound := fun f a b => (f ((a + b) / 2)).map fun v => ((a + b) / 2, v, false)
  minimize := fun _ _ f _ cons x0 => open Classical in
    (f x0).map fun v => ⟨if ∀ c, cons = some c → ∀ i, 0 ≤ c.func x0 i then true else false, x0, v⟩

theorem lazyLib_ok (dom : Model.Domains.Lib) (rs : Model.ResponseSurfaces.Lib) : OptLibOK (lazyLib dom rs) := by
  refine ⟨fun method f jac cons x0 r h hs => ?_, fun f a b x v h => ?_⟩
  · simp only [lazyLib] at h
    cases e : f x0 with
    | error err => rw [e] at h; cases h
    | ok v =>
      rw [e] at h
      cases h
      refine ⟨e, ?_⟩
      by_contra hc
      simp only [if_neg hc] at hs
      cases hs
  · simp only [lazyLib] at h
    cases e : f ((a + b) / 2) with
    | error err => rw [e] at h; cases h
    | ok v' =>
      rw [e] at h
      cases h
      exact ⟨e, fun hab => ⟨by linarith, by linarith⟩⟩

/-- The surface `y^2`. -/
noncomputable def squareSurface : Surface Unit := ⟨false, fun _ _ _ _ => pure (), fun _ Y b => match Y with
  | .mat A => .ok (NpVec.of fun i : Fin A.rows => A.get i 0 ^ 2,
      if b then some (NpMat.of (Matrix.of fun (i : Fin A.rows) (_ : Fin 1) => 2 * A.get i 0)) else none)
  | _ => .error .valueError⟩

theorem squareSurface_evaluates : Evaluates squareSurface () fun y : Fin 1 → ℝ => y 0 ^ 2 := by
  intro M Y
  have e : ∀ i : Fin M, (NpMat.of Y).get i ((0 : Fin 1) : ℕ) = Y i 0 := fun i => NpMat.get_of Y i 0
  refine ⟨Matrix.of fun i _ => 2 * Y i 0, ?_, ?_, fun i => ?_⟩
  · refine congrArg (fun v => Except.ok (NpVec.of v, none)) (funext fun i => ?_)
    exact congrArg (· ^ 2) (e i)
  · refine congrArg₂ (fun v D => Except.ok (NpVec.of v, some (NpMat.of D))) (funext fun i => congrArg (· ^ 2) (e i)) ?_
    exact funext fun i => funext fun _ => congrArg (2 * ·) (e i)
  · have h := (hasFDerivAt_apply (𝕜 := ℝ) (0 : Fin 1) (Y i)).pow 2
    rw [Fin.sum_univ_one]
    refine h.congr_fderiv ?_
    ext
    simp

/-- C61: the hypotheses of the theorems above are met, those of `C61_optimal` included: the surface `y^2` in the first of two
variables is minimised over the square. -/
example (rng : Rng S) (w : S × Files × E) (reg : NpMat → ℕ → PyM (S × Files × E) (Option Arr3)) (X : Matrix (Fin 2) (Fin (1 + 1)) ℝ) :
    ∃ (lib : Model.Optimizers.Lib) (a : AVMap S E) (b : Boundary) (xs : NpMat) (v : ℝ), OptLibOK lib ∧ QPLibOK lib.dom.qp ∧
      a.dom = .bounded b ∧ Split a.subspaces toyV1 toyV2 ∧ Evaluates squareSurface () (fun y : Fin 1 → ℝ => y 0 ^ 2) ∧
      (minimize lib rng squareSurface () a (.mat (NpMat.of (sixPoints : Matrix (Fin 6) (Fin (1 + 1)) ℝ)))
        (.mat (NpMat.of (colMat fun i => sixPoints i 1 + sixPoints i 1 ^ 2)))).run w = (.ok (some (xs, v)), w) ∧
      (∀ y ∈ zonotope toyV1, Admissible a.dom 1 y) ∧
      ∀ y v', Admissible a.dom 1 y → avfun squareSurface () 1 y = .ok v' → v ≤ v' := by
  obtain ⟨rs, hl⟩ := lstsqOK_exists
  obtain ⟨qp, hq, hc⟩ := qpComplete_exists
  let dlib : Model.Domains.Lib := ⟨qp, id, fun _ => .error .valueError⟩
  let b : Boundary := ⟨1 + 1, 1, ⟨2, (Model.Domains.interval_endpoints toyV1).1, X⟩, none, none⟩
  let a : AVMap S E := ⟨.bounded b, toySubspaces, reg⟩
  obtain ⟨bz, zAy, zAz, ht, hz, -⟩ := C63_fails hl (dlib := dlib) hq hc rng w
  have hval : ∀ y : Fin 1 → ℝ, avfun squareSurface () 1 y = .ok (y 0 ^ 2) := fun y => by
    obtain ⟨df, e1, -, -⟩ := squareSurface_evaluates 1 (Matrix.of fun (_ : Fin 1) j => y j)
    unfold avfun predict_av rowOf
    rw [e1]
    rfl
  have e0 : (NpMat.of b.verts.Y).item 0 0 = .ok (-1) := by
    have : (NpMat.of b.verts.Y).item 0 0 = .ok (b.verts.Y 0 0) := by simp [NpMat.item, NpMat.get, NpMat.of, b]
    rw [this]
    exact congrArg _ toy_endpoints.1
  have e1 : (NpMat.of b.verts.Y).item 1 0 = .ok 1 := by
    have : (NpMat.of b.verts.Y).item 1 0 = .ok (b.verts.Y 1 0) := by simp [NpMat.item, NpMat.get, NpMat.of, b]
    rw [this]
    exact congrArg _ toy_endpoints.2
  have hav : (av_minimize (E := Files × E) (lazyLib dlib rs) rng (avfun squareSurface ()) a.dom a.subspaces (some (avdfun squareSurface ()))).run w
      = (.ok (rowOf fun _ : Fin 1 => 0, 0), w) := by
    change (PyM.lift (interval_minimize (lazyLib dlib rs) (avfun squareSurface ()) b)).run w = _
    unfold interval_minimize
    rw [e0, e1]
    simp only [bind, Except.bind, lazyLib, hval, Except.map]
    norm_num
    rfl
  refine ⟨lazyLib dlib rs, a, b, _, 0, lazyLib_ok _ _, hq, rfl, toySplit, squareSurface_evaluates,
    C61_returns (a := a) toySplit (y := fun _ => 0) (z := fun _ => -1 / 4.02) (d := ⟨NpMat.of sixPoints, NpMat.of (colMat fun i => sixPoints i 1 + sixPoints i 1 ^ 2)⟩)
      ?_ hav ht.run (.inl ⟨b, rfl, hz⟩), fun y hy => admissible_interval toyV1 X y hy, fun y v' _ hv => ?_⟩
  · rfl
  · rw [hval] at hv
    cases hv
    exact sq_nonneg _

end Props
