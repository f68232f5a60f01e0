import Verif.Props.SliceLaw
import Verif.Props.TrainingLaw
import Mathlib.Topology.Algebra.MvPolynomial

/-!
# Property C145: the law of polynomial surfaces trained with the interface on bounded domains
-/

open Py Model.Misc Model.Subspaces Model.QPSolver Model.Domains Model.ResponseSurfaces Model.ActiveSurfaces Model.Quadrature
  Spec Proofs.Run Proofs.Groups Proofs.Rotation Proofs.Accept MeasureTheory ProbabilityTheory
open MvPolynomial (eval)
open scoped ENNReal

namespace Props

variable {S E Ω : Type} {m n k M G T N : ℕ} [MeasurableSpace Ω]
variable {V1 : Matrix (Fin (n + k)) (Fin n) ℝ} {V2 : Matrix (Fin (n + k)) (Fin k) ℝ}

/-- The training of a polynomial surface in terms of the inactive variables found. -/
theorem training_run_bounded {a : AVMap S (PolyApprox × E)} (h : Split a.subspaces V1 V2) (v : Verts (n + k) n) {ch : Option (Hull n)} {cs : Option (Constraints n)}
    (hdom : a.dom = .bounded ⟨n + k, n, v, ch, cs⟩) {dl : Model.Domains.Lib} {rng : Rng S} (hz : a.regularize_z = fun Y N => boundedZ dl rng a.subspaces Y N)
    (hn : 1 ≤ n) {lib : Model.ActiveSurfaces.Lib} {rlib : Model.ResponseSurfaces.Lib} (hl : LstsqOK rlib) (g : (m : ℕ) → (Fin m → ℝ) → ℝ) (Nd : ℤ)
    {s s1 : S} {F : Files × PolyApprox × E} {Y : Matrix (Fin G) (Fin n) ℝ} (hG : 0 < G) (hT : 0 < T)
    (hY : (designPoints lib rng (NpMat.of V1) a.dom Nd).run (s, F) = (.ok (NpMat.of Y), (s1, F))) (hN : 1 ≤ F.2.1.N)
    (hu : Unisolvent F.2.1.N (Np.vstack Y v.Y)) {Z : Fin G → Fin T → Fin k → ℝ}
    (hZ : ∀ i : Fin G, (rejection_sampling_z dl rng T (Y i) V1 V2).run (stateAt rng T k s1 i, F)
      = (.ok (some (Matrix.of (Z i))), (stateAt rng T k s1 (i + 1), F))) :
    ∃ w' Q, (train_with_interface lib rng (polySurface rlib) a (fun m x => pure (g m x)) (.int Nd) (.int T)).run (s, F) = (.ok (some ()), w') ∧
      BestFit F.2.1.N (Np.vstack Y v.Y)
        (Fin.append (fun i => meanOn Finset.univ fun t : Fin T => g (n + k) (V1.mulVec (Y i) + V2.mulVec (Z i t))) fun i => g (n + k) (v.X i)) Q ∧
      Recovers (polySurface rlib) w'.2.2.1 a.subspaces V1 Q := by
  have hreg : ShapeOK a.regularize_z n k := by
    rw [hz]
    exact shapeOK_bounded h dl rng
  obtain ⟨X, ind, h1, h2⟩ := C56_design_returns h lib rng Nd T (s, F) (s1, F) _ Y _ hY (by
    rw [hz]
    exact boundedZ_run h hG hZ)
  have hM := card_le_of_unisolvent hn _ hu
  obtain ⟨w', hr⟩ := C56_bounded_returns v ch cs hdom lib rng (polySurface rlib) (fun m x => pure (g m x)) Nd T hT hG (s, F) _ _ Y X ind h1 h2.index _
    (Spec.calls_pure _ _ _) fun f v' e => poly_train_ok hl hn F.2.1 hN _ hM f v' e
  obtain ⟨T', NY', Y', X', ind', f, gv, w1, w2, hT', hT0, -, hNY, h3, -, h4, h5, -⟩ := C56_bounded h hreg v ch cs hdom lib rng (polySurface rlib) _ Nd T (s, F) w' hr
  obtain rfl : T' = T := by exact_mod_cast hT'
  rw [h1] at h3
  obtain ⟨h6, rfl⟩ := Prod.mk.inj h3
  have h7 := Option.some.inj (Except.ok.inj h6)
  injection h7 with e1 e2 e3
  obtain rfl : G = NY' := congrArg NpMat.rows e1
  obtain rfl : Y = Y' := eq_of_heq (NpMat.mk.inj e1).2.2
  obtain rfl : X = X' := eq_of_heq (NpMat.mk.inj e2).2.2
  have hval := calls_values (F := g (n + k)) (fun x st => ⟨st, rfl⟩) h4
  unfold Np.rows at hval
  rw [List.map_append, List.map_map, List.map_map, ← List.ofFn_eq_map, ← List.ofFn_eq_map] at hval
  obtain ⟨hv1, hv2⟩ := List.append_inj hval (by simp)
  have hf : ∀ r, f r = g (n + k) (X r) := fun r => congrFun (List.ofFn_injective hv1) r
  have hgv : ∀ r, gv r = g (n + k) (v.X r) := fun r => congrFun (List.ofFn_injective hv2) r
  have hw2 : w2.2.2.1 = F.2.1 := by
    have : ∀ {xs : List (Fin (n + k) → ℝ)} {vs : List ℝ} {u u' : S × Files × PolyApprox × E},
        Spec.Calls (fun x => (pure (g (n + k) x) : PyM _ ℝ)) xs u vs u' → u' = u := by
      intro xs vs u u' hc
      induction hc with
      | nil => rfl
      | cons a _ ih => rw [ih]; exact (Prod.mk.inj a).2.symm
    rw [this h4]
  rw [hw2] at h5
  have hpt : ∀ (i : Fin G) (t : Fin T'), X (finProdFinEquiv (i, t)) = V1.mulVec (Y i) + V2.mulVec (Z i t) := by
    intro i t
    funext l
    rw [h2.point i t (finProdFinEquiv (i, t)) (by simp [finProdFinEquiv]; ring) l]
    rfl
  obtain rfl : gv = fun r => g (n + k) (v.X r) := funext hgv
  simp only [hf, hpt] at h5
  obtain ⟨p, Q, e4, e5, -, -, -, e6, -, -, e7, -⟩ := fit_ok rlib hl F.2.1 hn hN (Np.vstack Y v.Y)
    (Fin.append (fun i => meanOn Finset.univ fun t : Fin T' => g (n + k) (V1.mulVec (Y i) + V2.mulVec (Z i t))) fun i => g (n + k) (v.X i)) none hM
  have h5' : (fit rlib (Np.vstack Y v.Y)
    (Fin.append (fun i => meanOn Finset.univ fun t : Fin T' => g (n + k) (V1.mulVec (Y i) + V2.mulVec (Z i t))) fun i => g (n + k) (v.X i)) none).run F.2.1
      = (.ok (), w'.2.2.1) := h5
  rw [e4] at h5'
  obtain rfl := (Prod.mk.inj h5').2
  exact ⟨w', Q, hr, ⟨e5, fun q hq => by simpa using e7 q hq⟩, recovers_of_predict h.w1 h.w2 e6⟩

section law

variable {μ : Measure Ω} {rng : Rng S} {s s1 : Ω → S} {F : Files × PolyApprox × E} {a : AVMap S (PolyApprox × E)} {dl : Model.Domains.Lib}
  {lib : Model.ActiveSurfaces.Lib} {rlib : Model.ResponseSurfaces.Lib} {g : (m : ℕ) → (Fin m → ℝ) → ℝ} {Nd : ℤ} {Y : Matrix (Fin G) (Fin n) ℝ}
  {v : Verts (n + k) n} {ch : Option (Hull n)} {cs : Option (Constraints n)} {A : Set Ω}

/-- C145: the law of the predictions.  Given that rejection sampling finds enough points for every point of the design (an event of positive probability), the
training and the predictions succeed; the mean of a prediction is the prediction of the polynomial that fits best the means over the slices at the points of
the design and the values at the vertices; its variance is a sum of the variances over the slices, with the squares of numbers that reproduce polynomials as
coefficients, over the number of samples for each; no other such numbers have a smaller sum of squares. -/
theorem C145_law (h : Split a.subspaces V1 V2) (hdom : a.dom = .bounded ⟨n + k, n, v, ch, cs⟩) (hz : a.regularize_z = fun Y N => boundedZ dl rng a.subspaces Y N)
    (hdl : QPLibOK dl.qp) (hn : 1 ≤ n) (hl : LstsqOK rlib) (hN : 1 ≤ F.2.1.N) (hu : Unisolvent F.2.1.N (Np.vstack Y v.Y)) (hG : 0 < G) (hT : 0 < T)
    (hY : ∀ ω, (designPoints lib rng (NpMat.of V1) a.dom Nd).run (s ω, F) = (.ok (NpMat.of Y), (s1 ω, F)))
    (hrej : ∀ i st, ∃ r w', (rejection_sampling_z dl rng T (Y i) V1 V2).run (st, F) = (.ok r, w')) (hv : ∀ i, volume (inactive V1 V2 (Y i)) ≠ 0)
    (hU : HasLaw (fun ω (i : Fin G) a b => (rng.uniform (50 * T) k (stateAt rng T k (s1 ω) i)).1 a b) (Measure.pi fun _ : Fin G => unifMatrix (50 * T) k) μ)
    (hg : Continuous (g (n + k))) (hA : A = {ω | Accepted dl rng T Y V1 V2 F (s1 ω)}) :
    μ A ≠ 0 ∧ ∃ p : Ω → PolyApprox,
      (∀ ω ∈ A, ∃ w', (train_with_interface lib rng (polySurface rlib) a (fun m x => pure (g m x)) (.int Nd) (.int T)).run (s ω, F)
        = (.ok (some ()), w') ∧ w'.2.2.1 = p ω) ∧
      ∀ x : Fin (n + k) → ℝ, ∃ pred : Ω → ℝ, (∀ ω ∈ A, call (polySurface rlib) (p ω) a.subspaces (.mat (NpMat.of (Matrix.of fun (_ : Fin 1) => x)))
          = .ok (NpVec.of fun _ : Fin 1 => pred ω)) ∧ MemLp pred 2 μ[|A] ∧
        (∀ Q, BestFit F.2.1.N (Np.vstack Y v.Y) (Fin.append (fun i => sliceMean (g (n + k)) V1 V2 (Y i)) fun i => g (n + k) (v.X i)) Q →
          ∫ ω, pred ω ∂μ[|A] = eval (activeOf V1 x) Q) ∧
        ∃ c : Fin (G + v.num) → ℝ,
          (∀ P : MvPolynomial (Fin n) ℝ, P.totalDegree ≤ F.2.1.N → ∑ i, c i * eval (Np.vstack Y v.Y i) P = eval (activeOf V1 x) P) ∧
          (∀ c' : Fin (G + v.num) → ℝ, (∀ P : MvPolynomial (Fin n) ℝ, P.totalDegree ≤ F.2.1.N →
            ∑ i, c' i * eval (Np.vstack Y v.Y i) P = eval (activeOf V1 x) P) → ∑ i, c i ^ 2 ≤ ∑ i, c' i ^ 2) ∧
          Var[pred; μ[|A]] = (∑ i : Fin G, c (Fin.castAdd v.num i) ^ 2 *
            Var[fun z => g (n + k) (V1.mulVec (Y i) + V2.mulVec z); volume[|inactive V1 V2 (Y i)]]) / T := by
  classical
  have hdir : HasLaw (fun ω => ((), fun (i : Fin G) a b => (rng.uniform (50 * T) k (stateAt rng T k (s1 ω) i)).1 a b))
      ((Measure.dirac ()).prod (Measure.pi fun _ : Fin G => unifMatrix (50 * T) k)) μ :=
    hasLaw_comp hU measurable_prodMk_left (by rw [Measure.dirac_prod])
  obtain ⟨Z, z1, z2, z3, z4⟩ := slice_joint hdl hrej hv hdir
  rw [← hA] at z2 z3 z4
  have hpr : ∀ i, IsProbabilityMeasure volume[|inactive V1 V2 (Y i)] := fun i =>
    cond_isProbabilityMeasure_of_finite (hv i) (inactive_compact h (Y i)).measure_lt_top.ne
  have hZ : HasLaw Z (Measure.pi fun i => Measure.pi fun _ : Fin T => volume[|inactive V1 V2 (Y i)]) μ[|A] :=
    hasLaw_comp z4 measurable_snd measurePreserving_snd.map_eq
  have : IsProbabilityMeasure μ[|A] := hZ.isProbabilityMeasure
  have hrun : ∀ ω, ∃ w' Q, ω ∈ A → (train_with_interface lib rng (polySurface rlib) a (fun m x => pure (g m x)) (.int Nd) (.int T)).run (s ω, F)
      = (.ok (some ()), w') ∧ BestFit F.2.1.N (Np.vstack Y v.Y)
        (Fin.append (fun i => meanOn Finset.univ fun t : Fin T => g (n + k) (V1.mulVec (Y i) + V2.mulVec (Z ω i t))) fun i => g (n + k) (v.X i)) Q ∧
      Recovers (polySurface rlib) w'.2.2.1 a.subspaces V1 Q := fun ω => by
    by_cases hω : ω ∈ A
    · have hω' := hω
      rw [hA] at hω'
      obtain ⟨w', Q, h1⟩ := training_run_bounded h v hdom hz hn hl g Nd hG hT (hY ω) hN hu (z1 ω hω')
      exact ⟨w', Q, fun _ => h1⟩
    · exact ⟨(s ω, F), 0, fun hc => absurd hc hω⟩
  choose w' Q hQ using hrun
  obtain ⟨ℓ, l1, l2⟩ := smoother hn hN hu
  refine ⟨z2, fun ω => (w' ω).2.2.1, fun ω hω => ⟨w' ω, (hQ ω hω).1, rfl⟩, fun x => ?_⟩
  let c : Fin (G + v.num) → ℝ := fun i => eval (activeOf V1 x) (ℓ i)
  let b : ℝ := ∑ i : Fin v.num, g (n + k) (v.X i) * c (Fin.natAdd G i)
  obtain ⟨f1, f2, f3⟩ := Proofs.TwoStage.fixed (T := T) (ρ := fun i => volume[|inactive V1 V2 (Y i)])
    (φ := fun i z => g (n + k) (V1.mulVec (Y i) + V2.mulVec z)) hT (fun i => slice_memLp h hg (Y i)) fun i => c (Fin.castAdd v.num i)
  let S0 : (Fin G → Fin T → Fin k → ℝ) → ℝ := fun z =>
    ∑ i, c (Fin.castAdd v.num i) * ((∑ t, g (n + k) (V1.mulVec (Y i) + V2.mulVec (z i t))) / T)
  have f0 : MemLp S0 2 (Measure.map Z μ[|A]) := by
    rw [hZ.map_eq]
    exact f1
  have g1 : MemLp (fun ω => S0 (Z ω)) 2 μ[|A] := f0.comp_of_map hZ.aemeasurable
  have g2 : ∫ ω, S0 (Z ω) ∂μ[|A] = ∑ i, c (Fin.castAdd v.num i) * sliceMean (g (n + k)) V1 V2 (Y i) := by
    refine (hZ.integral_comp (f := S0) f1.aestronglyMeasurable).trans (f2.trans ?_)
    simp only [sliceMean_eq]
  have g3 : Var[fun ω => S0 (Z ω); μ[|A]] = (∑ i : Fin G, c (Fin.castAdd v.num i) ^ 2 *
      Var[fun z => g (n + k) (V1.mulVec (Y i) + V2.mulVec z); volume[|inactive V1 V2 (Y i)]]) / T := by
    have h1 := variance_map (X := S0) f0.aestronglyMeasurable.aemeasurable hZ.aemeasurable
    rw [hZ.map_eq] at h1
    exact h1.symm.trans f3
  refine ⟨fun ω => S0 (Z ω) + b, fun ω hω => ?_, g1.add (memLp_const b), fun Q' hQ' => ?_, c, fun P hP => ?_, fun c' hc' => smoother_least l1 l2 _ hc', ?_⟩
  · obtain ⟨-, q1, q2⟩ := hQ ω hω
    rw [q2.call 1 (Matrix.of fun (_ : Fin 1) => x)]
    have e : eval (activeOf V1 x) (Q ω) = S0 (Z ω) + b := by
      rw [l2 _ _ q1, Fin.sum_univ_add]
      simp only [Fin.append_left, Fin.append_right, S0, b, c, meanOn, Finset.card_univ, Fintype.card_fin]
      congr 1
      exact Finset.sum_congr rfl fun i _ => mul_comm _ _
    exact congrArg (fun t => Except.ok (NpVec.of fun _ : Fin 1 => t)) e
  · rw [integral_add (g1.integrable one_le_two) (integrable_const b), g2, l2 _ _ hQ', Fin.sum_univ_add]
    simp only [Fin.append_left, Fin.append_right, integral_const, probReal_univ, one_smul, b, c]
    congr 1
    exact Finset.sum_congr rfl fun i _ => mul_comm _ _
  · rw [← l1 P hP]
    exact Finset.sum_congr rfl fun i _ => mul_comm _ _
  · rw [← g3]
    exact variance_add_const g1.aestronglyMeasurable b

end law

/-! ## One active variable -/

section interval

variable {V : Matrix (Fin (1 + k)) (Fin 1) ℝ} {W2 : Matrix (Fin (1 + k)) (Fin k) ℝ} {R : ℝ}

theorem interval_unisolvent {V : Matrix (Fin m) (Fin 1) ℝ} {K N : ℕ} {D : Matrix (Fin K) (Fin 1) ℝ} {R : ℝ} (hR : R = ∑ i, |V i 0|) (hR0 : 0 < R)
    (hD : ∀ i, |D i 0| < R) (hinj : Function.Injective fun i => D i 0) (hN : N ≤ K + 1) : Unisolvent N (Np.vstack D (interval_endpoints V).1) := by
  let y : Fin (K + 2) → ℝ := fun i => Np.vstack D (interval_endpoints V).1 i 0
  have ya : ∀ i : Fin K, y (Fin.castAdd 2 i) = D i 0 := fun i => by simp only [y, Np.vstack_castAdd]
  have yb : ∀ i : Fin 2, y (Fin.natAdd K i) = (interval_endpoints V).1 i 0 := fun i => by simp only [y, Np.vstack_natAdd]
  have y0 : (interval_endpoints V).1 0 0 = -R := by rw [interval_eq, hR]; rfl
  have y1 : (interval_endpoints V).1 1 0 = R := by rw [interval_eq, hR]; rfl
  have hne : ∀ (i : Fin K) (r : Fin 2), D i 0 ≠ (interval_endpoints V).1 r 0 := by
    intro i
    have := abs_lt.mp (hD i)
    refine Fin.forall_fin_two.mpr ⟨?_, ?_⟩
    · rw [y0]; exact this.1.ne'
    · rw [y1]; exact this.2.ne
  have h01 : (interval_endpoints V).1 0 0 ≠ (interval_endpoints V).1 1 0 := by
    rw [y0, y1]; intro hc; linarith
  have hy : Function.Injective y := by
    intro i j
    refine Fin.addCases (fun i => ?_) (fun i => ?_) i <;> refine Fin.addCases (fun j => ?_) (fun j => ?_) j <;> intro hij
    · rw [ya, ya] at hij
      rw [hinj hij]
    · rw [ya, yb] at hij
      exact absurd hij (hne i j)
    · rw [ya, yb] at hij
      exact absurd hij.symm (hne j i)
    · rw [yb, yb] at hij
      congr 1
      fin_cases i <;> fin_cases j
      · rfl
      · exact absurd hij h01
      · exact absurd hij.symm h01
      · rfl
  refine unisolvent_of_grid _ (Finset.univ.image y) ?_ fun x hx => ?_
  · rw [Finset.card_image_of_injective _ hy, Finset.card_univ, Fintype.card_fin]
    omega
  · obtain ⟨i, -, hi⟩ := Finset.mem_image.mp (hx 0)
    refine ⟨i, funext fun j => ?_⟩
    rw [Subsingleton.elim j 0, ← hi]

/-- If no component vanishes, the slices shrink to the vertices at the ends of the interval. -/
theorem sliceMean_vertex {sub : Subspaces} (h : Split sub V W2) (hV : ∀ i, V i 0 ≠ 0) (hR : R = ∑ i, |V i 0|) {f : (Fin (1 + k) → ℝ) → ℝ} (hf : Continuous f)
    {σ : ℝ} (hσ : σ = 1 ∨ σ = -1) {ε : ℝ} (hε : 0 < ε) : ∃ δ > 0, ∀ y : Fin 1 → ℝ, |y 0| < R → R - σ * y 0 < δ →
      |sliceMean f V W2 y - f fun i => σ * Real.sign (V i 0)| ≤ ε := by
  let q : Fin (1 + k) → ℝ := fun i => σ * Real.sign (V i 0)
  obtain ⟨δ, hδ, h1⟩ := Metric.continuous_iff.mp hf q ε hε
  obtain ⟨j, -, hj⟩ := Finset.exists_min_image Finset.univ (fun i => |V i 0|) ⟨(0 : Fin (1 + k)), Finset.mem_univ _⟩
  have hc : 0 < |V j 0| := abs_pos.mpr (hV j)
  have hq : ∀ i, (q i = 1 ∨ q i = -1) ∧ σ * V i 0 * q i = |V i 0| := fun i => by
    simp only [q]
    rcases lt_or_gt_of_ne (hV i) with hs | hs
    · rw [Real.sign_of_neg hs, abs_of_neg hs]
      rcases hσ with rfl | rfl <;> norm_num
    · rw [Real.sign_of_pos hs, abs_of_pos hs]
      rcases hσ with rfl | rfl <;> norm_num
  have hσ2 : σ * σ = 1 := by rcases hσ with rfl | rfl <;> norm_num
  refine ⟨δ * |V j 0|, mul_pos hδ hc, fun y hy hyδ => ?_⟩
  have hpr : IsProbabilityMeasure volume[|inactive V W2 y] :=
    cond_isProbabilityMeasure_of_finite (slice_pos_interval h hR hy) (inactive_compact h y).measure_lt_top.ne
  have hb : ∀ᵐ z ∂(volume[|inactive V W2 y]), ‖f (V.mulVec y + W2.mulVec z) - f q‖ ≤ ε := by
    filter_upwards [ae_cond_mem (inactive_measurable V W2 y)] with z hz
    have hz' := (mem_inactive_iff V W2 y z).mp hz
    set x := V.mulVec y + W2.mulVec z with hx
    have hxy : ∑ i, V i 0 * x i = y 0 := congrFun (active_of_point h y z) 0
    have hterm : ∀ i, 0 ≤ 1 - q i * x i := fun i => by
      have l1 := hz'.1 i
      have l2 := hz'.2 i
      simp only [Pi.neg_apply, Pi.one_apply] at l1 l2
      rcases (hq i).1 with e | e <;> rw [e] <;> linarith
    have hsum : ∑ i, |V i 0| * (1 - q i * x i) = R - σ * y 0 := by
      have e : ∀ i, |V i 0| * (1 - q i * x i) = |V i 0| - σ * (V i 0 * x i) := fun i => by
        have e2 : q i * q i = 1 := by rcases (hq i).1 with e | e <;> rw [e] <;> norm_num
        rw [← (hq i).2]
        linear_combination (-(σ * V i 0 * x i)) * e2
      simp only [e]
      rw [Finset.sum_sub_distrib, ← Finset.mul_sum, hxy, ← hR]
    refine (h1 x ?_).le
    rw [dist_pi_lt_iff hδ]
    intro i
    have l3 : |V i 0| * (1 - q i * x i) ≤ R - σ * y 0 := by
      rw [← hsum]
      exact Finset.single_le_sum (f := fun i => |V i 0| * (1 - q i * x i)) (fun i _ => mul_nonneg (abs_nonneg _) (hterm i)) (Finset.mem_univ i)
    have l4 : |V j 0| * (1 - q i * x i) ≤ |V i 0| * (1 - q i * x i) := mul_le_mul_of_nonneg_right (hj i (Finset.mem_univ i)) (hterm i)
    have l5 : 1 - q i * x i < δ := by
      by_contra hcon
      have := mul_le_mul_of_nonneg_left (not_lt.mp hcon) hc.le
      linarith [mul_comm δ |V j 0|]
    have l6 : dist (x i) (q i) = 1 - q i * x i := by
      have := hterm i
      rw [Real.dist_eq]
      rcases (hq i).1 with e | e <;> rw [e] at this ⊢
      · rw [abs_of_nonpos (by linarith)]
        ring
      · rw [abs_of_nonneg (by linarith)]
        ring
    rw [l6]
    exact l5
  have hm := slice_memLp h hf y
  have e : sliceMean f V W2 y - f q = ∫ z, (f (V.mulVec y + W2.mulVec z) - f q) ∂(volume[|inactive V W2 y]) := by
    rw [integral_sub (hm.integrable one_le_two) (integrable_const _), sliceMean_eq]
    simp
  change |sliceMean f V W2 y - f q| ≤ ε
  rw [e]
  have := norm_integral_le_of_norm_le_const hb
  simpa using this

/-- If the means over the slices are a polynomial, the polynomial has the values of the function at the ends. -/
theorem vertex_value {sub : Subspaces} (h : Split sub V W2) (hV : ∀ i, V i 0 ≠ 0) (hR : R = ∑ i, |V i 0|) (hR0 : 0 < R) {f : (Fin (1 + k) → ℝ) → ℝ} (hf : Continuous f)
    {P : MvPolynomial (Fin 1) ℝ} (hP : ∀ y : Fin 1 → ℝ, |y 0| < R → sliceMean f V W2 y = eval y P) {σ : ℝ} (hσ : σ = 1 ∨ σ = -1) :
    (f fun i => σ * Real.sign (V i 0)) = eval (fun _ => σ * R) P := by
  have hc : Continuous fun t : ℝ => eval (fun _ : Fin 1 => t) P := (MvPolynomial.continuous_eval P).comp (by fun_prop)
  have hσ2 : σ * σ = 1 := by rcases hσ with rfl | rfl <;> norm_num
  have hσa : |σ| = 1 := by rcases hσ with rfl | rfl <;> norm_num
  refine eq_of_abs_sub_le_all fun ε hε => ?_
  obtain ⟨δ, hδ, h1⟩ := sliceMean_vertex h hV hR hf hσ (half_pos hε)
  obtain ⟨δ', hδ', h2⟩ := Metric.continuous_iff.mp hc (σ * R) (ε / 2) (half_pos hε)
  obtain ⟨t, t0, t1⟩ : ∃ t : ℝ, 0 < t ∧ t < min (min δ δ') R := exists_between (lt_min (lt_min hδ hδ') hR0)
  have t2 : t < δ := t1.trans_le ((min_le_left _ _).trans (min_le_left _ _))
  have t3 : t < δ' := t1.trans_le ((min_le_left _ _).trans (min_le_right _ _))
  have t4 : t < R := t1.trans_le (min_le_right _ _)
  have hy : |σ * (R - t)| < R := by
    rw [abs_mul, hσa, one_mul, abs_of_pos (by linarith)]
    linarith
  have h3 := h1 (fun _ => σ * (R - t)) hy (by
    have : σ * (σ * (R - t)) = R - t := by rw [← mul_assoc, hσ2, one_mul]
    rw [this]
    linarith)
  rw [hP _ hy] at h3
  have h4 := h2 (σ * (R - t)) (by
    rw [Real.dist_eq, ← mul_sub, abs_mul, hσa, one_mul]
    rw [abs_of_neg (by linarith)]
    linarith)
  rw [Real.dist_eq] at h4
  rw [abs_sub_comm] at h3
  have := abs_sub_le (f fun i => σ * Real.sign (V i 0)) (eval (fun _ : Fin 1 => σ * (R - t)) P) (eval (fun _ : Fin 1 => σ * R) P)
  linarith

variable {a : AVMap S (PolyApprox × E)} {ch : Option (Hull 1)} {cs : Option (Constraints 1)} {dl : Model.Domains.Lib}
  {rng : Rng S} {lib : Model.ActiveSurfaces.Lib} {rlib : Model.ResponseSurfaces.Lib} {g : (m : ℕ) → (Fin m → ℝ) → ℝ} {s : Ω → S}
  {F : Files × PolyApprox × E} {Y : Matrix (Fin G) (Fin 1) ℝ} {μ : Measure Ω} [IsProbabilityMeasure μ] {A : Set Ω}

/-- The points designed on an interval. -/
theorem interval_points (V : Matrix (Fin m) (Fin 1) ℝ) (X : Matrix (Fin 2) (Fin m) ℝ) {R : ℝ} (hR : R = ∑ i, |V i 0|) (hR0 : 0 < R) (lib : Model.ActiveSurfaces.Lib) (rng : Rng S)
    (G : ℕ) (ch : Option (Hull 1)) (cs : Option (Constraints 1)) : ∃ Y : Matrix (Fin G) (Fin 1) ℝ, (∀ {E : Type} (w : S × E),
      (designPoints lib rng (NpMat.of V) (.bounded ⟨m, 1, ⟨2, (interval_endpoints V).1, X⟩, ch, cs⟩) G).run w = (.ok (NpMat.of Y), w)) ∧
      (∀ i, |Y i 0| < R) ∧ Function.Injective fun i => Y i 0 := by
  obtain ⟨y, h1, h2, h3, -⟩ := C15_interval_design (-R) R (by linarith) G
  refine ⟨y, fun w => ?_, fun i => abs_lt.mpr (h2 i), h3.injective⟩
  rw [designPoints_interval, ← hR, h1]
  rfl

/-- C145: with one active variable and no component zero, the predictions are unbiased whenever the means over the slices are a polynomial
of the degree of the surface. -/
theorem C145_interval_partial (h : Split a.subspaces V W2) (hV : ∀ i, V i 0 ≠ 0) (hR : R = ∑ i, |V i 0|)
    (hdom : a.dom = .bounded ⟨1 + k, 1, ⟨2, (interval_endpoints V).1, (interval_endpoints V).2⟩, ch, cs⟩)
    (hz : a.regularize_z = fun Y N => boundedZ dl rng a.subspaces Y N) (hdl : QPLibOK dl.qp) (hl : LstsqOK rlib) (hN : 1 ≤ F.2.1.N) (hNG : F.2.1.N ≤ G + 1)
    (hG : 0 < G) (hT : 0 < T) (hY : ∀ ω, (designPoints lib rng (NpMat.of V) a.dom G).run (s ω, F) = (.ok (NpMat.of Y), (s ω, F)))
    (hrej : ∀ i st, ∃ r w', (rejection_sampling_z dl rng T (Y i) V W2).run (st, F) = (.ok r, w'))
    (hU : HasLaw (fun ω (i : Fin G) a b => (rng.uniform (50 * T) k (stateAt rng T k (s ω) i)).1 a b) (Measure.pi fun _ : Fin G => unifMatrix (50 * T) k) μ)
    (hg : Continuous (g (1 + k))) {P : MvPolynomial (Fin 1) ℝ} (hPN : P.totalDegree ≤ F.2.1.N)
    (hP : ∀ y : Fin 1 → ℝ, |y 0| < R → sliceMean (g (1 + k)) V W2 y = eval y P) (hA : A = {ω | Accepted dl rng T Y V W2 F (s ω)}) :
    μ A ≠ 0 ∧ ∃ p : Ω → PolyApprox,
      (∀ ω ∈ A, ∃ w', (train_with_interface lib rng (polySurface rlib) a (fun m x => pure (g m x)) (.int G) (.int T)).run (s ω, F)
        = (.ok (some ()), w') ∧ w'.2.2.1 = p ω) ∧
      ∀ x : Fin (1 + k) → ℝ, ∃ pred : Ω → ℝ, (∀ ω ∈ A, call (polySurface rlib) (p ω) a.subspaces (.mat (NpMat.of (Matrix.of fun (_ : Fin 1) => x)))
          = .ok (NpVec.of fun _ : Fin 1 => pred ω)) ∧ MemLp pred 2 μ[|A] ∧ ∫ ω, pred ω ∂μ[|A] = eval (activeOf V x) P := by
  have hR0 : 0 < R := by
    rw [hR]
    exact Finset.sum_pos (fun i _ => abs_pos.mpr (hV i)) ⟨0, Finset.mem_univ _⟩
  obtain ⟨Y', y1, y2, y3⟩ := interval_points V (interval_endpoints V).2 hR hR0 lib rng G ch cs
  obtain ⟨ω0⟩ : Nonempty Ω := nonempty_of_isProbabilityMeasure μ
  obtain rfl : Y = Y' := by
    have e := hY ω0
    rw [hdom, y1] at e
    exact (NpMat.of_injective (Except.ok.inj (Prod.mk.inj e).1)).symm
  obtain ⟨h1, p, h2, h3⟩ := C145_law h hdom hz hdl le_rfl hl hN (interval_unisolvent hR hR0 y2 y3 hNG) hG hT hY hrej
    (fun i => slice_pos_interval h hR (y2 i)) hU hg hA
  refine ⟨h1, p, h2, fun x => ?_⟩
  obtain ⟨pred, h4, h5, h6, -⟩ := h3 x
  refine ⟨pred, h4, h5, h6 P ⟨hPN, fun q _ => ?_⟩⟩
  refine le_of_eq_of_le (Finset.sum_eq_zero fun i _ => ?_) (Finset.sum_nonneg fun i _ => sq_nonneg _)
  refine Fin.addCases (fun i => ?_) (fun i => ?_) i
  · rw [Fin.append_left, Np.vstack_castAdd, hP _ (y2 i), sub_self]
    norm_num
  · rw [Fin.append_right, Np.vstack_natAdd, interval_eq]
    have hv := fun (σ : ℝ) (hσ : σ = 1 ∨ σ = -1) => vertex_value h hV hR hR0 hg hP hσ
    have e0 : ∀ y y' : Fin 1 → ℝ, y 0 = y' 0 → y = y' := fun y y' hy => funext fun j => by rw [Subsingleton.elim j 0, hy]
    revert i
    refine Fin.forall_fin_two.mpr ⟨?_, ?_⟩
    · have := hv (-1) (Or.inr rfl)
      simp only [neg_one_mul] at this
      refine pow_eq_zero_iff two_ne_zero |>.mpr (sub_eq_zero.mpr ?_)
      refine Eq.trans ?_ this.symm
      refine congrArg (fun y => eval y P) (e0 _ _ ?_)
      rw [hR]
      rfl
    · have := hv 1 (Or.inl rfl)
      simp only [one_mul] at this
      refine pow_eq_zero_iff two_ne_zero |>.mpr (sub_eq_zero.mpr ?_)
      refine Eq.trans ?_ this.symm
      refine congrArg (fun y => eval y P) (e0 _ _ ?_)
      rw [hR]
      rfl

end interval

/-! ## A component equal to zero -/

/-- The square of the second coordinate. -/
noncomputable def secondSq (m : ℕ) (x : Fin m → ℝ) : ℝ := if h : 1 < m then x ⟨1, h⟩ ^ 2 else 0

theorem toy_slice {y : Fin 1 → ℝ} (hy : |y 0| ≤ 1) : inactive firstOf secondOf y = Set.Icc (-1) 1 := by
  have h := abs_le.mp hy
  ext z
  simp only [inactive, Set.mem_ofPred_eq, Fin.sum_univ_one, Matrix.of_apply, Set.mem_Icc, Pi.le_def, Fin.forall_fin_one, Pi.neg_apply, Pi.one_apply]
  constructor
  · intro hz
    have := hz 1
    norm_num at this
    exact this
  · intro hz
    refine Fin.forall_fin_two.mpr ⟨?_, ?_⟩
    · norm_num
      exact h
    · norm_num
      exact hz

theorem toy_mean {y : Fin 1 → ℝ} (hy : |y 0| ≤ 1) : sliceMean (secondSq (1 + 1)) firstOf secondOf y = 1 / 3 := by
  have e : ∀ z : Fin 1 → ℝ, secondSq (1 + 1) (firstOf.mulVec y + secondOf.mulVec z) = z 0 ^ 2 := fun z => by
    simp [secondSq, Matrix.mulVec, dotProduct]
  have hv : volume (Set.Icc (-1 : Fin 1 → ℝ) 1) = 2 := by
    rw [Real.volume_Icc_pi]
    norm_num
  have hm : volume[|Set.Icc (-1 : Fin 1 → ℝ) 1] = cubeLaw 1 := by
    rw [cubeLaw_eq, ProbabilityTheory.cond, hv, pow_one]
  rw [← sliceMean_eq]
  simp only [e]
  have hc : ∫ x, x 0 ^ 2 ∂cubeLaw 1 = ∫ t, t ^ 2 ∂unifMeasure := by
    have hp := measurePreserving_eval (fun _ : Fin 1 => unifMeasure) 0
    rw [cubeLaw_unif]
    exact hp.hasLaw.integral_comp (f := fun x => x ^ 2) (by fun_prop)
  rw [toy_slice hy, hm, hc, (unifMeasure_pow 2).2]
  norm_num

/-- C145 fails: with a component equal to zero the value at the vertex is not the mean over the slice, and the predictions are biased. -/
theorem C145_refuted (lib : Model.ActiveSurfaces.Lib) {rlib : Model.ResponseSurfaces.Lib} (hl : LstsqOK rlib) (F : Files × PolyApprox × E) (hN : 1 ≤ F.2.1.N)
    (hNG : F.2.1.N ≤ G + 1) (hG : 0 < G) (hT : 0 < T) :
    ∃ (dl : Model.Domains.Lib) (a : AVMap (ℕ × Draws 0 0 (50 * T) 1 G) (PolyApprox × E)) (s : Draws 0 0 (50 * T) 1 G → ℕ × Draws 0 0 (50 * T) 1 G)
      (A : Set (Draws 0 0 (50 * T) 1 G)) (p : Draws 0 0 (50 * T) 1 G → PolyApprox) (x : Fin (1 + 1) → ℝ) (pred : Draws 0 0 (50 * T) 1 G → ℝ),
      Split a.subspaces firstOf secondOf ∧ a.dom = .bounded ⟨1 + 1, 1, ⟨2, (interval_endpoints firstOf).1, (interval_endpoints firstOf).2⟩, none, none⟩ ∧
      a.regularize_z = (fun Y N => boundedZ dl (countRng 0 0 (50 * T) 1 G) a.subspaces Y N) ∧ QPLibOK dl.qp ∧
      (∀ y : Fin 1 → ℝ, |y 0| ≤ 1 → sliceMean (secondSq (1 + 1)) firstOf secondOf y = 1 / 3) ∧
      ((unifMatrix 0 0).prod (Measure.pi fun _ : Fin G => unifMatrix (50 * T) 1)) A ≠ 0 ∧
      (∀ ω ∈ A, ∃ w', (train_with_interface lib (countRng 0 0 (50 * T) 1 G) (polySurface rlib) a (fun m x => pure (secondSq m x)) (.int G) (.int T)).run (s ω, F)
        = (.ok (some ()), w') ∧ w'.2.2.1 = p ω) ∧
      x ∈ cube (1 + 1) ∧ (∀ ω ∈ A, call (polySurface rlib) (p ω) a.subspaces (.mat (NpMat.of (Matrix.of fun (_ : Fin 1) => x)))
          = .ok (NpVec.of fun _ : Fin 1 => pred ω)) ∧
      MemLp pred 2 ((unifMatrix 0 0).prod (Measure.pi fun _ : Fin G => unifMatrix (50 * T) 1))[|A] ∧
      ∫ ω, pred ω ∂((unifMatrix 0 0).prod (Measure.pi fun _ : Fin G => unifMatrix (50 * T) 1))[|A] < 1 / 3 := by
  obtain ⟨qp, h1, -, h2⟩ := exists_solver
  let dl : Model.Domains.Lib := ⟨qp, fun l => l, fun _ => .error .exception⟩
  let a : AVMap (ℕ × Draws 0 0 (50 * T) 1 G) (PolyApprox × E) :=
    ⟨.bounded ⟨1 + 1, 1, ⟨2, (interval_endpoints firstOf).1, (interval_endpoints firstOf).2⟩, none, none⟩, toySubspaces,
      fun Y N => boundedZ dl (countRng 0 0 (50 * T) 1 G) toySubspaces Y N⟩
  have hR : (1 : ℝ) = ∑ i, |firstOf i 0| := by
    rw [Fin.sum_univ_two]
    simp
  obtain ⟨Y, y1, y2, y3⟩ := interval_points firstOf (interval_endpoints firstOf).2 hR one_pos lib (countRng 0 0 (50 * T) 1 G) G none none
  have hu := interval_unisolvent hR one_pos y2 y3 hNG
  have hg : Continuous (secondSq (1 + 1)) := by
    have : secondSq (1 + 1) = fun x => x 1 ^ 2 := funext fun x => by simp [secondSq]
    rw [this]
    fun_prop
  obtain ⟨g1, p, g2, g3⟩ := C145_law (a := a) (dl := dl) (Nd := G) (T := T) (g := secondSq) (F := F) (lib := lib)
    (s := fun ω => ((countRng 0 0 (50 * T) 1 G).uniform 0 0 (0, ω)).2) (s1 := fun ω => ((countRng 0 0 (50 * T) 1 G).uniform 0 0 (0, ω)).2)
    toySplit rfl rfl h1 le_rfl hl hN hu hG hT (fun ω => y1 _)
    (fun i st => toy_rejection h2 rfl _ _ (y2 i) _) (fun i => slice_pos_interval toySplit hR (y2 i))
    (hasLaw_comp (countRng_law 0 0 T 1 G) measurable_snd measurePreserving_snd.map_eq) hg rfl
  obtain ⟨Q, hQ⟩ := bestFit_exists le_rfl hN hu (Fin.append (fun i => sliceMean (secondSq (1 + 1)) firstOf secondOf (Y i))
    fun i => secondSq (1 + 1) ((interval_endpoints firstOf).2 i))
  have hvert : ∀ i, secondSq (1 + 1) ((interval_endpoints firstOf).2 i) = 0 := by
    rw [interval_eq]
    refine Fin.forall_fin_two.mpr ⟨?_, ?_⟩ <;> simp [secondSq]
  have hsum := hQ.normal (q := 1) (by simp)
  obtain ⟨i, hi⟩ : ∃ i, eval (Np.vstack Y (interval_endpoints firstOf).1 i) Q < 1 / 3 := by
    by_contra hcon
    push Not at hcon
    have e : ∑ i, (eval (Np.vstack Y (interval_endpoints firstOf).1 i) Q) = G / 3 := by
      have : ∑ i : Fin (G + 2), Fin.append (fun i => sliceMean (secondSq (1 + 1)) firstOf secondOf (Y i))
          (fun i => secondSq (1 + 1) ((interval_endpoints firstOf).2 i)) i = G / 3 := by
        rw [Fin.sum_univ_add]
        simp only [Fin.append_left, Fin.append_right, hvert, toy_mean (y2 _).le]
        simp
        ring
      rw [← this]
      simp only [map_one, mul_one] at hsum
      rw [Finset.sum_sub_distrib] at hsum
      linarith
    have l := Finset.sum_le_sum fun i (_ : i ∈ Finset.univ) => hcon i
    rw [e] at l
    simp at l
    linarith
  have hyi : |Np.vstack Y (interval_endpoints firstOf).1 i 0| ≤ 1 := by
    revert i
    refine fun i => Fin.addCases (fun i _ => ?_) (fun i _ => ?_) i
    · rw [Np.vstack_castAdd]
      exact (y2 i).le
    · rw [Np.vstack_natAdd, interval_eq, ← hR]
      revert i
      refine Fin.forall_fin_two.mpr ⟨?_, ?_⟩ <;> simp
  let x : Fin (1 + 1) → ℝ := fun j => if j = 0 then Np.vstack Y (interval_endpoints firstOf).1 i 0 else 0
  obtain ⟨pred, q1, q2, q3, -⟩ := g3 x
  refine ⟨dl, a, _, _, p, x, pred, toySplit, rfl, rfl, h1, fun y hy => toy_mean hy, g1, g2, ?_, q1, q2, ?_⟩
  · intro j
    simp only [x]
    split_ifs
    · exact abs_le.mp hyi
    · norm_num
  · rw [q3 Q hQ]
    have e : activeOf firstOf x = Np.vstack Y (interval_endpoints firstOf).1 i := by
      funext j
      rw [Subsingleton.elim j 0]
      change ∑ l : Fin (1 + 1), _ = _
      rw [Fin.sum_univ_two]
      simp [x]
    rw [e]
    exact hi

/-! ## The hypotheses can be met -/

theorem slice_rejection {sub : Subspaces} (h : Split sub V1 V2) {qp : Model.QPSolver.Lib}
    (h2 : ∀ (S E : Type) (m n : ℕ) (rng : Rng S) (c : Fin n → ℝ) (A : Matrix (Fin m) (Fin n) ℝ) (b : Fin m → ℝ)
      (w : S × Files × E), (∃ x, IsMinimiser (ineqSet A b) (linObj c) x) → ∃ x, ((QPSolver.init qp).linear_program_ineq qp rng c A b).run w = (.ok x, w))
    {lib : Model.Domains.Lib} (hlib : lib.qp = qp) (rng : Rng S) (N : ℕ) {y : Fin n → ℝ} (hy : (inactive V1 V2 y).Nonempty) (w : S × Files × E) :
    ∃ r w', (rejection_sampling_z lib rng N y V1 V2).run w = (.ok r, w') := by
  obtain ⟨B, hB⟩ := box_ok (lib := lib) (rng := rng) (A := polyA V2) (b := polyB (V1.mulVec y)) (w := w) hlib
    fun c hc => h2 _ _ _ _ rng c _ _ _ (by
      rw [ineqSet_poly]
      obtain ⟨x, hx, hm⟩ := (inactive_compact h y).exists_isMinOn hy (f := linObj c) (by
        unfold linObj
        fun_prop)
      exact ⟨x, hx, fun z hz => hm hz⟩)
  exact rejection_ok hB

/-- A direction with two nonzero components. -/
noncomputable abbrev tiltOne : Matrix (Fin (1 + 1)) (Fin 1) ℝ := Matrix.of ![![3 / 5], ![4 / 5]]

/-- The direction orthogonal to it. -/
noncomputable abbrev tiltTwo : Matrix (Fin (1 + 1)) (Fin 1) ℝ := Matrix.of ![![4 / 5], ![-3 / 5]]

noncomputable def tiltSubspaces : Subspaces :=
  { eigenvecs := some (NpMat.of (Np.hstack tiltOne tiltTwo)), W1 := some (NpMat.of tiltOne), W2 := some (NpMat.of tiltTwo) }

theorem tiltSplit : Split tiltSubspaces tiltOne tiltTwo := by
  refine ⟨rfl, rfl, rfl, ?_⟩
  ext i j
  rw [Matrix.mul_apply]
  change ∑ i', Np.hstack tiltOne tiltTwo i' i * Np.hstack tiltOne tiltTwo i' j = _
  rw [show (∑ i', Np.hstack tiltOne tiltTwo i' i * Np.hstack tiltOne tiltTwo i' j)
    = Np.hstack tiltOne tiltTwo 0 i * Np.hstack tiltOne tiltTwo 0 j + Np.hstack tiltOne tiltTwo 1 i * Np.hstack tiltOne tiltTwo 1 j from Fin.sum_univ_two _]
  refine Fin.addCases (fun i => ?_) (fun i => ?_) i <;> refine Fin.addCases (fun j => ?_) (fun j => ?_) j <;>
    fin_cases i <;> fin_cases j <;> simp only [Np.hstack_castAdd, Np.hstack_natAdd] <;>
    norm_num [Matrix.one_apply, Fin.ext_iff]

/-- The square of the active variable. -/
noncomputable def tiltSq (m : ℕ) (x : Fin m → ℝ) : ℝ := if h : 1 < m then (3 / 5 * x ⟨0, by omega⟩ + 4 / 5 * x ⟨1, h⟩) ^ 2 else 0

/-- C145: a surface of degree 2 trained at 5 points with 3 samples each predicts the square of the active variable without bias. -/
example (lib : Model.ActiveSurfaces.Lib) (F : Files × PolyApprox × E) (hN : F.2.1.N = 2) :
    ∃ (rlib : Model.ResponseSurfaces.Lib) (dl : Model.Domains.Lib) (a : AVMap (ℕ × Draws 0 0 (50 * 3) 1 5) (PolyApprox × E))
      (s : Draws 0 0 (50 * 3) 1 5 → ℕ × Draws 0 0 (50 * 3) 1 5)
      (A : Set (Draws 0 0 (50 * 3) 1 5)) (p : Draws 0 0 (50 * 3) 1 5 → PolyApprox),
      ((unifMatrix 0 0).prod (Measure.pi fun _ : Fin 5 => unifMatrix (50 * 3) 1)) A ≠ 0 ∧
      (∀ ω ∈ A, ∃ w', (train_with_interface lib (countRng 0 0 (50 * 3) 1 5) (polySurface rlib) a (fun m x => pure (tiltSq m x)) (.int 5) (.int 3)).run (s ω, F)
        = (.ok (some ()), w') ∧ w'.2.2.1 = p ω) ∧
      ∀ x : Fin (1 + 1) → ℝ, ∃ pred : Draws 0 0 (50 * 3) 1 5 → ℝ,
        (∀ ω ∈ A, call (polySurface rlib) (p ω) a.subspaces (.mat (NpMat.of (Matrix.of fun (_ : Fin 1) => x))) = .ok (NpVec.of fun _ : Fin 1 => pred ω)) ∧
        ∫ ω, pred ω ∂((unifMatrix 0 0).prod (Measure.pi fun _ : Fin 5 => unifMatrix (50 * 3) 1))[|A] = (3 / 5 * x 0 + 4 / 5 * x 1) ^ 2 := by
  obtain ⟨rlib, hl⟩ := lstsqOK_exists
  obtain ⟨qp, h1, -, h2⟩ := exists_solver
  let dl : Model.Domains.Lib := ⟨qp, fun l => l, fun _ => .error .exception⟩
  let a : AVMap (ℕ × Draws 0 0 (50 * 3) 1 5) (PolyApprox × E) :=
    ⟨.bounded ⟨1 + 1, 1, ⟨2, (interval_endpoints tiltOne).1, (interval_endpoints tiltOne).2⟩, none, none⟩, tiltSubspaces,
      fun Y N => boundedZ dl (countRng 0 0 (50 * 3) 1 5) tiltSubspaces Y N⟩
  have hR : (7 / 5 : ℝ) = ∑ i, |tiltOne i 0| := by
    rw [Fin.sum_univ_two]
    norm_num
  have hV : ∀ i, tiltOne i 0 ≠ 0 := Fin.forall_fin_two.mpr (by norm_num)
  obtain ⟨Y, y1, y2, y3⟩ := interval_points tiltOne (interval_endpoints tiltOne).2 hR (by norm_num) lib (countRng 0 0 (50 * 3) 1 5) 5 none none
  have hg : Continuous (tiltSq (1 + 1)) := by
    have : tiltSq (1 + 1) = fun x => (3 / 5 * x 0 + 4 / 5 * x 1) ^ 2 := funext fun x => by simp [tiltSq]
    rw [this]
    fun_prop
  have hpos : ∀ y : Fin 1 → ℝ, |y 0| < 7 / 5 → volume (inactive tiltOne tiltTwo y) ≠ 0 := fun y hy => slice_pos_interval tiltSplit hR hy
  obtain ⟨g1, p, g2, g3⟩ := C145_interval_partial (a := a) (dl := dl) (G := 5) (T := 3) (g := tiltSq) (F := F) (lib := lib) (P := MvPolynomial.X 0 ^ 2)
    (s := fun ω => ((countRng 0 0 (50 * 3) 1 5).uniform 0 0 (0, ω)).2) tiltSplit hV hR rfl rfl h1 hl (by omega) (by omega) (by norm_num) (by norm_num)
    (fun ω => y1 _)
    (fun i st => slice_rejection tiltSplit h2 rfl _ _ (Set.nonempty_iff_ne_empty.mpr fun h0 => hpos _ (y2 i) (by rw [h0, measure_empty])) _)
    (hasLaw_comp (countRng_law 0 0 3 1 5) measurable_snd measurePreserving_snd.map_eq) hg (by
      rw [hN]
      exact (MvPolynomial.totalDegree_pow _ _).trans (by rw [MvPolynomial.totalDegree_X]))
    (fun y hy => by
      have hpr : IsProbabilityMeasure volume[|inactive tiltOne tiltTwo y] :=
        cond_isProbabilityMeasure_of_finite (hpos y hy) (inactive_compact tiltSplit y).measure_lt_top.ne
      have e : ∀ z : Fin 1 → ℝ, tiltSq (1 + 1) (tiltOne.mulVec y + tiltTwo.mulVec z) = y 0 ^ 2 := fun z => by
        simp [tiltSq, Matrix.mulVec, dotProduct]
        ring
      rw [← sliceMean_eq, integral_congr_ae (Filter.Eventually.of_forall e)]
      simp) rfl
  refine ⟨rlib, dl, a, _, _, p, g1, g2, fun x => ?_⟩
  obtain ⟨pred, q1, -, q2⟩ := g3 x
  refine ⟨pred, q1, q2.trans ?_⟩
  have two : ∀ g : Fin (1 + 1) → ℝ, ∑ x, g x = g 0 + g 1 := fun g => Fin.sum_univ_two g
  simp only [map_pow, MvPolynomial.eval_X, activeOf, two]
  norm_num
  ring

end Props
