import Verif.Proofs.AcceptLaw
import Verif.Proofs.TwoStage
import Verif.Props.CubeError
import Verif.Props.IntegrateLaw
import Verif.Props.RejectionLaw

/-!
# Property C144: samples of the inverse map on bounded domains, and `integrate`
-/

open Py Model.Misc Model.Subspaces Model.QPSolver Model.Domains Model.ResponseSurfaces Model.ActiveSurfaces Model.Quadrature
  Model.Integrals Spec Proofs.Run Proofs.Groups Proofs.Accept MeasureTheory ProbabilityTheory
open scoped ENNReal

namespace Props

variable {S E Ω : Type} {m n k G T : ℕ} [MeasurableSpace Ω]

/-- The state of the generator before the points of row `i` are drawn, as long as rejection sampling has found enough points for the rows before. -/
def stateAt (rng : Rng S) (T k : ℕ) (s : S) : ℕ → S
  | 0 => s
  | i + 1 => (rng.uniform (50 * T) k (stateAt rng T k s i)).2

/-- Rejection sampling finds enough points for every row of `Y`. -/
def Accepted (lib : Model.Domains.Lib) (rng : Rng S) (T : ℕ) (Y : Matrix (Fin G) (Fin n) ℝ) (V1 : Matrix (Fin m) (Fin n) ℝ)
    (V2 : Matrix (Fin m) (Fin k) ℝ) (F : Files × E) (s : S) : Prop :=
  ∀ i : Fin G, ∃ Z w', (rejection_sampling_z lib rng T (Y i) V1 V2).run (stateAt rng T k s i, F) = (.ok (some Z), w')

/-- A loop whose calls pass a state on. -/
theorem mapFin_states {W α : Type} {r : ℕ} {f : Fin r → PyM W α} {w : ℕ → W} {as : Fin r → α} (h : ∀ i : Fin r, (f i).run (w i) = (.ok (as i), w (i + 1))) :
    (PyM.mapFin r f).run (w 0) = (.ok as, w r) := by
  induction r generalizing w with
  | zero => exact congrArg (fun a => (Except.ok a, w 0)) (funext fun i => i.elim0)
  | succ r ih =>
    have h1 := ih (f := fun i => f i.succ) (as := fun i => as i.succ) (w := fun i => w (i + 1)) fun i => h i.succ
    change ((f 0 >>= fun a => PyM.mapFin r (fun i => f i.succ) >>= fun as => pure (Fin.cons (α := fun _ => α) a as)) : PyM W (Fin (r + 1) → α)).run (w 0) = _
    have h0 : (f 0).run (w 0) = (.ok (as 0), w (0 + 1)) := h 0
    rw [PyM.run_bind_ok h0]
    refine (PyM.run_bind_ok h1).trans ?_
    exact congrArg (fun a => (Except.ok a, w (r + 1))) (Fin.cons_self_tail as)

variable {V1 : Matrix (Fin (n + k)) (Fin n) ℝ} {V2 : Matrix (Fin (n + k)) (Fin k) ℝ}

theorem boundedZ_run {sub : Subspaces} (h : Split sub V1 V2) {lib : Model.Domains.Lib} {rng : Rng S} {Y : Matrix (Fin G) (Fin n) ℝ} (hG : 0 < G)
    {F : Files × E} {s : S} {Z : Fin G → Fin T → Fin k → ℝ}
    (hZ : ∀ i : Fin G, (rejection_sampling_z lib rng T (Y i) V1 V2).run (stateAt rng T k s i, F)
      = (.ok (some (Matrix.of (Z i))), (stateAt rng T k s (i + 1), F))) :
    (boundedZ lib rng sub (NpMat.of Y) T).run (s, F) = (.ok (some ⟨G, k, T, fun i j t => Z i t j⟩), (stateAt rng T k s G, F)) := by
  have h1 : (PyM.mapFin G fun i => sample_z lib rng T (Y i) V1 V2).run (s, F)
      = (.ok (fun i => some (Matrix.of (Z i))), (stateAt rng T k s G, F)) :=
    mapFin_states (w := fun i => (stateAt rng T k s i, F)) fun i => by
      unfold sample_z
      rw [PyM.run_bind_ok (hZ i)]
      rfl
  unfold boundedZ
  rw [h.w1, h.w2]
  dsimp only
  rw [dif_pos ⟨by simpa using hG.ne', rfl, rfl⟩]
  refine (PyM.run_bind_ok h1).trans ?_
  have key : ∀ (p : Prop) [Decidable p] (hp : p) (f : p → PyM (S × Files × E) (Option Arr3)) (g : ¬p → PyM (S × Files × E) (Option Arr3)),
      dite p f g = f hp := fun p _ hp f g => dif_pos hp
  exact (congrArg (fun u => PyM.run u _) (key _ (fun i => rfl) _ _)).trans rfl

/-- The box is the same for all states, and has a positive volume if the polytope has one. -/
theorem rejection_box {lib : Model.Domains.Lib} (hl : QPLibOK lib.qp) (rng : Rng S) (N : ℕ) (y : Fin n → ℝ) (W1 : Matrix (Fin m) (Fin n) ℝ)
    (W2 : Matrix (Fin m) (Fin k) ℝ) (e : Files × E)
    (hrun : ∀ s, ∃ r w', (rejection_sampling_z lib rng N y W1 W2).run (s, e) = (.ok r, w')) (hv : volume (inactive W1 W2 y) ≠ 0) (hne : Nonempty S) :
    ∃ B, IsBox (inactive W1 W2 y) B ∧ (∀ j, (B j).1 < (B j).2) ∧
      ∀ s, (box lib rng (polyA W2) (polyB (W1.mulVec y))).run (s, e) = (.ok B, (s, e)) := by
  have hbox : ∀ s, ∃ B, (box lib rng (polyA W2) (polyB (W1.mulVec y))).run (s, e) = (.ok B, (s, e)) ∧ IsBox (inactive W1 W2 y) B := by
    intro s
    obtain ⟨r, w', h⟩ := hrun s
    obtain ⟨B, w1, h1, h2⟩ := bind_inv h
    obtain ⟨rfl, h3⟩ := box_run hl rng _ _ _ _ _ h1
    rw [ineqSet_poly] at h3
    exact ⟨B, h1, h3⟩
  obtain ⟨B, -, hB⟩ := hbox hne.some
  refine ⟨B, hB, fun j => ?_, fun s => ?_⟩
  · by_contra hc
    apply hv
    have hsub : inactive W1 W2 y ⊆ Set.Icc (fun j => (B j).1) fun j => (B j).2 :=
      fun z hz => ⟨fun j => ((hB j).2.2 z hz).1, fun j => ((hB j).2.2 z hz).2⟩
    refine measure_mono_null hsub ?_
    rw [Real.volume_Icc_pi]
    refine Finset.prod_eq_zero (Finset.mem_univ j) ?_
    rw [ENNReal.ofReal_eq_zero]
    linarith
  · obtain ⟨B', h1, h2⟩ := hbox s
    rw [h1, isBox_unique hB h2]

/-- Uniform points of a box, conditioned on a subset. -/
theorem boxLaw_cond {a b : Fin k → ℝ} (h : ∀ j, a j < b j) {A : Set (Fin k → ℝ)} (hA : MeasurableSet A) (hsub : A ⊆ Set.Icc a b) :
    (boxLaw a b)[|A] = volume[|A] := by
  have hc0 : (∏ j, ENNReal.ofReal (b j - a j))⁻¹ ≠ 0 := ENNReal.inv_ne_zero.mpr (ENNReal.prod_ne_top fun j _ => ENNReal.ofReal_ne_top)
  have hct : (∏ j, ENNReal.ofReal (b j - a j))⁻¹ ≠ ⊤ := ENNReal.inv_ne_top.mpr (Finset.prod_ne_zero_iff.mpr fun j _ => by
    rw [Ne, ENNReal.ofReal_eq_zero, not_le]
    linarith [h j])
  have e : ∀ t, MeasurableSet t → boxLaw a b (A ∩ t) = (∏ j, ENNReal.ofReal (b j - a j))⁻¹ * volume (A ∩ t) := fun t ht => by
    rw [boxLaw_eq h, Measure.smul_apply, Measure.restrict_apply (hA.inter ht), smul_eq_mul,
      Set.inter_eq_self_of_subset_left (Set.inter_subset_left.trans hsub)]
  ext t ht
  rw [cond_apply hA, cond_apply hA, e t ht]
  have e1 := e Set.univ MeasurableSet.univ
  rw [Set.inter_univ] at e1
  rw [e1, ENNReal.mul_inv (.inl hc0) (.inl hct)]
  calc _ = ((∏ j, ENNReal.ofReal (b j - a j))⁻¹⁻¹ * (∏ j, ENNReal.ofReal (b j - a j))⁻¹) * ((volume A)⁻¹ * volume (A ∩ t)) := by ring
    _ = _ := by rw [ENNReal.inv_mul_cancel hc0 hct, one_mul]

/-- The law of the samples for the rows of `Y`, together with something that is independent of the numbers drawn for them. -/
theorem slice_joint {Q : Type} [MeasurableSpace Q] {lib : Model.Domains.Lib} (hl : QPLibOK lib.qp) {rng : Rng S} {Y : Matrix (Fin G) (Fin n) ℝ}
    {W1 : Matrix (Fin m) (Fin n) ℝ} {W2 : Matrix (Fin m) (Fin k) ℝ} {F : Files × E}
    (hrej : ∀ i st, ∃ r w', (rejection_sampling_z lib rng T (Y i) W1 W2).run (st, F) = (.ok r, w'))
    (hv : ∀ i, volume (inactive W1 W2 (Y i)) ≠ 0) {μ : Measure Ω} {κ : Measure Q} [IsProbabilityMeasure κ] {V : Ω → Q} {s : Ω → S}
    (hU : HasLaw (fun ω => (V ω, fun (i : Fin G) a b => (rng.uniform (50 * T) k (stateAt rng T k (s ω) i)).1 a b))
      (κ.prod (Measure.pi fun _ : Fin G => unifMatrix (50 * T) k)) μ) :
    ∃ Z : Ω → Fin G → Fin T → Fin k → ℝ,
      (∀ ω, Accepted lib rng T Y W1 W2 F (s ω) → ∀ i : Fin G, (rejection_sampling_z lib rng T (Y i) W1 W2).run (stateAt rng T k (s ω) i, F)
        = (.ok (some (Matrix.of (Z ω i))), (stateAt rng T k (s ω) (i + 1), F))) ∧
      μ {ω | Accepted lib rng T Y W1 W2 F (s ω)} ≠ 0 ∧
      (∀ᵐ ω ∂μ[|{ω | Accepted lib rng T Y W1 W2 F (s ω)}], Accepted lib rng T Y W1 W2 F (s ω)) ∧
      HasLaw (fun ω => (V ω, Z ω)) (κ.prod (Measure.pi fun i => Measure.pi fun _ : Fin T => volume[|inactive W1 W2 (Y i)]))
        μ[|{ω | Accepted lib rng T Y W1 W2 F (s ω)}] := by
  classical
  have : IsProbabilityMeasure μ := hU.isProbabilityMeasure
  obtain ⟨ω0⟩ := nonempty_of_isProbabilityMeasure μ
  choose B hB hlt hbox using fun i => rejection_box hl rng T (Y i) W1 W2 F (hrej i) (hv i) ⟨s ω0⟩
  have hΩm : ∀ i, MeasurableSet (inactive W1 W2 (Y i)) := fun i => inactive_measurable W1 W2 (Y i)
  have hsub : ∀ i, inactive W1 W2 (Y i) ⊆ Set.Icc (fun j => (B i j).1) fun j => (B i j).2 := fun i z hz =>
    ⟨fun j => ((hB i j).2.2 z hz).1, fun j => ((hB i j).2.2 z hz).2⟩
  let x : Ω → Fin G → Fin (50 * T) → Fin k → ℝ := fun ω i a j =>
    (B i j).1 + ((B i j).2 - (B i j).1) * (((rng.uniform (50 * T) k (stateAt rng T k (s ω) i)).1 a j + 1) / 2)
  have hrun := fun ω i => rejection_run (N := T) (hbox i (stateAt rng T k (s ω) i)) (x ω i) fun a j => rfl
  have hacc : ∀ ω, Accepted lib rng T Y W1 W2 F (s ω) ↔ ∀ i, Acc (inactive W1 W2 (Y i)) (50 * T) T (fun _ => Set.univ) (x ω i) := fun ω => by
    refine forall_congr' fun i => ?_
    rw [acc_iff, hrun ω i]
    constructor
    · rintro ⟨Z, w', h1⟩
      have h2 := Except.ok.inj (congrArg Prod.fst h1)
      by_cases hc : T ≤ ((List.ofFn (x ω i)).filter fun z => decide (z ∈ inactive W1 W2 (Y i))).length
      · exact ⟨hc, fun _ => trivial⟩
      · rw [if_neg hc] at h2
        cases h2
    · rintro ⟨h1, -⟩
      rw [if_pos h1]
      exact ⟨_, _, rfl⟩
  -- the law of the points tried
  have hscale : ∀ i, MeasurePreserving (fun (u : Fin k → ℝ) (j : Fin k) => (B i j).1 + ((B i j).2 - (B i j).1) * ((u j + 1) / 2))
      (Measure.pi fun _ : Fin k => unif) (boxLaw (fun j => (B i j).1) fun j => (B i j).2) := fun i => ⟨scale_measurable _ _, rfl⟩
  have hpi := fun i => measurePreserving_pi (fun _ : Fin (50 * T) => Measure.pi fun _ : Fin k => unif) _ fun _ => hscale i
  have hpi2 := measurePreserving_pi (fun _ : Fin G => Measure.pi fun _ : Fin (50 * T) => Measure.pi fun _ : Fin k => unif) _ hpi
  have hpi3 := (MeasurePreserving.id κ).prod hpi2
  have hx : HasLaw (fun ω => (V ω, x ω))
      (κ.prod (Measure.pi fun i => Measure.pi fun _ : Fin (50 * T) => boxLaw (fun j => (B i j).1) fun j => (B i j).2)) μ :=
    hasLaw_comp hU hpi3.measurable hpi3.map_eq
  have h0 : ∀ i, boxLaw (fun j => (B i j).1) (fun j => (B i j).2) (inactive W1 W2 (Y i)) ≠ 0 := fun i => by
    rw [boxLaw_eq (hlt i), Measure.smul_apply, Measure.restrict_apply (hΩm i), Set.inter_eq_self_of_subset_left (hsub i), smul_eq_mul]
    exact mul_ne_zero (ENNReal.inv_ne_zero.mpr (ENNReal.prod_ne_top fun j _ => ENNReal.ofReal_ne_top)) (hv i)
  obtain ⟨h1, h2, h3⟩ := first_joint (by omega : T ≤ 50 * T) hΩm h0 hx
  simp only [← hacc] at h1 h2 h3
  simp only [fun i => boxLaw_cond (hlt i) (hΩm i) (hsub i)] at h3
  refine ⟨fun ω i => first (inactive W1 W2 (Y i)) (50 * T) T (x ω i), fun ω hω i => ?_, h1, h2, h3⟩
  have h4 := ((hacc ω).mp hω i)
  rw [acc_iff] at h4
  rw [hrun ω i, if_pos h4.1]
  have e : (Matrix.of fun (a : Fin T) j => ((List.ofFn (x ω i)).filter fun z => decide (z ∈ inactive W1 W2 (Y i))).getD a 0 j)
      = Matrix.of (first (inactive W1 W2 (Y i)) (50 * T) T (x ω i)) := by
    ext a j
    rw [Matrix.of_apply, Matrix.of_apply, first_eq]
    rfl
  rw [e]
  rfl

/-- C144: the inverse map on a bounded domain.  Given that rejection sampling finds enough points for every row (an event of positive probability), the
points returned are independent, and those for a row are uniformly distributed on the points of the cube with the active variables of the row. -/
theorem C144_inverse {sub : Subspaces} (h : Split sub V1 V2) {lib : Model.Domains.Lib} (hl : QPLibOK lib.qp) {rng : Rng S} {Y : Matrix (Fin G) (Fin n) ℝ}
    (hG : 0 < G) {F : Files × E} (hrej : ∀ i st, ∃ r w', (rejection_sampling_z lib rng T (Y i) V1 V2).run (st, F) = (.ok r, w'))
    (hv : ∀ i, volume (inactive V1 V2 (Y i)) ≠ 0) {μ : Measure Ω} {s : Ω → S}
    (hU : HasLaw (fun ω (i : Fin G) a b => (rng.uniform (50 * T) k (stateAt rng T k (s ω) i)).1 a b) (Measure.pi fun _ : Fin G => unifMatrix (50 * T) k) μ) :
    μ {ω | Accepted lib rng T Y V1 V2 F (s ω)} ≠ 0 ∧
    ∃ X : Ω → Matrix (Fin (G * T)) (Fin (n + k)) ℝ,
      (∀ ω, Accepted lib rng T Y V1 V2 F (s ω) → ∃ (ind : Matrix (Fin (G * T)) (Fin 1) ℝ) (w' : S × Files × E),
        (boundedInverse lib rng sub (.mat (NpMat.of Y)) (.int (T : ℤ))).run (s ω, F)
        = (.ok (some (NpMat.of (X ω), NpMat.of ind)), w')) ∧
      HasLaw (fun ω (i : Fin G) (t : Fin T) l => X ω (finProdFinEquiv (i, t)) l)
        (Measure.pi fun i => Measure.pi fun _ : Fin T => (volume[|inactive V1 V2 (Y i)]).map fun z => V1.mulVec (Y i) + V2.mulVec z)
        μ[|{ω | Accepted lib rng T Y V1 V2 F (s ω)}] := by
  have hdir : HasLaw (fun ω => ((), fun (i : Fin G) a b => (rng.uniform (50 * T) k (stateAt rng T k (s ω) i)).1 a b))
      ((Measure.dirac ()).prod (Measure.pi fun _ : Fin G => unifMatrix (50 * T) k)) μ :=
    hasLaw_comp hU measurable_prodMk_left (by rw [Measure.dirac_prod])
  obtain ⟨Z, h1, h2, h3, h4⟩ := slice_joint hl hrej hv hdir
  have hfin : ∀ i, volume (inactive V1 V2 (Y i)) ≠ ⊤ := fun i => (inactive_compact h (Y i)).measure_lt_top.ne
  have hpr : ∀ i, IsProbabilityMeasure volume[|inactive V1 V2 (Y i)] := fun i => cond_isProbabilityMeasure_of_finite (hv i) (hfin i)
  choose X ind h5 h6 using fun ω => rotate_x_ok V1 V2 Y fun i j t => Z ω i t j
  refine ⟨h2, X, fun ω hω => ⟨ind ω, (stateAt rng T k (s ω) G, F), ?_⟩, ?_⟩
  · unfold boundedInverse inverse
    have e : process_inputs (.mat (NpMat.of Y)) = .ok (NpMat.of Y) := rfl
    rw [e, PyM.run_bind_ok (PyM.run_lift _ _)]
    dsimp only
    rw [if_neg (by omega), Int.toNat_natCast, PyM.run_bind_ok (boundedZ_run h hG (h1 ω hω))]
    dsimp only
    rw [h.eig]
    dsimp only
    rw [h5 ω]
    rfl
  · have hz : HasLaw Z (Measure.pi fun i => Measure.pi fun _ : Fin T => volume[|inactive V1 V2 (Y i)]) μ[|{ω | Accepted lib rng T Y V1 V2 F (s ω)}] :=
      hasLaw_comp h4 measurable_snd measurePreserving_snd.map_eq
    have e : (fun ω (i : Fin G) (t : Fin T) l => X ω (finProdFinEquiv (i, t)) l) = fun ω i t => V1.mulVec (Y i) + V2.mulVec (Z ω i t) := by
      funext ω i t l
      rw [(h6 ω).point i t (finProdFinEquiv (i, t)) (by simp [finProdFinEquiv]; ring) l]
      rfl
    have hm : ∀ i, Measurable fun z : Fin k → ℝ => V1.mulVec (Y i) + V2.mulVec z := fun i =>
      (continuous_const.add (continuous_mulVec V2)).measurable
    have hpi := fun i => measurePreserving_pi (fun _ : Fin T => volume[|inactive V1 V2 (Y i)])
      (fun _ => (volume[|inactive V1 V2 (Y i)]).map fun z => V1.mulVec (Y i) + V2.mulVec z) fun _ => ⟨hm i, rfl⟩
    have hpr2 : ∀ i, IsProbabilityMeasure ((volume[|inactive V1 V2 (Y i)]).map fun z => V1.mulVec (Y i) + V2.mulVec z) := fun i =>
      Measure.isProbabilityMeasure_map (hm i).aemeasurable
    have hpi2 := measurePreserving_pi (fun i : Fin G => Measure.pi fun _ : Fin T => volume[|inactive V1 V2 (Y i)]) _ hpi
    rw [e]
    exact hasLaw_comp hz hpi2.measurable hpi2.map_eq

/-! ## `integrate` -/

variable {a : AVMap S E}

/-- The numbers returned, in terms of the rule and of the inactive variables. -/
theorem integrate_runZ (h : Split a.subspaces V1 V2) (rng : Rng S) (lib : Model.Integrals.Lib) (N : ℤ) (hG : 0 < G) (hT : 0 < T)
    {Yp : Matrix (Fin G) (Fin n) ℝ} {Yw : Fin G → ℝ} {w w1 w2 : S × Files × E}
    (hr : (av_quadrature_rule lib rng a N).run w = (.ok ⟨NpMat.of Yp, NpMat.of (Matrix.of fun i (_ : Fin 1) => Yw i)⟩, w1))
    {Z : Fin G → Fin T → Fin k → ℝ} (hz : (a.regularize_z (NpMat.of Yp) T).run w1 = (.ok (some ⟨G, k, T, fun i j t => Z i t j⟩), w2))
    (g : (m : ℕ) → (Fin m → ℝ) → ℝ) (v : Fin G → Fin T → ℝ) (hv : ∀ i t, v i t = g (n + k) (V1.mulVec (Yp i) + V2.mulVec (Z i t))) :
    (integrate lib rng (fun m x => pure (g m x)) (some a) (.int N) (.int T)).run w =
      (.ok (some (∑ i, Yw i * meanOn Finset.univ (v i),
        ∑ i, Yw i * meanOn Finset.univ (v i) - 1.96 * Real.sqrt ((∑ i, Yw i ^ 2 * varOn Finset.univ (v i)) / T),
        ∑ i, Yw i * meanOn Finset.univ (v i) + 1.96 * Real.sqrt ((∑ i, Yw i ^ 2 * varOn Finset.univ (v i)) / T))), w2) := by
  obtain ⟨X, ind, h3, h4⟩ := rotate_x_ok V1 V2 Yp fun i j t => Z i t j
  have h5 : (a.inverse (.mat (NpMat.of Yp)) (.int T)).run w1 = (.ok (some (NpMat.of X, NpMat.of ind)), w2) := by
    unfold AVMap.inverse inverse
    have e : process_inputs (.mat (NpMat.of Yp)) = .ok (NpMat.of Yp) := rfl
    rw [e, PyM.run_bind_ok (PyM.run_lift _ _)]
    dsimp only
    rw [if_neg (by omega), Int.toNat_natCast, PyM.run_bind_ok hz]
    dsimp only
    rw [h.eig]
    dsimp only
    rw [h3]
    rfl
  obtain ⟨F, h6, h7⟩ := C07_pure g X w2
  have h8 := estimate_of hG hT F ind (Matrix.of fun i (_ : Fin 1) => Yw i) h4.index
  have h9 : ∀ i, (fun t : Fin T => F (finProdFinEquiv (i, t)) 0) = v i := fun i => by
    funext t
    rw [h7, hv]
    congr 1
    funext l
    rw [h4.point i t (finProdFinEquiv (i, t)) (by simp [finProdFinEquiv]; ring)]
    rfl
  simp only [h9] at h8
  have hq : (quadrature_rule lib rng (some a) (.int N) (.int T)).run w =
      (.ok (some ⟨NpMat.of X, NpMat.of (Matrix.of fun (r : Fin (G * T)) (_ : Fin 1) => Yw r.divNat / (T : ℝ)), NpMat.of ind⟩), w2) := by
    change (ruleBody lib rng a N T).run w = _
    unfold ruleBody
    rw [PyM.run_bind_ok hr, PyM.run_bind_ok h5]
    dsimp only
    rw [Int.toNat_natCast, kronOnes_of]
    rfl
  have e1 : ∀ u : Fin G → ℝ, ∑ i, u i * (Matrix.of fun i (_ : Fin 1) => Yw i : Matrix (Fin G) (Fin 1) ℝ) i 0 = ∑ i, Yw i * u i := fun u =>
    Finset.sum_congr rfl fun i _ => mul_comm _ _
  have e2 : ∀ u : Fin G → ℝ, ∑ i, u i * ((Matrix.of fun i (_ : Fin 1) => Yw i : Matrix (Fin G) (Fin 1) ℝ) i 0 *
      (Matrix.of fun i (_ : Fin 1) => Yw i : Matrix (Fin G) (Fin 1) ℝ) i 0) = ∑ i, Yw i ^ 2 * u i := fun u =>
    Finset.sum_congr rfl fun i _ => by
      change u i * (Yw i * Yw i) = _
      ring
  rw [e1, e2] at h8
  unfold integrate
  rw [PyM.run_bind_ok hq]
  dsimp only
  rw [PyM.run_bind_ok h6]
  refine (congrArg (fun x => PyM.run (do let r ← PyM.lift x; return some r) _) h8).trans ?_
  rfl

/-! ## Slices of the cube -/

theorem sliceMean_eq {f : (Fin m → ℝ) → ℝ} (W1 : Matrix (Fin m) (Fin n) ℝ) (W2 : Matrix (Fin m) (Fin k) ℝ) (y : Fin n → ℝ) :
    ∫ z, f (W1.mulVec y + W2.mulVec z) ∂volume[|inactive W1 W2 y] = sliceMean f W1 W2 y := by
  unfold ProbabilityTheory.cond sliceMean
  rw [integral_smul_measure, smul_eq_mul, ENNReal.toReal_inv, inv_mul_eq_div]
  rfl

/-- The mean of the means over the slices is the mean over the cube. -/
theorem cube_sliceMean {sub : Subspaces} (h : Split sub V1 V2) {f : (Fin (n + k) → ℝ) → ℝ} (hf : Continuous f) :
    ∫ x, sliceMean f V1 V2 (V1.transpose.mulVec x) ∂cubeLaw (n + k) = ∫ x, f x ∂cubeLaw (n + k) := by
  obtain ⟨B, hB0, hB⟩ := cube_bound hf
  have hi : IntegrableOn (fun x => sliceMean f V1 V2 (V1.transpose.mulVec x)) (Set.Icc (-1 : Fin (n + k) → ℝ) 1) :=
    Measure.integrableOn_of_bounded (M := B) isCompact_Icc.measure_lt_top.ne
      ((sliceMean_measurable V1 V2 hf).comp (continuous_mulVec _).measurable).aestronglyMeasurable
      (.of_forall fun x => sliceMean_bound h hB0 hB _)
  rw [cube_integral, cube_integral, (cube_split h hi).2, (cube_split h (hf.continuousOn.integrableOn_compact isCompact_Icc)).2]
  congr 2
  funext y
  simp only [active_of_point h]
  rw [setIntegral_const, smul_eq_mul]
  unfold sliceMean
  by_cases hv : volume.real (inactive V1 V2 y) = 0
  · rw [hv, zero_mul]
    have hfin := (inactive_compact h y).measure_lt_top (μ := volume)
    have : volume (inactive V1 V2 y) = 0 := by
      rcases (ENNReal.toReal_eq_zero_iff _).mp hv with h1 | h1
      · exact h1
      · exact absurd h1 hfin.ne
    rw [setIntegral_measure_zero _ this]
  · rw [mul_div_cancel₀ _ hv]

/-- The slice through an interior point of the cube has a positive volume. -/
theorem slice_pos {sub : Subspaces} (h : Split sub V1 V2) {x : Fin (n + k) → ℝ} (hx : ∀ i, |x i| < 1) :
    volume (inactive V1 V2 (V1.transpose.mulVec x)) ≠ 0 := by
  have hc : Continuous fun z : Fin k → ℝ => V1.mulVec (V1.transpose.mulVec x) + V2.mulVec z := continuous_const.add (continuous_mulVec V2)
  let U : Set (Fin (n + k) → ℝ) := Set.univ.pi fun _ => Set.Ioo (-1) 1
  have hU : IsOpen U := isOpen_set_pi Set.finite_univ fun _ _ => isOpen_Ioo
  have hne : ((fun z : Fin k → ℝ => V1.mulVec (V1.transpose.mulVec x) + V2.mulVec z) ⁻¹' U).Nonempty := by
    refine ⟨V2.transpose.mulVec x, ?_⟩
    have e : V1.mulVec (V1.transpose.mulVec x) + V2.mulVec (V2.transpose.mulVec x) = x := by
      rw [Matrix.mulVec_mulVec, Matrix.mulVec_mulVec, ← Matrix.add_mulVec, h.complete, Matrix.one_mulVec]
    rw [Set.mem_preimage, e]
    exact fun i _ => abs_lt.mp (hx i)
  refine ((hU.preimage hc).measure_pos volume hne).ne' ∘ fun h0 => measure_mono_null (fun z hz => ?_) h0
  rw [mem_inactive_iff]
  exact ⟨fun i => (hz i trivial).1.le, fun i => (hz i trivial).2.le⟩

theorem cube_ae_lt (m : ℕ) : ∀ᵐ u ∂(cubeLaw m), ∀ j, |u j| < 1 := by
  rw [ae_all_iff]
  intro j
  have h1 : ∀ᵐ t ∂unif, |t| < 1 := by
    refine Measure.ae_smul_measure ?_ _
    rw [← Measure.restrict_congr_set (Ioo_ae_eq_Icc (μ := volume) (a := (-1 : ℝ)) (b := 1))]
    filter_upwards [ae_restrict_mem measurableSet_Ioo] with t ht
    exact abs_lt.mpr ht
  exact (Measure.quasiMeasurePreserving_eval (fun _ : Fin m => unif) j).ae h1

theorem slice_pos_interval {sub : Subspaces} {V : Matrix (Fin (1 + k)) (Fin 1) ℝ} {V2 : Matrix (Fin (1 + k)) (Fin k) ℝ} (h : Split sub V V2) {R : ℝ}
    (hR : R = ∑ i, |V i 0|) {y : Fin 1 → ℝ} (hy : |y 0| < R) : volume (inactive V V2 y) ≠ 0 := by
  have hR0 : 0 < R := (abs_nonneg _).trans_lt hy
  let x : Fin (1 + k) → ℝ := fun i => y 0 / R * if 0 ≤ V i 0 then 1 else -1
  have hx : ∀ i, |x i| < 1 := fun i => by
    have e : |(if 0 ≤ V i 0 then 1 else -1 : ℝ)| = 1 := by split_ifs <;> simp
    rw [abs_mul, e, mul_one, abs_div, abs_of_pos hR0, div_lt_one hR0]
    exact hy
  have e : V.transpose.mulVec x = y := by
    funext j
    rw [Subsingleton.elim j 0]
    change ∑ i, V i 0 * x i = y 0
    have e1 : ∀ i, V i 0 * x i = y 0 / R * |V i 0| := fun i => by
      simp only [x]
      split_ifs with hs
      · rw [abs_of_nonneg hs]
        ring
      · rw [abs_of_neg (not_le.mp hs)]
        ring
    simp only [e1]
    rw [← Finset.mul_sum, ← hR, div_mul_cancel₀ _ hR0.ne']
  have := slice_pos h hx
  rwa [e] at this

theorem slice_memLp {sub : Subspaces} (h : Split sub V1 V2) {f : (Fin (n + k) → ℝ) → ℝ} (hf : Continuous f) (y : Fin n → ℝ) :
    MemLp (fun z => f (V1.mulVec y + V2.mulVec z)) 2 volume[|inactive V1 V2 y] := by
  obtain ⟨B, -, hB⟩ := cube_bound hf
  have hc : Continuous fun z : Fin k → ℝ => f (V1.mulVec y + V2.mulVec z) := hf.comp (continuous_const.add (continuous_mulVec V2))
  refine MemLp.of_bound hc.aestronglyMeasurable B ?_
  filter_upwards [ae_cond_mem (inactive_measurable V1 V2 y)] with z hz
  exact hB _ ((mem_inactive_iff V1 V2 y z).mp hz)

open Classical in
/-- C144: `integrate` on a bounded domain with one active variable, with `K` nodes, `T` points for each of them, and independent uniform numbers.  Let the
means of the function over the points with given active variable have Lipschitz constant `L`, and the variances be at most `v`.  Given that rejection
sampling finds enough points for every node (an event of positive probability), `integrate` returns numbers whose mean differs from the integral of the
function over the cube by at most `L R / K`, with a mean square error of at most `(L R / K)² + (L R)² / 10000 + v / T`. -/
theorem C144_integrate {V : Matrix (Fin (1 + k)) (Fin 1) ℝ} {V2 : Matrix (Fin (1 + k)) (Fin k) ℝ} (h : Split a.subspaces V V2)
    {X : Matrix (Fin 2) (Fin (1 + k)) ℝ} (hdom : a.dom = .bounded ⟨1 + k, 1, ⟨2, (interval_endpoints V).1, X⟩, none, none⟩)
    {dl : Model.Domains.Lib} (hl : QPLibOK dl.qp) {lib : Model.Integrals.Lib} {rng : Rng S}
    (hz : a.regularize_z = fun Y N => boundedZ dl rng a.subspaces Y N) {K : ℕ} (hK : 1 ≤ K) (hT : 0 < T) {s : Ω → S} {F : Files × E} {R : ℝ}
    (hR : R = ∑ i, |V i 0|) {Y : Matrix (Fin K) (Fin 1) ℝ} (hY : ∀ i, Y i 0 = R * ((2 * (i : ℕ) + 1) / K - 1))
    (hrej : ∀ i st, ∃ r w', (rejection_sampling_z dl rng T (Y i) V V2).run (st, F) = (.ok r, w')) {μ : Measure Ω}
    (hU : HasLaw (fun ω => (fun a b => (rng.uniform 10000 (1 + k) (s ω)).1 a b,
        fun (i : Fin K) a b => (rng.uniform (50 * T) k (stateAt rng T k (rng.uniform 10000 (1 + k) (s ω)).2 i)).1 a b))
      ((unifMatrix 10000 (1 + k)).prod (Measure.pi fun _ : Fin K => unifMatrix (50 * T) k)) μ)
    {g : (m : ℕ) → (Fin m → ℝ) → ℝ} (hg : Continuous (g (1 + k))) {L v : ℝ}
    (hL : ∀ y y' : Fin 1 → ℝ, |y 0| < R → |y' 0| < R → |sliceMean (g (1 + k)) V V2 y - sliceMean (g (1 + k)) V V2 y'| ≤ L * |y 0 - y' 0|)
    (hv : ∀ y : Fin 1 → ℝ, |y 0| < R → Var[fun z => g (1 + k) (V.mulVec y + V2.mulVec z); volume[|inactive V V2 y]] ≤ v)
    {A : Set Ω} (hA : A = {ω | Accepted dl rng T Y V V2 F (rng.uniform 10000 (1 + k) (s ω)).2}) {I : ℝ} (hI : I = ∫ x, g (1 + k) x ∂cubeLaw (1 + k)) :
    μ A ≠ 0 ∧ ∃ mu lb ub : Ω → ℝ,
      (∀ ω ∈ A, ∃ w', (integrate lib rng (fun m x => pure (g m x)) (some a) (.int K) (.int T)).run (s ω, F) = (.ok (some (mu ω, lb ω, ub ω)), w')) ∧
      MemLp mu 2 μ[|A] ∧ |∫ ω, mu ω ∂μ[|A] - I| ≤ L * R / K ∧
      ∫ ω, (mu ω - I) ^ 2 ∂μ[|A] ≤ (L * R / K) ^ 2 + (L * R) ^ 2 / 10000 + v / T := by
  have hKp : (0 : ℝ) < K := by exact_mod_cast hK
  have hRp : 0 < R := by
    refine lt_of_le_of_ne (by rw [hR]; exact Finset.sum_nonneg fun i _ => abs_nonneg _) fun h0 => ?_
    have h1 : ∀ i, V i 0 = 0 := fun i => by
      have := (Finset.sum_eq_zero_iff_of_nonneg fun i _ => abs_nonneg (V i 0)).mp (hR.symm.trans h0.symm) i (Finset.mem_univ i)
      exact abs_eq_zero.mp this
    have h2 := h.orth11 0 0
    simp [h1] at h2
  have hYR : ∀ i, |Y i 0| < R := fun i => by
    have h1 : ((i : ℕ) : ℝ) + 1 ≤ K := by exact_mod_cast i.2
    have h2 : (0 : ℝ) ≤ (i : ℕ) := Nat.cast_nonneg _
    have h3 : (0 : ℝ) < (2 * (i : ℕ) + 1) / K := by positivity
    have h4 : (2 * ((i : ℕ) : ℝ) + 1) / K < 2 := by
      rw [div_lt_iff₀ hKp]
      linarith
    rw [hY, abs_mul, abs_of_pos hRp]
    refine mul_lt_of_lt_one_right hRp ?_
    rw [abs_lt]
    constructor <;> linarith
  have hL0 : 0 ≤ L := by
    have h1 := hL (fun _ => R / 2) (fun _ => 0) (by rw [abs_of_pos (by linarith)]; linarith) (by simpa using hRp)
    have h2 := (abs_nonneg _).trans h1
    rw [sub_zero, abs_of_pos (by linarith : 0 < R / 2)] at h2
    exact nonneg_of_mul_nonneg_left h2 (by linarith)
  have hv0 : 0 ≤ v := (variance_nonneg _ _).trans (hv (fun _ => 0) (by simpa using hRp))
  have hvol : ∀ i, volume (inactive V V2 (Y i)) ≠ 0 := fun i => slice_pos_interval h hR (hYR i)
  have hpr : ∀ i, IsProbabilityMeasure volume[|inactive V V2 (Y i)] := fun i =>
    cond_isProbabilityMeasure_of_finite (hvol i) (inactive_compact h (Y i)).measure_lt_top.ne
  obtain ⟨Z, z1, z2, z3, z4⟩ := slice_joint hl hrej hvol hU
  rw [← hA] at z2 z3 z4
  -- the rule
  let C : Fin K → Set (Fin (1 + k) → ℝ) := fun i => {u | ∑ j, u j * V j 0 ∈ cell (-R) R K i}
  have hC : ∀ i, MeasurableSet (C i) := fun i => ((measurable_pi_apply (0 : Fin 1)).comp (measurable_image V)) (measurable_cell (-R) R K i)
  have hCd : ∀ i j, i ≠ j → ∀ x, x ∈ C i → x ∉ C j := fun i j hij x hx => cell_disjoint (by linarith) hij hx
  let w : Fin K → (Fin 10000 → Fin (1 + k) → ℝ) → ℝ := fun i u => ((Finset.univ.filter fun t => u t ∈ C i).card : ℝ) / (10000 : ℕ)
  have e1 : (interval_endpoints V).1 0 0 = -R := by rw [interval_eq, hR]; rfl
  have e2 : (interval_endpoints V).1 1 0 = R := by rw [interval_eq, hR]; rfl
  have i0 : (NpMat.of (interval_endpoints V).1).item 0 0 = .ok (-R) :=
    (by simp [NpMat.item, NpMat.get, NpMat.of] : _ = Except.ok _).trans (congrArg Except.ok e1)
  have i1 : (NpMat.of (interval_endpoints V).1).item 1 0 = .ok R :=
    (by simp [NpMat.item, NpMat.get, NpMat.of] : _ = Except.ok _).trans (congrArg Except.ok e2)
  have hrule : ∀ ω, (av_quadrature_rule lib rng a K).run (s ω, F)
      = (.ok ⟨NpMat.of Y, NpMat.of (Matrix.of fun i (_ : Fin 1) => w i fun a b => (rng.uniform 10000 (1 + k) (s ω)).1 a b)⟩,
        ((rng.uniform 10000 (1 + k) (s ω)).2, F)) := fun ω => by
    have h4 : (av_quadrature_rule lib rng a K).run (s ω, F) = (interval_quadrature_rule rng
        ⟨1 + k, 1, ⟨2, (interval_endpoints V).1, X⟩, none, none⟩ (NpMat.of V) K 10000).run (s ω, F) := by
      unfold av_quadrature_rule
      rw [h.w1, hdom]
      rfl
    obtain ⟨r, hr⟩ := C59_returns (E := Files × E) rng (b := ⟨1 + k, 1, ⟨2, (interval_endpoints V).1, X⟩, none, none⟩) V K 10000 (s ω, F)
      (by linarith : -R ≤ R) i0 i1
    obtain ⟨K', lo, hi, x', wt, hK1, -, hlo, hhi, ex, ew, -, hx⟩ := C59_interval hr
    obtain rfl : K = K' := by omega
    obtain rfl := Except.ok.inj (i0.symm.trans hlo)
    obtain rfl := Except.ok.inj (i1.symm.trans hhi)
    rw [h4, hr]
    obtain ⟨rx, rw'⟩ := r
    change rx = _ at ex
    change rw' = _ at ew
    subst ex ew
    have e3 : (Matrix.of fun i (_ : Fin 1) => x' i : Matrix (Fin K) (Fin 1) ℝ) = Y := by
      ext i j
      rw [Subsingleton.elim j 0, hY, Matrix.of_apply, (hx i).1]
      field_simp
      ring
    have e4 : wt = fun i => w i fun a b => (rng.uniform 10000 (1 + k) (s ω)).1 a b := funext fun i => (hx i).2
    rw [e3, e4]
  let val : Ω → Fin K → Fin T → ℝ := fun ω i t => g (1 + k) (V.mulVec (Y i) + V2.mulVec (Z ω i t))
  let mu : Ω → ℝ := fun ω => ∑ i, w i (fun a b => (rng.uniform 10000 (1 + k) (s ω)).1 a b) * meanOn Finset.univ (val ω i)
  -- the two stages
  have hw : ∀ i, Measurable (w i) := fun i => by
    have e : w i = fun u => (∑ t, (C i).indicator (fun _ => (1 : ℝ)) (u t)) / (10000 : ℕ) := funext fun u => Proofs.SampleMean.freq_eq (C i) u
    rw [e]
    exact (Finset.measurable_sum _ fun t _ => (measurable_const.indicator (hC i)).comp (measurable_pi_apply t)).div_const _
  have hw0 : ∀ i u, 0 ≤ w i u := fun i u => div_nonneg (Nat.cast_nonneg _) (Nat.cast_nonneg _)
  have hw1 : ∀ u, ∑ i, w i u ≤ 1 := fun u => by
    simp only [w]
    rw [← Finset.sum_div, div_le_one (by norm_num)]
    have h1 : ∑ i, (Finset.univ.filter fun t : Fin 10000 => u t ∈ C i).card = (Finset.univ.biUnion fun i : Fin K =>
        Finset.univ.filter fun t : Fin 10000 => u t ∈ C i).card := (Finset.card_biUnion fun i _ j _ hij => by
      refine Finset.disjoint_left.mpr ?_
      intro t ht ht'
      exact hCd i j hij _ (Finset.mem_filter.mp ht).2 (Finset.mem_filter.mp ht').2).symm
    have h2 := (Finset.card_le_univ (Finset.univ.biUnion fun i : Fin K => Finset.univ.filter fun t : Fin 10000 => u t ∈ C i))
    rw [Fintype.card_fin] at h2
    exact_mod_cast h1.le.trans h2
  have hmu : mu =ᵐ[μ[|A]] fun ω => ∑ i, w i (fun a b => (rng.uniform 10000 (1 + k) (s ω)).1 a b) *
      ((∑ t, g (1 + k) (V.mulVec (Y i) + V2.mulVec (Z ω i t))) / T) := .of_forall fun ω => by
    simp only [mu, meanOn, Finset.card_univ, Fintype.card_fin, val]
  obtain ⟨t1, t2, t3⟩ := Proofs.TwoStage.error (φ := fun i z => g (1 + k) (V.mulVec (Y i) + V2.mulVec z)) hT (fun i => slice_memLp h hg (Y i)) hw hw0 hw1 z4
    (fun i => hv (Y i) (hYR i)) hv0 hmu I
  simp only [sliceMean_eq] at t2 t3
  -- the first stage
  have hid : HasLaw (id : (Fin 10000 → Fin (1 + k) → ℝ) → _) (Measure.pi fun _ : Fin 10000 => cubeLaw (1 + k)) (unifMatrix 10000 (1 + k)) :=
    ⟨aemeasurable_id, Measure.map_id⟩
  have hIm : ∀ u : Fin (1 + k) → ℝ, V.transpose.mulVec u = fun _ : Fin 1 => ∑ i, u i * V i 0 := fun u => by
    funext j
    rw [Subsingleton.elim j 0]
    change ∑ i, V i 0 * u i = _
    exact Finset.sum_congr rfl fun i _ => mul_comm _ _
  have hcov : ∀ᵐ u ∂(cubeLaw (1 + k)), ∃ i, u ∈ C i ∧ |sliceMean (g (1 + k)) V V2 (Y i) - sliceMean (g (1 + k)) V V2 (V.transpose.mulVec u)| ≤ L * R / K := by
    filter_upwards [cube_ae_lt (1 + k)] with u hu
    have hb : |∑ i, u i * V i 0| < R := by
      have h1 : ∃ i, V i 0 ≠ 0 := by
        by_contra hc
        push Not at hc
        rw [hR] at hRp
        simp [hc] at hRp
      obtain ⟨i, hi⟩ := h1
      rw [hR]
      refine (Finset.abs_sum_le_sum_abs _ _).trans_lt (Finset.sum_lt_sum (fun j _ => ?_) ⟨i, Finset.mem_univ i, ?_⟩)
      · rw [abs_mul]
        exact mul_le_of_le_one_left (abs_nonneg _) (hu j).le
      · rw [abs_mul]
        exact mul_lt_of_lt_one_left (abs_pos.mpr hi) (hu i)
    obtain ⟨i, hi⟩ := exists_cell (by omega : 0 < K) (abs_le.mp hb.le).1 (abs_le.mp hb.le).2
    refine ⟨i, hi, ?_⟩
    rw [hIm]
    refine (hL _ _ (hYR i) hb).trans ?_
    have hd : |Y i 0 - ∑ i, u i * V i 0| ≤ R / K := by
      have h2 : ∑ i, u i * V i 0 ≤ -R + ((i : ℕ) + 1) * ((R - -R) / K) := by
        rcases hi.2 with h5 | ⟨h5, h6⟩
        · exact h5.le
        · have : ((i : ℕ) : ℝ) + 1 = K := by exact_mod_cast h5
          rw [this, mul_div_cancel₀ _ hKp.ne', h6]
          linarith
      have h3 := hi.1
      have h4 : (R - -R) / K = 2 * (R / K) := by ring
      have h5 : Y i 0 = -R + (2 * (i : ℕ) + 1) * (R / K) := by
        rw [hY]
        ring
      rw [h4] at h2 h3
      rw [h5, abs_le]
      constructor <;> linarith
    calc L * |Y i 0 - ∑ i, u i * V i 0| ≤ L * (R / K) := mul_le_mul_of_nonneg_left hd hL0
      _ = L * R / K := by ring
  have hBd : ∀ i, |sliceMean (g (1 + k)) V V2 (Y i) - sliceMean (g (1 + k)) V V2 fun _ => 0| ≤ L * R := fun i => by
    refine (hL _ _ (hYR i) (by simpa using hRp)).trans (mul_le_mul_of_nonneg_left ?_ hL0)
    rw [sub_zero]
    exact (hYR i).le
  have hFm : Measurable fun u : Fin (1 + k) → ℝ => sliceMean (g (1 + k)) V V2 (V.transpose.mulVec u) :=
    (sliceMean_measurable V V2 hg).comp (continuous_mulVec _).measurable
  obtain ⟨-, c1, c2⟩ := Proofs.SampleMean.cells hid (by norm_num) hC hCd hFm.aemeasurable hcov hBd
    (q := fun u => ∑ i, w i u * sliceMean (g (1 + k)) V V2 (Y i)) fun u => rfl
  rw [cube_sliceMean h hg, ← hI] at c1 c2
  refine ⟨z2, mu, fun ω => mu ω - 1.96 * Real.sqrt ((∑ i, w i (fun a b => (rng.uniform 10000 (1 + k) (s ω)).1 a b) ^ 2 * varOn Finset.univ (val ω i)) / T),
    fun ω => mu ω + 1.96 * Real.sqrt ((∑ i, w i (fun a b => (rng.uniform 10000 (1 + k) (s ω)).1 a b) ^ 2 * varOn Finset.univ (val ω i)) / T),
    fun ω hω => ⟨(stateAt rng T k (rng.uniform 10000 (1 + k) (s ω)).2 K, F), ?_⟩, t1, ?_, ?_⟩
  · rw [hA] at hω
    exact integrate_runZ h rng lib K (by omega) hT (hrule ω) (by rw [hz]; exact boundedZ_run h (by omega) (z1 ω hω)) g (val ω) fun i t => rfl
  · rw [t2]
    exact c1
  · refine t3.trans (add_le_add ?_ le_rfl)
    have := c2
    simpa using this

/-! ## Examples -/

/-- The numbers of two kinds of draws. -/
abbrev Draws (r c R d K : ℕ) : Type := (Fin r → Fin c → ℝ) × (Fin K → Fin R → Fin d → ℝ)

/-- A generator that counts the draws: the first returns the first component, the others the rows of the second component. -/
noncomputable def countRng (r c R d K : ℕ) : Rng (ℕ × Draws r c R d K) where
  seeded _ := (0, 0, 0)
  normal _ _ s := (0, s)
  uniform r' c' s := (Matrix.of fun i j => if s.1 = 0 then (if h : (i : ℕ) < r ∧ (j : ℕ) < c then s.2.1 ⟨i, h.1⟩ ⟨j, h.2⟩ else 0) else
    if h : s.1 - 1 < K ∧ (i : ℕ) < R ∧ (j : ℕ) < d then s.2.2 ⟨s.1 - 1, h.1⟩ ⟨i, h.2.1⟩ ⟨j, h.2.2⟩ else 0, (s.1 + 1, s.2))
  randint _ s := (0, s)

theorem countRng_state (r c T k K : ℕ) (ω : Draws r c (50 * T) k K) (i : ℕ) :
    stateAt (countRng r c (50 * T) k K) T k ((countRng r c (50 * T) k K).uniform r c (0, ω)).2 i = (i + 1, ω) := by
  induction i with
  | zero => rfl
  | succ i ih =>
    change ((countRng r c (50 * T) k K).uniform (50 * T) k (stateAt (countRng r c (50 * T) k K) T k _ i)).2 = _
    rw [ih]
    rfl

theorem countRng_law (r c T k K : ℕ) : HasLaw (fun ω : Draws r c (50 * T) k K => (fun a b => ((countRng r c (50 * T) k K).uniform r c (0, ω)).1 a b,
      fun (i : Fin K) a b => ((countRng r c (50 * T) k K).uniform (50 * T) k
        (stateAt (countRng r c (50 * T) k K) T k ((countRng r c (50 * T) k K).uniform r c (0, ω)).2 i)).1 a b))
    ((unifMatrix r c).prod (Measure.pi fun _ : Fin K => unifMatrix (50 * T) k))
    ((unifMatrix r c).prod (Measure.pi fun _ : Fin K => unifMatrix (50 * T) k)) := by
  have e : (fun ω : Draws r c (50 * T) k K => ((fun a b => ((countRng r c (50 * T) k K).uniform r c (0, ω)).1 a b,
      fun (i : Fin K) a b => ((countRng r c (50 * T) k K).uniform (50 * T) k
        (stateAt (countRng r c (50 * T) k K) T k ((countRng r c (50 * T) k K).uniform r c (0, ω)).2 i)).1 a b) : Draws r c (50 * T) k K)) = id := by
    funext ω
    refine Prod.ext ?_ ?_
    · funext a b
      simp [countRng]
    · funext i a b
      change ((countRng r c (50 * T) k K).uniform (50 * T) k
        (stateAt (countRng r c (50 * T) k K) T k ((countRng r c (50 * T) k K).uniform r c (0, ω)).2 i)).1 a b = ω.2 i a b
      rw [countRng_state]
      simp [countRng]
  exact e ▸ ⟨aemeasurable_id, Measure.map_id⟩

/-- The first of two variables. -/
abbrev firstOf : Matrix (Fin (1 + 1)) (Fin 1) ℝ := Matrix.of fun i _ => if i = 0 then 1 else 0

/-- The second of two variables. -/
abbrev secondOf : Matrix (Fin (1 + 1)) (Fin 1) ℝ := Matrix.of fun i _ => if i = 1 then 1 else 0

theorem toy_inactive {y : Fin 1 → ℝ} (hy : |y 0| < 1) : inactive firstOf secondOf y = Set.Icc (fun _ => -1) fun _ => 1 := by
  have h := abs_lt.mp hy
  ext z
  simp only [inactive, Set.mem_ofPred_eq, Fin.sum_univ_one, Matrix.of_apply, Set.mem_Icc, Pi.le_def, Fin.forall_fin_one]
  constructor
  · intro hz
    have := hz 1
    norm_num at this
    exact this
  · intro hz
    refine Fin.forall_fin_two.mpr ⟨?_, ?_⟩
    · norm_num
      exact ⟨h.1.le, h.2.le⟩
    · norm_num
      exact hz

theorem toy_sum (y z : Fin 1 → ℝ) : ∑ j, (firstOf.mulVec y + secondOf.mulVec z) j = y 0 + z 0 := by
  rw [Fin.sum_univ_two]
  simp [Matrix.mulVec, dotProduct]

theorem toy_rejection {qp : Model.QPSolver.Lib} (h2 : ∀ (S E : Type) (m n : ℕ) (rng : Rng S) (c : Fin n → ℝ) (A : Matrix (Fin m) (Fin n) ℝ) (b : Fin m → ℝ)
      (w : S × Files × E), (∃ x, IsMinimiser (ineqSet A b) (linObj c) x) → ∃ x, ((QPSolver.init qp).linear_program_ineq qp rng c A b).run w = (.ok x, w))
    {lib : Model.Domains.Lib} (hlib : lib.qp = qp) (rng : Rng S) (N : ℕ) {y : Fin 1 → ℝ} (hy : |y 0| < 1) (w : S × Files × E) :
    ∃ r w', (rejection_sampling_z lib rng N y firstOf secondOf).run w = (.ok r, w') := by
  have e : ∀ z, z ∈ inactive firstOf secondOf y ↔ -1 ≤ z 0 ∧ z 0 ≤ 1 := fun z => by
    rw [toy_inactive hy]
    simp [Pi.le_def]
  obtain ⟨B, hB⟩ := box_ok (lib := lib) (rng := rng) (A := polyA secondOf) (b := polyB (firstOf.mulVec y)) (w := w) hlib
    fun c hc => h2 _ _ _ _ rng c _ _ _ (by
      rw [ineqSet_poly]
      obtain ⟨i, rfl | rfl⟩ := hc
      · refine ⟨fun _ => -1, (e _).mpr (by norm_num), fun z hz => ?_⟩
        have := (e z).mp hz
        fin_cases i
        simp [linObj]
        linarith [this.1]
      · refine ⟨fun _ => 1, (e _).mpr (by norm_num), fun z hz => ?_⟩
        have := (e z).mp hz
        fin_cases i
        simp [linObj]
        linarith [this.2])
  exact rejection_ok hB

example (F : Files × E) : ∃ (lib : Model.Domains.Lib), QPLibOK lib.qp ∧
    (∀ (i : Fin 2) st, ∃ r w', (rejection_sampling_z lib (countRng 0 0 (50 * 3) 1 2) 3 ((fun i _ => i / 2 : Matrix (Fin 2) (Fin 1) ℝ) i) firstOf secondOf).run
      (st, F) = (.ok r, w')) ∧ (∀ i : Fin 2, volume (inactive firstOf secondOf ((fun i _ => i / 2 : Matrix (Fin 2) (Fin 1) ℝ) i)) ≠ 0) ∧
    ∃ s : Draws 0 0 (50 * 3) 1 2 → ℕ × Draws 0 0 (50 * 3) 1 2, HasLaw (fun ω (i : Fin 2) a b => ((countRng 0 0 (50 * 3) 1 2).uniform (50 * 3) 1
      (stateAt (countRng 0 0 (50 * 3) 1 2) 3 1 (s ω) i)).1 a b) (Measure.pi fun _ : Fin 2 => unifMatrix (50 * 3) 1)
      ((unifMatrix 0 0).prod (Measure.pi fun _ : Fin 2 => unifMatrix (50 * 3) 1)) := by
  obtain ⟨qp, h1, -, h2⟩ := exists_solver
  have hy : ∀ i : Fin 2, |(((i : ℕ) : ℝ) / 2)| < 1 := Fin.forall_fin_two.mpr (by norm_num)
  refine ⟨⟨qp, fun l => l, fun _ => .error .exception⟩, h1, fun i st => toy_rejection h2 rfl _ _ (hy i) _, fun i => ?_, _,
    hasLaw_comp (countRng_law 0 0 3 1 2) measurable_snd measurePreserving_snd.map_eq⟩
  rw [toy_inactive (hy i), Real.volume_Icc_pi]
  norm_num

example (lib : Model.Integrals.Lib) (X : Matrix (Fin 2) (Fin (1 + 1)) ℝ) (F : Files × E) : ∃ (dl : Model.Domains.Lib)
    (a : AVMap (ℕ × Draws 10000 (1 + 1) (50 * 3) 1 5) E) (A : Set (Draws 10000 (1 + 1) (50 * 3) 1 5)) (mu lb ub : Draws 10000 (1 + 1) (50 * 3) 1 5 → ℝ),
    a.regularize_z = (fun Y N => boundedZ dl (countRng 10000 (1 + 1) (50 * 3) 1 5) a.subspaces Y N) ∧
    ((unifMatrix 10000 (1 + 1)).prod (Measure.pi fun _ : Fin 5 => unifMatrix (50 * 3) 1)) A ≠ 0 ∧
    (∀ ω ∈ A, ∃ w', (integrate lib (countRng 10000 (1 + 1) (50 * 3) 1 5) (fun m x => pure (∑ j, x j)) (some a) (.int 5) (.int 3)).run ((0, ω), F)
      = (.ok (some (mu ω, lb ω, ub ω)), w')) ∧
    |∫ ω, mu ω ∂((unifMatrix 10000 (1 + 1)).prod (Measure.pi fun _ : Fin 5 => unifMatrix (50 * 3) 1))[|A] - ∫ x, ∑ j, x j ∂cubeLaw (1 + 1)| ≤ 1 / 5 := by
  obtain ⟨qp, h1, -, h2⟩ := exists_solver
  let dl : Model.Domains.Lib := ⟨qp, fun l => l, fun _ => .error .exception⟩
  let a : AVMap (ℕ × Draws 10000 (1 + 1) (50 * 3) 1 5) E :=
    ⟨.bounded ⟨1 + 1, 1, ⟨2, (interval_endpoints firstOf).1, X⟩, none, none⟩, toySubspaces,
      fun Y N => boundedZ dl (countRng 10000 (1 + 1) (50 * 3) 1 5) toySubspaces Y N⟩
  have hYR : ∀ i : Fin 5, |1 * ((2 * ((i : ℕ) : ℝ) + 1) / (5 : ℕ) - 1)| < 1 := fun i => by
    have h3 : ((i : ℕ) : ℝ) ≤ 4 := by exact_mod_cast Nat.lt_succ_iff.mp i.2
    have h4 : (0 : ℝ) ≤ (i : ℕ) := Nat.cast_nonneg _
    rw [one_mul, abs_lt]
    constructor <;> push_cast <;> linarith
  have hpr : IsProbabilityMeasure (volume[|Set.Icc (fun _ : Fin 1 => (-1 : ℝ)) fun _ => 1]) :=
    cond_isProbabilityMeasure_of_finite (by rw [Real.volume_Icc_pi]; norm_num) isCompact_Icc.measure_lt_top.ne
  have hz1 : ∀ᵐ z ∂(volume[|Set.Icc (fun _ : Fin 1 => (-1 : ℝ)) fun _ => 1]), z 0 ∈ Set.Icc (-1 : ℝ) 1 := by
    filter_upwards [ae_cond_mem measurableSet_Icc] with z hz
    exact ⟨hz.1 0, hz.2 0⟩
  have hint : Integrable (fun z : Fin 1 → ℝ => z 0) (volume[|Set.Icc (fun _ : Fin 1 => (-1 : ℝ)) fun _ => 1]) := by
    refine Integrable.of_bound (measurable_pi_apply 0).aestronglyMeasurable 1 ?_
    filter_upwards [hz1] with z hz
    exact abs_le.mpr hz
  have hs : ∀ y : Fin 1 → ℝ, |y 0| < 1 → sliceMean (fun x => ∑ j, x j) firstOf secondOf y
      = y 0 + ∫ z, z 0 ∂(volume[|Set.Icc (fun _ : Fin 1 => (-1 : ℝ)) fun _ => 1]) := fun y hy => by
    rw [← sliceMean_eq]
    simp only [toy_sum]
    rw [toy_inactive hy, integral_add (integrable_const _) hint]
    simp
  obtain ⟨g1, mu, lb, ub, g2, -, g3, -⟩ := C144_integrate (a := a) (dl := dl) (lib := lib) (T := 3) (K := 5) (X := X) (F := F) (s := fun ω => (0, ω))
    (R := 1) (Y := fun i _ => 1 * ((2 * (i : ℕ) + 1) / (5 : ℕ) - 1)) (g := fun m x => ∑ j, x j) (L := 1) (v := ((1 - -1) / 2) ^ 2) toySplit rfl h1 rfl (by norm_num)
    (by norm_num) (by rw [Fin.sum_univ_two]; simp) (fun i => rfl) (fun i st => toy_rejection h2 rfl _ _ (hYR i) _) (countRng_law 10000 (1 + 1) 3 1 5)
    (by fun_prop) (fun y y' hy hy' => by
      rw [hs y hy, hs y' hy', one_mul, add_sub_add_right_eq_sub]) (fun y hy => by
      simp only [toy_sum]
      rw [toy_inactive hy, variance_const_add (measurable_pi_apply 0).aestronglyMeasurable]
      exact variance_le_sq_of_bounded hz1 (measurable_pi_apply 0).aemeasurable) rfl rfl
  refine ⟨dl, a, _, mu, lb, ub, rfl, g1, g2, g3.trans ?_⟩
  norm_num

end Props
