import Mathlib.Probability.Independence.InfinitePi
import Mathlib.Probability.Moments.Variance
import Verif.Proofs.Rotation
import Verif.Props.IntegralRules

/-!
# Property C111: `integrate` on an unbounded domain is unbiased
-/

open Py Model.Misc Model.Subspaces Model.QPSolver Model.Domains Model.ResponseSurfaces Model.ActiveSurfaces Model.Quadrature
  Model.Integrals Spec Proofs.Run Proofs.Groups Proofs.Rotation MeasureTheory ProbabilityTheory

namespace Props

variable {S E Ω : Type} {m n k G T r c : ℕ} [MeasurableSpace Ω]

/-- The entries of a random matrix are independent standard normal numbers. -/
structure StdNormal (μ : Measure Ω) (D : Ω → Fin r → Fin c → ℝ) : Prop where
  indep : iIndepFun (fun (p : Fin r × Fin c) ω => D ω p.1 p.2) μ
  law : ∀ p : Fin r × Fin c, HasLaw (fun ω => D ω p.1 p.2) (gaussianReal 0 1) μ

/-- The inactive variables of point `t` for node `i`. -/
def block (D : Ω → Fin (G * k) → Fin T → ℝ) (p : Fin G × Fin T) (ω : Ω) (j : Fin k) : ℝ := D ω (finProdFinEquiv (p.1, j)) p.2

theorem block_law {μ : Measure Ω} {D : Ω → Fin (G * k) → Fin T → ℝ} (h : StdNormal μ D) (p : Fin G × Fin T) :
    HasLaw (block D p) (normal k) μ := by
  have hinj : Function.Injective fun j : Fin k => ((finProdFinEquiv (p.1, j), p.2) : Fin (G * k) × Fin T) := by
    intro a b hab
    have := finProdFinEquiv.injective (Prod.mk.inj hab).1
    exact (Prod.mk.inj this).2
  exact (h.indep.precomp hinj).hasLaw_pi fun j => h.law (finProdFinEquiv (p.1, j), p.2)

theorem block_indep {μ : Measure Ω} {D : Ω → Fin (G * k) → Fin T → ℝ} (h : StdNormal μ D) {p q : Fin G × Fin T} (hpq : p ≠ q) :
    IndepFun (block D p) (block D q) μ := by
  classical
  let ix : Fin G × Fin T → Fin k → Fin (G * k) × Fin T := fun p j => (finProdFinEquiv (p.1, j), p.2)
  have hd : Disjoint (Finset.univ.image (ix p)) (Finset.univ.image (ix q)) := by
    rw [Finset.disjoint_left]
    intro x hx hy
    obtain ⟨a, -, rfl⟩ := Finset.mem_image.mp hx
    obtain ⟨b, -, hb⟩ := Finset.mem_image.mp hy
    obtain ⟨h1, h2⟩ := Prod.mk.inj hb
    exact hpq (Prod.ext (Prod.mk.inj (finProdFinEquiv.injective h1)).1.symm h2.symm)
  have hi := h.indep.indepFun_finset₀ _ _ hd fun i => (h.law i).aemeasurable
  exact hi.comp (φ := fun x (j : Fin k) => x ⟨ix p j, Finset.mem_image_of_mem _ (Finset.mem_univ j)⟩)
    (ψ := fun x (j : Fin k) => x ⟨ix q j, Finset.mem_image_of_mem _ (Finset.mem_univ j)⟩)
    (measurable_pi_lambda _ fun j => measurable_pi_apply _) (measurable_pi_lambda _ fun j => measurable_pi_apply _)

/-! ## What is computed -/

/-- The point with active variables `y` and inactive variables `z`. -/
def pointOf (V1 : Matrix (Fin m) (Fin n) ℝ) (V2 : Matrix (Fin m) (Fin k) ℝ) (y : Fin n → ℝ) (z : Fin k → ℝ) : Fin m → ℝ :=
  V1.mulVec y + V2.mulVec z

variable {a : AVMap S E} {V1 : Matrix (Fin (n + k)) (Fin n) ℝ} {V2 : Matrix (Fin (n + k)) (Fin k) ℝ}

theorem unboundedZ_run (h : Split a.subspaces V1 V2) (rng : Rng S) (Y : Matrix (Fin G) (Fin n) ℝ) (T : ℕ) (w : S × Files × E) :
    (unboundedZ rng a.subspaces (NpMat.of Y) T).run w
      = (.ok (some ⟨G, k, T, fun i j t => (rng.normal (G * k) T w.1).1 (finProdFinEquiv (i, j)) t⟩), ((rng.normal (G * k) T w.1).2, w.2)) := by
  have key : ∀ kk, kk = k → (do
      let D ← Rng.draw (rng.normal (G * kk) T)
      return some (⟨G, kk, T, fun i j t => D (finProdFinEquiv (i, j)) t⟩ : Arr3) : PyM (S × Files × E) _).run w
      = (.ok (some ⟨G, k, T, fun i j t => (rng.normal (G * k) T w.1).1 (finProdFinEquiv (i, j)) t⟩), ((rng.normal (G * k) T w.1).2, w.2)) := by
    rintro kk rfl
    rfl
  unfold unboundedZ
  rw [h.w1]
  exact key _ (Nat.add_sub_cancel_left n k)

/-- C44: the inverse of the unbounded map fills the inactive variables with one draw of normal numbers, taken in C order, and draws nothing else. -/
theorem C44_unbounded {s : Model.Subspaces.Subspaces} (h : Split s V1 V2) (rng : Rng S) (Y : Matrix (Fin G) (Fin n) ℝ) (hT : 0 < T) (w : S × Files × E) :
    ∃ X ind, (unboundedInverse rng s (.mat (NpMat.of Y)) (.int (T : ℤ))).run w = (.ok (some (NpMat.of X, NpMat.of ind)), ((rng.normal (G * k) T w.1).2, w.2)) ∧
      InverseOf V1 V2 Y (fun i j t => (rng.normal (G * k) T w.1).1 (finProdFinEquiv (i, j)) t) X ind := by
  obtain ⟨X, ind, h3, h4⟩ := rotate_x_ok V1 V2 Y fun i j t => (rng.normal (G * k) T w.1).1 (finProdFinEquiv (i, j)) t
  refine ⟨X, ind, ?_, h4⟩
  have hz := unboundedZ_run (a := ⟨.unbounded, s, fun Y N => unboundedZ rng s Y N⟩) h rng Y T w
  unfold unboundedInverse inverse
  have e : process_inputs (.mat (NpMat.of Y)) = .ok (NpMat.of Y) := rfl
  rw [e, PyM.run_bind_ok (PyM.run_lift _ _)]
  dsimp only
  rw [if_neg (by omega), Int.toNat_natCast, PyM.run_bind_ok hz]
  dsimp only
  rw [h.eig]
  dsimp only
  rw [h3]
  rfl

/-- The result in terms of the numbers drawn. -/
theorem integrate_run (h : Split a.subspaces V1 V2) (rng : Rng S) (hz : a.regularize_z = fun Y N => unboundedZ rng a.subspaces Y N)
    (lib : Model.Integrals.Lib) (N : ℤ) (hG : 0 < G) (hT : 0 < T) {Yp : Matrix (Fin G) (Fin n) ℝ} {Yw : Fin G → ℝ} {w : S × Files × E}
    (hr : (av_quadrature_rule lib rng a N).run w = (.ok ⟨NpMat.of Yp, NpMat.of (Matrix.of fun i (_ : Fin 1) => Yw i)⟩, w))
    (g : (m : ℕ) → (Fin m → ℝ) → ℝ) (v : Fin G → Fin T → ℝ)
    (hv : ∀ i t, v i t = g (n + k) (pointOf V1 V2 (Yp i) fun j => (rng.normal (G * k) T w.1).1 (finProdFinEquiv (i, j)) t)) :
    (integrate lib rng (fun m x => pure (g m x)) (some a) (.int N) (.int T)).run w =
      (.ok (some (∑ i, Yw i * meanOn Finset.univ (v i),
        ∑ i, Yw i * meanOn Finset.univ (v i) - 1.96 * Real.sqrt ((∑ i, Yw i ^ 2 * varOn Finset.univ (v i)) / T),
        ∑ i, Yw i * meanOn Finset.univ (v i) + 1.96 * Real.sqrt ((∑ i, Yw i ^ 2 * varOn Finset.univ (v i)) / T))),
        ((rng.normal (G * k) T w.1).2, w.2)) := by
  obtain ⟨X, ind, h3, h4⟩ := rotate_x_ok V1 V2 Yp fun i j t => (rng.normal (G * k) T w.1).1 (finProdFinEquiv (i, j)) t
  have h5 : (a.inverse (.mat (NpMat.of Yp)) (.int T)).run w = (.ok (some (NpMat.of X, NpMat.of ind)), ((rng.normal (G * k) T w.1).2, w.2)) := by
    unfold AVMap.inverse inverse
    have e : process_inputs (.mat (NpMat.of Yp)) = .ok (NpMat.of Yp) := rfl
    rw [e, PyM.run_bind_ok (PyM.run_lift _ _)]
    dsimp only
    rw [if_neg (by omega), Int.toNat_natCast, hz, PyM.run_bind_ok (unboundedZ_run h rng Yp T w)]
    dsimp only
    rw [h.eig]
    dsimp only
    rw [h3]
    rfl
  obtain ⟨F, h6, h7⟩ := C07_pure g X ((rng.normal (G * k) T w.1).2, w.2)
  have h8 := estimate_of hG hT F ind (Matrix.of fun i (_ : Fin 1) => Yw i) h4.index
  have h9 : ∀ i, (fun t : Fin T => F (finProdFinEquiv (i, t)) 0) = v i := fun i => by
    funext t
    rw [h7, hv]
    congr 1
    funext l
    rw [h4.point i t (finProdFinEquiv (i, t)) (by simp [finProdFinEquiv]; ring)]
    rfl
  simp only [h9] at h8
  have hq : (quadrature_rule lib rng (some a) (.int N) (.int T)).run w =
      (.ok (some ⟨NpMat.of X, NpMat.of (Matrix.of fun (r : Fin (G * T)) (_ : Fin 1) => Yw r.divNat / (T : ℝ)), NpMat.of ind⟩),
        ((rng.normal (G * k) T w.1).2, w.2)) := by
    change (ruleBody lib rng a N T).run w = _
    unfold ruleBody
    rw [PyM.run_bind_ok hr, PyM.run_bind_ok h5]
    dsimp only
    rw [Int.toNat_natCast, kronOnes_of]
    rfl
  have e1 : ∀ u : Fin G → ℝ, ∑ i, u i * (Matrix.of fun i (_ : Fin 1) => Yw i : Matrix (Fin G) (Fin 1) ℝ) i 0 = ∑ i, Yw i * u i := fun u =>
    Finset.sum_congr rfl fun i _ => mul_comm _ _
  have e2 : ∀ u : Fin G → ℝ, ∑ i, u i * ((Matrix.of fun i (_ : Fin 1) => Yw i : Matrix (Fin G) (Fin 1) ℝ) i 0 *
      (Matrix.of fun i (_ : Fin 1) => Yw i : Matrix (Fin G) (Fin 1) ℝ) i 0) = ∑ i, Yw i ^ 2 * u i := fun u =>
    Finset.sum_congr rfl fun i _ => by
      change u i * (Yw i * Yw i) = _
      ring
  rw [e1, e2] at h8
  unfold integrate
  rw [PyM.run_bind_ok hq]
  dsimp only
  rw [PyM.run_bind_ok h6]
  refine (congrArg (fun x => PyM.run (do let r ← PyM.lift x; return some r) _) h8).trans ?_
  rfl

/-! ## Mean and variance -/

section moments

variable {μ : Measure Ω} {D : Ω → Fin (G * k) → Fin T → ℝ} {φ : Fin G → (Fin k → ℝ) → ℝ} {c : Fin G → ℝ}

theorem mean_est (h : StdNormal μ D) (hT : 0 < T) (hφ : ∀ i, Integrable (φ i) (normal k)) :
    Integrable (fun ω => ∑ i, c i * meanOn Finset.univ fun t : Fin T => φ i (block D (i, t) ω)) μ ∧
    ∫ ω, ∑ i, c i * meanOn Finset.univ (fun t : Fin T => φ i (block D (i, t) ω)) ∂μ = ∑ i, c i * ∫ z, φ i z ∂(normal k) := by
  have hT' : (T : ℝ) ≠ 0 := by exact_mod_cast hT.ne'
  have hi : ∀ (i : Fin G) (t : Fin T), Integrable (fun ω => φ i (block D (i, t) ω)) μ := fun i t => by
    have := (block_law h (i, t)).map_eq ▸ hφ i
    exact this.comp_aemeasurable (block_law h (i, t)).aemeasurable
  have hm : ∀ i : Fin G, Integrable (fun ω => meanOn Finset.univ fun t : Fin T => φ i (block D (i, t) ω)) μ := fun i =>
    (integrable_finsetSum _ fun t _ => hi i t).div_const _
  refine ⟨integrable_finsetSum _ fun i _ => (hm i).const_mul _, ?_⟩
  rw [integral_finsetSum Finset.univ (f := fun (i : Fin G) ω => c i * meanOn Finset.univ fun t : Fin T => φ i (block D (i, t) ω))
    fun i _ => (hm i).const_mul _]
  refine Finset.sum_congr rfl fun i _ => ?_
  rw [integral_const_mul]
  congr 1
  unfold meanOn
  rw [integral_div, integral_finsetSum Finset.univ (f := fun (t : Fin T) ω => φ i (block D (i, t) ω)) fun t _ => hi i t]
  have e : ∀ t : Fin T, ∫ ω, φ i (block D (i, t) ω) ∂μ = ∫ z, φ i z ∂(normal k) := fun t =>
    (block_law h (i, t)).integral_comp (hφ i).aestronglyMeasurable
  simp only [e]
  rw [Finset.sum_const, Finset.card_univ, Fintype.card_fin, nsmul_eq_mul]
  field_simp

theorem memLp_block (h : StdNormal μ D) (hφ : ∀ i, MemLp (φ i) 2 (normal k)) (i : Fin G) (t : Fin T) :
    MemLp (fun ω => φ i (block D (i, t) ω)) 2 μ := by
  have := (block_law h (i, t)).map_eq ▸ hφ i
  exact this.comp_of_map (block_law h (i, t)).aemeasurable

theorem memLp_est (h : StdNormal μ D) (hφ : ∀ i, MemLp (φ i) 2 (normal k)) :
    MemLp (fun ω => ∑ i, c i * meanOn Finset.univ fun t : Fin T => φ i (block D (i, t) ω)) 2 μ := by
  have h1 : ∀ i : Fin G, MemLp (fun ω => ∑ t : Fin T, φ i (block D (i, t) ω)) 2 μ := fun i =>
    memLp_finsetSum Finset.univ fun t _ => memLp_block h hφ i t
  have h2 : MemLp (fun ω => ∑ i, (c i / T) * ∑ t : Fin T, φ i (block D (i, t) ω)) 2 μ := memLp_finsetSum Finset.univ fun i _ => (h1 i).const_mul _
  have e : (fun ω => ∑ i, c i * meanOn Finset.univ fun t : Fin T => φ i (block D (i, t) ω))
      = fun ω => ∑ i, (c i / T) * ∑ t : Fin T, φ i (block D (i, t) ω) := by
    funext ω
    refine Finset.sum_congr rfl fun i _ => ?_
    unfold meanOn
    rw [Finset.card_univ, Fintype.card_fin]
    ring
  rw [e]
  exact h2

theorem var_block (h : StdNormal μ D) (hφ : ∀ i, MemLp (φ i) 2 (normal k)) (i : Fin G) (t : Fin T) :
    Var[fun ω => φ i (block D (i, t) ω); μ] = Var[φ i; normal k] := by
  rw [← (block_law h (i, t)).map_eq]
  exact (variance_map (by rw [(block_law h (i, t)).map_eq]; exact (hφ i).aestronglyMeasurable.aemeasurable)
    (block_law h (i, t)).aemeasurable).symm

theorem indep_block (h : StdNormal μ D) (hφ : ∀ i, MemLp (φ i) 2 (normal k)) {p q : Fin G × Fin T} (hpq : p ≠ q) :
    IndepFun (fun ω => φ p.1 (block D p ω)) (fun ω => φ q.1 (block D q ω)) μ :=
  (block_indep h hpq).comp₀ (block_law h p).aemeasurable (block_law h q).aemeasurable
    (by rw [(block_law h p).map_eq]; exact (hφ _).aestronglyMeasurable.aemeasurable)
    (by rw [(block_law h q).map_eq]; exact (hφ _).aestronglyMeasurable.aemeasurable)

theorem var_est (h : StdNormal μ D) (hT : 0 < T) (hφ : ∀ i, MemLp (φ i) 2 (normal k)) :
    Var[fun ω => ∑ i, c i * meanOn Finset.univ (fun t : Fin T => φ i (block D (i, t) ω)); μ] = (∑ i, c i ^ 2 * Var[φ i; normal k]) / T := by
  have hT' : (T : ℝ) ≠ 0 := by exact_mod_cast hT.ne'
  have e : (fun ω => ∑ i, c i * meanOn Finset.univ fun t : Fin T => φ i (block D (i, t) ω))
      = ∑ p : Fin G × Fin T, fun ω => (c p.1 / T) * φ p.1 (block D p ω) := by
    funext ω
    rw [Finset.sum_apply, Fintype.sum_prod_type]
    refine Finset.sum_congr rfl fun i _ => ?_
    unfold meanOn
    dsimp only
    rw [Finset.card_univ, Fintype.card_fin, ← Finset.mul_sum]
    ring
  rw [e, IndepFun.variance_sum (X := fun (p : Fin G × Fin T) ω => c p.1 / T * φ p.1 (block D p ω))
    (fun p _ => (memLp_block h hφ p.1 p.2).const_mul _) fun p _ q _ hpq =>
    (indep_block h hφ hpq).comp (measurable_const_mul (c p.1 / (T : ℝ))) (measurable_const_mul (c q.1 / (T : ℝ)))]
  simp only [variance_const_mul, fun p : Fin G × Fin T => var_block h hφ p.1 p.2]
  rw [Fintype.sum_prod_type, Finset.sum_div]
  refine Finset.sum_congr rfl fun i _ => ?_
  dsimp only
  rw [Finset.sum_const, Finset.card_univ, Fintype.card_fin, nsmul_eq_mul]
  field_simp

theorem varOn_eq (hT : 0 < T) (v : Fin T → ℝ) : varOn Finset.univ v = (∑ t, v t ^ 2) / T - meanOn Finset.univ v ^ 2 := by
  have hT' : (T : ℝ) ≠ 0 := by exact_mod_cast hT.ne'
  have h1 : ∑ t, v t = T * meanOn Finset.univ v := by
    unfold meanOn
    rw [Finset.card_univ, Fintype.card_fin]
    field_simp
  unfold varOn
  rw [Finset.card_univ, Fintype.card_fin]
  have e : ∑ t, (v t - meanOn Finset.univ v) ^ 2 = ∑ t, v t ^ 2 - 2 * meanOn Finset.univ v * ∑ t, v t + T * meanOn Finset.univ v ^ 2 := by
    rw [Finset.mul_sum, ← Finset.sum_sub_distrib]
    have : (T : ℝ) * meanOn Finset.univ v ^ 2 = ∑ _t : Fin T, meanOn Finset.univ v ^ 2 := by
      rw [Finset.sum_const, Finset.card_univ, Fintype.card_fin, nsmul_eq_mul]
    rw [this, ← Finset.sum_add_distrib]
    exact Finset.sum_congr rfl fun t _ => by ring
  rw [e, h1]
  field_simp
  ring

theorem mean_varOn [IsProbabilityMeasure μ] (h : StdNormal μ D) (hT : 0 < T) (hφ : ∀ i, MemLp (φ i) 2 (normal k)) (i : Fin G) :
    Integrable (fun ω => varOn Finset.univ fun t : Fin T => φ i (block D (i, t) ω)) μ ∧
    ∫ ω, varOn Finset.univ (fun t : Fin T => φ i (block D (i, t) ω)) ∂μ = (T - 1) / T * Var[φ i; normal k] := by
  classical
  have hT' : (T : ℝ) ≠ 0 := by exact_mod_cast hT.ne'
  have hml := fun t : Fin T => memLp_block h hφ i t
  have hsum : MemLp (fun ω => meanOn Finset.univ fun t : Fin T => φ i (block D (i, t) ω)) 2 μ := by
    unfold meanOn
    simp only [div_eq_inv_mul]
    exact (memLp_finsetSum _ fun t _ => hml t).const_mul _
  have hsq : ∀ t : Fin T, ∫ ω, φ i (block D (i, t) ω) ^ 2 ∂μ = Var[φ i; normal k] + (∫ z, φ i z ∂(normal k)) ^ 2 := fun t => by
    rw [variance_eq_sub (hφ i)]
    have := (block_law h (i, t)).integral_comp (f := fun z => φ i z ^ 2) ((hφ i).aestronglyMeasurable.pow 2)
    refine this.trans ?_
    simp only [Pi.pow_apply, sub_add_cancel]
  have hv := var_est (φ := φ) (c := fun j => if j = i then 1 else 0) h hT hφ
  have hm := (mean_est (φ := φ) (c := fun j => if j = i then 1 else 0) h hT fun i => (hφ i).integrable (by norm_num)).2
  simp only [ite_mul, one_mul, zero_mul, Finset.sum_ite_eq', Finset.mem_univ, if_true, ite_pow, one_pow, ne_eq, OfNat.ofNat_ne_zero,
    not_false_eq_true, zero_pow] at hv hm
  rw [variance_eq_sub hsum, hm] at hv
  simp only [varOn_eq hT]
  have i1 : Integrable (fun ω => (∑ t : Fin T, φ i (block D (i, t) ω) ^ 2) / (T : ℝ)) μ :=
    (integrable_finsetSum _ fun t _ => (hml t).integrable_sq).div_const _
  refine ⟨i1.sub hsum.integrable_sq, ?_⟩
  rw [integral_sub i1 hsum.integrable_sq, integral_div,
    integral_finsetSum Finset.univ (f := fun (t : Fin T) ω => φ i (block D (i, t) ω) ^ 2) fun t _ => (hml t).integrable_sq]
  simp only [hsq]
  rw [Finset.sum_const, Finset.card_univ, Fintype.card_fin, nsmul_eq_mul]
  have e : ∫ ω, (meanOn Finset.univ fun t : Fin T => φ i (block D (i, t) ω)) ^ 2 ∂μ = Var[φ i; normal k] / T + (∫ z, φ i z ∂(normal k)) ^ 2 := by
    rw [← hv]
    simp
  rw [e]
  field_simp
  ring

end moments

/-! ## C111 and C112 -/

section law

variable {μ : Measure Ω} {rng : Rng S} {s : Ω → S} {F : Files × E} {lib : Model.Integrals.Lib} {N : ℤ} {Yp : Matrix (Fin G) (Fin n) ℝ}
  {Yw : Fin G → ℝ} {g : (m : ℕ) → (Fin m → ℝ) → ℝ} {mu lb ub : Ω → ℝ}

/-- The three numbers returned, as functions of the numbers drawn. -/
theorem integrate_eq (h : Split a.subspaces V1 V2) (hz : a.regularize_z = fun Y N => unboundedZ rng a.subspaces Y N) (hG : 0 < G) (hT : 0 < T)
    (hr : ∀ ω, (av_quadrature_rule lib rng a N).run (s ω, F)
      = (.ok ⟨NpMat.of Yp, NpMat.of (Matrix.of fun i (_ : Fin 1) => Yw i)⟩, (s ω, F)))
    (hrun : ∀ ω, ∃ w', (integrate lib rng (fun m x => pure (g m x)) (some a) (.int N) (.int T)).run (s ω, F)
      = (.ok (some (mu ω, lb ω, ub ω)), w')) :
    let v := fun (i : Fin G) (ω : Ω) (t : Fin T) =>
      g (n + k) (pointOf V1 V2 (Yp i) (block (fun ω => (rng.normal (G * k) T (s ω)).1) (i, t) ω))
    (mu = fun ω => ∑ i, Yw i * meanOn Finset.univ (v i ω)) ∧
    (lb = fun ω => mu ω - 1.96 * Real.sqrt ((∑ i, Yw i ^ 2 * varOn Finset.univ (v i ω)) / T)) ∧
    (ub = fun ω => mu ω + 1.96 * Real.sqrt ((∑ i, Yw i ^ 2 * varOn Finset.univ (v i ω)) / T)) := by
  intro v
  have key : ∀ ω, mu ω = ∑ i, Yw i * meanOn Finset.univ (v i ω) ∧
      lb ω = mu ω - 1.96 * Real.sqrt ((∑ i, Yw i ^ 2 * varOn Finset.univ (v i ω)) / T) ∧
      ub ω = mu ω + 1.96 * Real.sqrt ((∑ i, Yw i ^ 2 * varOn Finset.univ (v i ω)) / T) := fun ω => by
    obtain ⟨w', h1⟩ := hrun ω
    have h2 := integrate_run h rng hz lib N hG hT (hr ω) g (fun i => v i ω) fun i t => rfl
    have h3 := Option.some.inj (Except.ok.inj (Prod.mk.inj (h1.symm.trans h2)).1)
    obtain ⟨e1, h4⟩ := Prod.mk.inj h3
    obtain ⟨e2, e3⟩ := Prod.mk.inj h4
    rw [e2, e3, e1]
    exact ⟨rfl, rfl, rfl⟩
  exact ⟨funext fun ω => (key ω).1, funext fun ω => (key ω).2.1, funext fun ω => (key ω).2.2⟩

/-- C111: with independent standard normal numbers, the mean of the estimate is the rule on the active variables applied to the conditional
means of the function. -/
theorem C111_unbiased (h : Split a.subspaces V1 V2) (hz : a.regularize_z = fun Y N => unboundedZ rng a.subspaces Y N) (hG : 0 < G) (hT : 0 < T)
    (hD : StdNormal μ fun ω => (rng.normal (G * k) T (s ω)).1)
    (hr : ∀ ω, (av_quadrature_rule lib rng a N).run (s ω, F)
      = (.ok ⟨NpMat.of Yp, NpMat.of (Matrix.of fun i (_ : Fin 1) => Yw i)⟩, (s ω, F)))
    (hg : ∀ i, Integrable (fun z => g (n + k) (V1.mulVec (Yp i) + V2.mulVec z)) (Measure.pi fun _ : Fin k => gaussianReal 0 1))
    (hrun : ∀ ω, ∃ w', (integrate lib rng (fun m x => pure (g m x)) (some a) (.int N) (.int T)).run (s ω, F)
      = (.ok (some (mu ω, lb ω, ub ω)), w')) :
    Integrable mu μ ∧
    ∫ ω, mu ω ∂μ = ∑ i, Yw i * ∫ z, g (n + k) (V1.mulVec (Yp i) + V2.mulVec z) ∂(Measure.pi fun _ : Fin k => gaussianReal 0 1) := by
  obtain ⟨h1, -, -⟩ := integrate_eq h hz hG hT hr hrun
  have h2 := mean_est (φ := fun i z => g (n + k) (V1.mulVec (Yp i) + V2.mulVec z)) (c := Yw) hD hT hg
  rw [h1]
  exact h2

/-- C111: `integrate` returns for every function that does not raise. -/
theorem C111_returns (h : Split a.subspaces V1 V2) (hz : a.regularize_z = fun Y N => unboundedZ rng a.subspaces Y N) (hG : 0 < G) (hT : 0 < T)
    (hr : ∀ ω, (av_quadrature_rule lib rng a N).run (s ω, F)
      = (.ok ⟨NpMat.of Yp, NpMat.of (Matrix.of fun i (_ : Fin 1) => Yw i)⟩, (s ω, F))) (g : (m : ℕ) → (Fin m → ℝ) → ℝ) :
    ∃ mu lb ub : Ω → ℝ, ∀ ω, ∃ w', (integrate lib rng (fun m x => pure (g m x)) (some a) (.int N) (.int T)).run (s ω, F)
      = (.ok (some (mu ω, lb ω, ub ω)), w') :=
  ⟨_, _, _, fun ω => ⟨_, integrate_run h rng hz lib N hG hT (hr ω) g _ fun _ _ => rfl⟩⟩

/-- C111: the variance of the estimate is the sum of the conditional variances at the nodes, times the squares of the weights, over the
number of points for each node. -/
theorem C111_variance (h : Split a.subspaces V1 V2) (hz : a.regularize_z = fun Y N => unboundedZ rng a.subspaces Y N) (hG : 0 < G) (hT : 0 < T)
    (hD : StdNormal μ fun ω => (rng.normal (G * k) T (s ω)).1)
    (hr : ∀ ω, (av_quadrature_rule lib rng a N).run (s ω, F)
      = (.ok ⟨NpMat.of Yp, NpMat.of (Matrix.of fun i (_ : Fin 1) => Yw i)⟩, (s ω, F)))
    (hg : ∀ i, MemLp (fun z => g (n + k) (V1.mulVec (Yp i) + V2.mulVec z)) 2 (Measure.pi fun _ : Fin k => gaussianReal 0 1))
    (hrun : ∀ ω, ∃ w', (integrate lib rng (fun m x => pure (g m x)) (some a) (.int N) (.int T)).run (s ω, F)
      = (.ok (some (mu ω, lb ω, ub ω)), w')) :
    Var[mu; μ] = (∑ i, Yw i ^ 2 * Var[fun z => g (n + k) (V1.mulVec (Yp i) + V2.mulVec z); Measure.pi fun _ : Fin k => gaussianReal 0 1]) / T := by
  obtain ⟨h1, -, -⟩ := integrate_eq h hz hG hT hr hrun
  have h2 := var_est (φ := fun i z => g (n + k) (V1.mulVec (Yp i) + V2.mulVec z)) (c := Yw) hD hT hg
  rw [h1]
  exact h2

/-- C111: under the same assumption the estimate has a finite second moment. -/
theorem C111_square (h : Split a.subspaces V1 V2) (hz : a.regularize_z = fun Y N => unboundedZ rng a.subspaces Y N) (hG : 0 < G) (hT : 0 < T)
    (hD : StdNormal μ fun ω => (rng.normal (G * k) T (s ω)).1)
    (hr : ∀ ω, (av_quadrature_rule lib rng a N).run (s ω, F)
      = (.ok ⟨NpMat.of Yp, NpMat.of (Matrix.of fun i (_ : Fin 1) => Yw i)⟩, (s ω, F)))
    (hg : ∀ i, MemLp (fun z => g (n + k) (V1.mulVec (Yp i) + V2.mulVec z)) 2 (Measure.pi fun _ : Fin k => gaussianReal 0 1))
    (hrun : ∀ ω, ∃ w', (integrate lib rng (fun m x => pure (g m x)) (some a) (.int N) (.int T)).run (s ω, F)
      = (.ok (some (mu ω, lb ω, ub ω)), w')) :
    MemLp mu 2 μ := by
  obtain ⟨h1, -, -⟩ := integrate_eq h hz hG hT hr hrun
  have h2 := memLp_est (φ := fun i z => g (n + k) (V1.mulVec (Yp i) + V2.mulVec z)) (c := Yw) (T := T) hD hg
  rw [h1]
  exact h2

/-- C111: if the rule has `q^n` nodes and the function, in the active variables, is a polynomial of degree at most `2q-1` in each of them,
the estimate is unbiased: its mean is the integral of the function against the standard normal weight on all inputs. -/
theorem C111_exact (h : Split a.subspaces V1 V2) (hz : a.regularize_z = fun Y N => unboundedZ rng a.subspaces Y N) (hd : a.dom = .unbounded)
    (hn : 1 ≤ n) (hq : Proofs.Quadrature.LibOK lib.base.quad) (hN : 1 ≤ N) (hs : (n : ℤ) * 2 ^ n * N ≤ 2 ^ 45)
    (hroot : DoubleRoot N n (lib.base.root N n)) (hT : 0 < T) (hD : StdNormal μ fun ω => (rng.normal (G * k) T (s ω)).1) [Nonempty Ω]
    (hr : ∀ ω, (av_quadrature_rule lib rng a N).run (s ω, F)
      = (.ok ⟨NpMat.of Yp, NpMat.of (Matrix.of fun i (_ : Fin 1) => Yw i)⟩, (s ω, F)))
    {q : ℕ} (hqG : q ^ n = G) (hq3 : q ≤ 10 ^ 11)
    (hg : Integrable (g (n + k)) (Measure.pi fun _ : Fin (n + k) => gaussianReal 0 1))
    (hgi : ∀ i, Integrable (fun z => g (n + k) (V1.mulVec (Yp i) + V2.mulVec z)) (Measure.pi fun _ : Fin k => gaussianReal 0 1))
    (hp : ∀ z, ∃ p : MvPolynomial (Fin n) ℝ, (∀ j, p.degreeOf j ≤ 2 * q - 1) ∧
      ∀ y, g (n + k) (V1.mulVec y + V2.mulVec z) = MvPolynomial.eval y p)
    (hrun : ∀ ω, ∃ w', (integrate lib rng (fun m x => pure (g m x)) (some a) (.int N) (.int T)).run (s ω, F)
      = (.ok (some (mu ω, lb ω, ub ω)), w')) :
    ∫ ω, mu ω ∂μ = ∫ x, g (n + k) x ∂(Measure.pi fun _ : Fin (n + k) => gaussianReal 0 1) := by
  obtain ⟨ω⟩ := ‹Nonempty Ω›
  obtain ⟨-, q', h1, -, -, -, h2, -, -, -, h3⟩ := C60_rule_partial hd h.w1 hn hq rng hN hs hroot (hr ω)
  have h2' : G = q' ^ n := h2
  obtain rfl : q' = q := Nat.pow_left_injective (by omega : n ≠ 0) (h2'.symm.trans hqG.symm)
  have hG : 0 < G := by
    rw [h2']
    exact Nat.pow_pos h1
  rw [(C111_unbiased h hz hG hT hD hr hgi hrun).2]
  have hex : ∀ p : MvPolynomial (Fin n) ℝ, (∀ j, p.degreeOf j ≤ 2 * q' - 1) →
      ∑ i, Yw i * MvPolynomial.eval (Yp i) p = ∫ y, MvPolynomial.eval y p ∂(normal n) := fun p hp => by
    rw [← h3 hq3 p hp]
    refine Finset.sum_congr (s₁ := (Finset.univ : Finset (Fin G))) rfl fun i _ => ?_
    have e1 : (NpMat.of (Matrix.of fun i (_ : Fin 1) => Yw i)).get i 0 = Yw i := NpMat.get_of _ i 0
    have e2 : ∀ j : Fin n, (NpMat.of Yp).get i j = Yp i j := fun j => NpMat.get_of _ i j
    rw [e1]
    simp only [e2]
  have hrot := rotate h.orth11 h.orth12 h.orth22
  have hgp : Integrable (fun p : (Fin n → ℝ) × (Fin k → ℝ) => g (n + k) (V1.mulVec p.1 + V2.mulVec p.2)) ((normal n).prod (normal k)) :=
    hrot.integrable_comp_of_integrable hg
  calc ∑ i, Yw i * ∫ z, g (n + k) (V1.mulVec (Yp i) + V2.mulVec z) ∂(normal k)
      = ∫ z, ∑ i, Yw i * g (n + k) (V1.mulVec (Yp i) + V2.mulVec z) ∂(normal k) := by
        rw [integral_finsetSum Finset.univ (f := fun (i : Fin G) z => Yw i * g (n + k) (V1.mulVec (Yp i) + V2.mulVec z))
          fun i _ => (hgi i).const_mul _]
        simp only [integral_const_mul]
    _ = ∫ z, ∫ y, g (n + k) (V1.mulVec y + V2.mulVec z) ∂(normal n) ∂(normal k) := by
        refine integral_congr_ae (Filter.Eventually.of_forall fun z => ?_)
        obtain ⟨p, hp1, hp2⟩ := hp z
        simp only [hp2]
        exact hex p hp1
    _ = ∫ p, g (n + k) (V1.mulVec p.1 + V2.mulVec p.2) ∂((normal n).prod (normal k)) := (integral_prod_symm _ hgp).symm
    _ = ∫ x, g (n + k) x ∂(normal (n + k)) := by
        rw [← hrot.map_eq, integral_map hrot.aemeasurable (by rw [hrot.map_eq]; exact hg.aestronglyMeasurable)]

/-- C111: so the estimate is unbiased for every polynomial of total degree at most `2q-1`. -/
theorem C111_polynomial (h : Split a.subspaces V1 V2) (hz : a.regularize_z = fun Y N => unboundedZ rng a.subspaces Y N) (hd : a.dom = .unbounded)
    (hn : 1 ≤ n) (hq : Proofs.Quadrature.LibOK lib.base.quad) (hN : 1 ≤ N) (hs : (n : ℤ) * 2 ^ n * N ≤ 2 ^ 45)
    (hroot : DoubleRoot N n (lib.base.root N n)) (hT : 0 < T) (hD : StdNormal μ fun ω => (rng.normal (G * k) T (s ω)).1) [Nonempty Ω]
    (hr : ∀ ω, (av_quadrature_rule lib rng a N).run (s ω, F)
      = (.ok ⟨NpMat.of Yp, NpMat.of (Matrix.of fun i (_ : Fin 1) => Yw i)⟩, (s ω, F)))
    {q : ℕ} (hqG : q ^ n = G) (hq3 : q ≤ 10 ^ 11) (p : MvPolynomial (Fin (n + k)) ℝ) (hp : p.totalDegree ≤ 2 * q - 1)
    (hg : ∀ x, g (n + k) x = MvPolynomial.eval x p)
    (hrun : ∀ ω, ∃ w', (integrate lib rng (fun m x => pure (g m x)) (some a) (.int N) (.int T)).run (s ω, F)
      = (.ok (some (mu ω, lb ω, ub ω)), w')) :
    ∫ ω, mu ω ∂μ = ∫ x, MvPolynomial.eval x p ∂(Measure.pi fun _ : Fin (n + k) => gaussianReal 0 1) := by
  have hg' : g (n + k) = fun x => MvPolynomial.eval x p := funext hg
  rw [← hg']
  refine C111_exact h hz hd hn hq hN hs hroot hT hD hr hqG hq3 ?_ (fun i => ?_) (fun z => ?_) hrun
  · rw [hg']
    exact integrable_poly p
  · have e : (fun z : Fin k → ℝ => g (n + k) (V1.mulVec (Yp i) + V2.mulVec z)) = fun z => MvPolynomial.eval z
        (MvPolynomial.bind₁ (fun l => MvPolynomial.C (V1.mulVec (Yp i) l) + ∑ j, MvPolynomial.C (V2 l j) * MvPolynomial.X j) p) := by
      funext z
      rw [hg, eval_bind]
      congr 2
      funext l
      simp [Matrix.mulVec, dotProduct]
    rw [e]
    exact integrable_poly _
  · refine ⟨MvPolynomial.bind₁ (fun l => ∑ j, MvPolynomial.C (V1 l j) * MvPolynomial.X j + MvPolynomial.C (V2.mulVec z l)) p, fun j => ?_, fun y => ?_⟩
    · exact (MvPolynomial.degreeOf_le_totalDegree _ j).trans ((totalDegree_bind _ (fun l => totalDegree_affine _ _) p).trans hp)
    · rw [hg, eval_bind]
      congr 2
      funext l
      simp [Matrix.mulVec, dotProduct]

/-- C112: the mean of the squared standard error behind the bounds is the variance of the estimate times `(NMC-1)/NMC`. -/
theorem C112_width_partial [IsProbabilityMeasure μ] (h : Split a.subspaces V1 V2)
    (hz : a.regularize_z = fun Y N => unboundedZ rng a.subspaces Y N) (hG : 0 < G) (hT : 0 < T)
    (hD : StdNormal μ fun ω => (rng.normal (G * k) T (s ω)).1)
    (hr : ∀ ω, (av_quadrature_rule lib rng a N).run (s ω, F)
      = (.ok ⟨NpMat.of Yp, NpMat.of (Matrix.of fun i (_ : Fin 1) => Yw i)⟩, (s ω, F)))
    (hg : ∀ i, MemLp (fun z => g (n + k) (V1.mulVec (Yp i) + V2.mulVec z)) 2 (Measure.pi fun _ : Fin k => gaussianReal 0 1))
    (hrun : ∀ ω, ∃ w', (integrate lib rng (fun m x => pure (g m x)) (some a) (.int N) (.int T)).run (s ω, F)
      = (.ok (some (mu ω, lb ω, ub ω)), w')) :
    ∫ ω, ((ub ω - lb ω) / (2 * 1.96)) ^ 2 ∂μ = (T - 1) / T * Var[mu; μ] := by
  obtain ⟨-, h2, h3⟩ := integrate_eq h hz hG hT hr hrun
  have hm := fun i => mean_varOn (φ := fun i z => g (n + k) (V1.mulVec (Yp i) + V2.mulVec z)) hD hT hg i
  have e : ∀ ω, ((ub ω - lb ω) / (2 * 1.96)) ^ 2 = (∑ i, Yw i ^ 2 * varOn Finset.univ fun t : Fin T =>
      g (n + k) (V1.mulVec (Yp i) + V2.mulVec (block (fun ω => (rng.normal (G * k) T (s ω)).1) (i, t) ω))) / T := fun ω => by
    have hnn : 0 ≤ (∑ i, Yw i ^ 2 * varOn Finset.univ fun t : Fin T =>
        g (n + k) (V1.mulVec (Yp i) + V2.mulVec (block (fun ω => (rng.normal (G * k) T (s ω)).1) (i, t) ω))) / (T : ℝ) :=
      div_nonneg (Finset.sum_nonneg fun i _ => mul_nonneg (sq_nonneg _) (div_nonneg (Finset.sum_nonneg fun _ _ => sq_nonneg _) (by positivity)))
        (by positivity)
    rw [← Real.sq_sqrt hnn, congrFun h2 ω, congrFun h3 ω]
    congr 1
    unfold pointOf
    ring
  simp only [e]
  rw [C111_variance h hz hG hT hD hr hg hrun, integral_div, integral_finsetSum Finset.univ (f := fun (i : Fin G) ω => Yw i ^ 2 *
    varOn Finset.univ fun t : Fin T => g (n + k) (V1.mulVec (Yp i) + V2.mulVec (block (fun ω => (rng.normal (G * k) T (s ω)).1) (i, t) ω)))
    fun i _ => (hm i).1.const_mul _]
  simp only [integral_const_mul, fun i => (hm i).2]
  rw [← mul_div_assoc, Finset.mul_sum]
  congr 1
  exact Finset.sum_congr rfl fun i _ => by ring

/-- C112: so the squared standard error is too small on average, for every `NMC`, unless the estimate is constant. -/
theorem C112_refuted [IsProbabilityMeasure μ] (h : Split a.subspaces V1 V2)
    (hz : a.regularize_z = fun Y N => unboundedZ rng a.subspaces Y N) (hG : 0 < G) (hT : 0 < T)
    (hD : StdNormal μ fun ω => (rng.normal (G * k) T (s ω)).1)
    (hr : ∀ ω, (av_quadrature_rule lib rng a N).run (s ω, F)
      = (.ok ⟨NpMat.of Yp, NpMat.of (Matrix.of fun i (_ : Fin 1) => Yw i)⟩, (s ω, F)))
    (hg : ∀ i, MemLp (fun z => g (n + k) (V1.mulVec (Yp i) + V2.mulVec z)) 2 (Measure.pi fun _ : Fin k => gaussianReal 0 1))
    (hrun : ∀ ω, ∃ w', (integrate lib rng (fun m x => pure (g m x)) (some a) (.int N) (.int T)).run (s ω, F)
      = (.ok (some (mu ω, lb ω, ub ω)), w'))
    {i : Fin G} (hi : Yw i ≠ 0) (hvar : Var[fun z => g (n + k) (V1.mulVec (Yp i) + V2.mulVec z); Measure.pi fun _ : Fin k => gaussianReal 0 1] ≠ 0) :
    ∫ ω, ((ub ω - lb ω) / (2 * 1.96)) ^ 2 ∂μ < Var[mu; μ] ∧ (T = 1 → lb = mu ∧ ub = mu) := by
  have hT' : (0 : ℝ) < T := by exact_mod_cast hT
  have hpos : 0 < Var[mu; μ] := by
    rw [C111_variance h hz hG hT hD hr hg hrun]
    refine div_pos (Finset.sum_pos' (fun j _ => mul_nonneg (sq_nonneg _) (variance_nonneg _ _)) ⟨i, Finset.mem_univ i, ?_⟩) hT'
    exact mul_pos (by positivity) (lt_of_le_of_ne (variance_nonneg _ _) hvar.symm)
  refine ⟨?_, ?_⟩
  · rw [C112_width_partial h hz hG hT hD hr hg hrun]
    have : (T - 1 : ℝ) / T < 1 := by
      rw [div_lt_one hT']
      linarith
    nlinarith
  · rintro rfl
    obtain ⟨-, h2, h3⟩ := integrate_eq h hz hG hT hr hrun
    have e : ∀ v : Fin 1 → ℝ, varOn Finset.univ v = 0 := fun v => by simp [varOn, meanOn]
    simp only [e, mul_zero, Finset.sum_const_zero, zero_div, Real.sqrt_zero, sub_zero, add_zero] at h2 h3
    exact ⟨h2, h3⟩

end law

/-! ## Examples -/

/-- On an unbounded domain the rule does not depend on the state. -/
theorem rule_const (hd : a.dom = .unbounded) {lib : Model.Integrals.Lib} {rng : Rng S} {N : ℤ} {w : S × Files × E} {r : Rule}
    (h : (av_quadrature_rule lib rng a N).run w = (.ok r, w)) (w' : S × Files × E) : (av_quadrature_rule lib rng a N).run w' = (.ok r, w') := by
  unfold av_quadrature_rule at h ⊢
  cases hW : a.subspaces.W1 with
  | none =>
    rw [hW] at h
    exact absurd (Prod.mk.inj h).1 (by simp)
  | some W =>
    rw [hW, hd] at h
    dsimp only at h ⊢
    rw [hd]
    dsimp only
    obtain ⟨NN, w1, h1, h2⟩ := bind_inv h
    obtain ⟨h3, rfl⟩ := lift_inv h1
    obtain ⟨h4, -⟩ := lift_inv h2
    rw [h3, PyM.run_bind_ok (PyM.run_lift _ _), h4]
    rfl

/-- A stream of numbers. -/
def streamRng : Rng (ℕ → ℝ) where
  seeded _ := 0
  normal r c s := (Matrix.of fun i j => s (finProdFinEquiv (i, j) : Fin (r * c)), fun i => s (i + r * c))
  uniform _ _ s := (0, s)
  randint _ s := (0, s)

theorem streamRng_normal (r c : ℕ) : StdNormal (Measure.infinitePi fun _ : ℕ => gaussianReal 0 1) fun ω => (streamRng.normal r c ω).1 := by
  refine ⟨?_, fun p => (measurePreserving_eval_infinitePi (fun _ : ℕ => gaussianReal 0 1) (finProdFinEquiv p : Fin (r * c))).hasLaw⟩
  have hi := iIndepFun_infinitePi (P := fun _ : ℕ => gaussianReal 0 1) (X := fun _ x => x) fun _ => measurable_id
  exact hi.precomp (g := fun p : Fin r × Fin c => ((finProdFinEquiv p : Fin (r * c)) : ℕ)) fun p q h =>
    finProdFinEquiv.injective (Fin.ext h)

/-- The map of two normal variables, the first one active. -/
noncomputable def normalMap (E : Type) : AVMap (ℕ → ℝ) E :=
  ⟨.unbounded, toySubspaces, fun Y N => unboundedZ streamRng toySubspaces Y N⟩

/-- The rule with three nodes. -/
theorem normalMap_rule {lib : Model.Integrals.Lib} (hq : Proofs.Quadrature.LibOK lib.base.quad)
    (heig : ∀ {n : ℕ} (A : Matrix (Fin n) (Fin n) ℝ), A.transpose = A → ∃ eV, lib.base.quad.eig A = .ok eV)
    (hroot : DoubleRoot 3 1 (lib.base.root 3 1)) (w0 : (ℕ → ℝ) × Files × E) : ∃ (Yp : Matrix (Fin 3) (Fin 1) ℝ) (Yw : Fin 3 → ℝ),
      (∀ i, 0 < Yw i) ∧ ∀ w, (av_quadrature_rule lib streamRng (normalMap E) 3).run w
        = (.ok ⟨NpMat.of Yp, NpMat.of (Matrix.of fun i (_ : Fin 1) => Yw i)⟩, w) := by
  have hs : Split (normalMap E).subspaces _ _ := toySplit
  obtain ⟨r, hr⟩ := C60_returns (a := normalMap E) rfl hs.w1 le_rfl heig streamRng (N := 3) (by norm_num) (by norm_num) hroot w0
  obtain ⟨-, q, h1, h2, -, h3, h4, -, h5, -, -⟩ := C60_rule_partial (a := normalMap E) rfl hs.w1 le_rfl hq streamRng (N := 3) (by norm_num)
    (by norm_num) hroot hr
  have h3 := h3 (.inr (by simpa using Proofs.Doubles.isDouble_int (z := 1) (by norm_num)))
  simp only [pow_one] at h2 h3 h4
  obtain rfl : q = 3 := by omega
  obtain ⟨e1, e2, e3⟩ := av_rule_shape lib streamRng (normalMap E) _ hs.w1 (by rintro b ⟨⟩) 3 _ _ _ hr
  obtain ⟨⟨G, c, Yp⟩, ⟨G', c', Yw⟩⟩ := r
  change c = 1 at e1
  change G' = G at e2
  change c' = 1 at e3
  change G = 3 at h4
  subst e1 e3 e2 h4
  refine ⟨Yp, fun i => Yw i 0, fun i => ?_, fun w => ?_⟩
  · have := h5 i
    exact this.trans_eq (NpMat.get_of Yw i 0)
  · rw [rule_const rfl hr w]
    congr 3
    congr 1
    ext i j
    rw [Subsingleton.elim j 0]
    rfl

/-- C111: two normal variables, the first one active, three nodes and two points for each: the estimate of the integral of `x² y²` is
unbiased. -/
example {lib : Model.Integrals.Lib} (hq : Proofs.Quadrature.LibOK lib.base.quad)
    (heig : ∀ {n : ℕ} (A : Matrix (Fin n) (Fin n) ℝ), A.transpose = A → ∃ eV, lib.base.quad.eig A = .ok eV)
    (hroot : DoubleRoot 3 1 (lib.base.root 3 1)) (F : Files × E) : ∃ mu lb ub : (ℕ → ℝ) → ℝ,
      (∀ ω, ∃ w', (integrate lib streamRng (fun _ x => pure (∏ j, x j ^ 2)) (some (normalMap E)) (.int 3) (.int (2 : ℕ))).run (ω, F)
        = (.ok (some (mu ω, lb ω, ub ω)), w')) ∧
      ∫ ω, mu ω ∂(Measure.infinitePi fun _ : ℕ => gaussianReal 0 1)
        = ∫ x : Fin 2 → ℝ, MvPolynomial.eval x (MvPolynomial.X 0 ^ 2 * MvPolynomial.X 1 ^ 2) ∂(Measure.pi fun _ : Fin 2 => gaussianReal 0 1) := by
  obtain ⟨Yp, Yw, -, hr⟩ := normalMap_rule hq heig hroot ((0 : ℕ → ℝ), F)
  obtain ⟨mu, lb, ub, hrun⟩ := C111_returns (Ω := ℕ → ℝ) (s := id) (a := normalMap E) (T := 2) toySplit rfl (by norm_num) (by norm_num)
    (fun ω => hr (ω, F)) fun m x => ∏ j, x j ^ 2
  refine ⟨mu, lb, ub, hrun, ?_⟩
  refine C111_polynomial (s := id) (a := normalMap E) (T := 2) (q := 3) (k := 1) toySplit rfl rfl le_rfl hq (by norm_num) (by norm_num) hroot
    (by norm_num) (streamRng_normal (3 * 1) 2) (fun ω => hr (ω, F)) (by norm_num) (by norm_num) (MvPolynomial.X 0 ^ 2 * MvPolynomial.X 1 ^ 2)
    ?_ ?_ hrun
  · refine (MvPolynomial.totalDegree_mul _ _).trans ?_
    refine (add_le_add (MvPolynomial.totalDegree_pow _ _) (MvPolynomial.totalDegree_pow _ _)).trans ?_
    simp
  · intro x
    have := Fin.prod_univ_two fun j : Fin 2 => x j ^ 2
    simp only [map_mul, map_pow, MvPolynomial.eval_X]
    exact this

/-- C44: two points for each of the values 3, 4 of the active variable: the first coordinate is that value. -/
example (rng : Rng S) (w : S × Files × E) : ∃ (X : Matrix (Fin (2 * 2)) (Fin (1 + 1)) ℝ) (ind : Matrix (Fin (2 * 2)) (Fin 1) ℝ) (w' : S × Files × E),
    (unboundedInverse rng toySubspaces (.mat (NpMat.of !![3; 4])) (.int (2 : ℕ))).run w = (.ok (some (NpMat.of X, NpMat.of ind)), w') ∧
    X ⟨1, by norm_num⟩ 0 = 3 ∧ X ⟨2, by norm_num⟩ 0 = 4 := by
  obtain ⟨X, ind, h1, h2⟩ := C44_unbounded toySplit rng !![3; 4] (T := 2) (by norm_num) w
  refine ⟨X, ind, _, h1, ?_, ?_⟩
  · rw [h2.point 0 1 ⟨1, by norm_num⟩ (by norm_num)]
    simp
  · rw [h2.point 1 0 ⟨2, by norm_num⟩ (by norm_num)]
    simp

/-- C112: the same rule with one point for each node: for `f(x, y) = y` the bounds always have width zero, but the estimate is random. -/
example {lib : Model.Integrals.Lib} (hq : Proofs.Quadrature.LibOK lib.base.quad)
    (heig : ∀ {n : ℕ} (A : Matrix (Fin n) (Fin n) ℝ), A.transpose = A → ∃ eV, lib.base.quad.eig A = .ok eV)
    (hroot : DoubleRoot 3 1 (lib.base.root 3 1)) (F : Files × E) : ∃ mu lb ub : (ℕ → ℝ) → ℝ,
      (∀ ω, ∃ w', (integrate lib streamRng (fun m x => pure (if h : 1 < m then x ⟨1, h⟩ else 0)) (some (normalMap E)) (.int 3)
        (.int (1 : ℕ))).run (ω, F) = (.ok (some (mu ω, lb ω, ub ω)), w')) ∧ lb = mu ∧ ub = mu ∧
      0 < Var[mu; Measure.infinitePi fun _ : ℕ => gaussianReal 0 1] := by
  obtain ⟨Yp, Yw, hw, hr⟩ := normalMap_rule hq heig hroot ((0 : ℕ → ℝ), F)
  obtain ⟨mu, lb, ub, hrun⟩ := C111_returns (Ω := ℕ → ℝ) (s := id) (a := normalMap E) (T := 1) toySplit rfl (by norm_num) (by norm_num)
    (fun ω => hr (ω, F)) fun m x => if h : 1 < m then x ⟨1, h⟩ else 0
  have e : ∀ i : Fin 3, (fun z : Fin 1 → ℝ => (fun (m : ℕ) (x : Fin m → ℝ) => if h : 1 < m then x ⟨1, h⟩ else 0) (1 + 1)
      ((Matrix.of fun (i : Fin (1 + 1)) (_ : Fin 1) => if i = 0 then (1 : ℝ) else 0).mulVec (Yp i) +
        (Matrix.of fun (i : Fin (1 + 1)) (_ : Fin 1) => if i = 1 then (1 : ℝ) else 0).mulVec z)) = fun z => z 0 := fun i => by
    funext z
    simp [Matrix.mulVec, dotProduct]
  have hl : HasLaw (fun z : Fin 1 → ℝ => z 0) (gaussianReal 0 1) (Measure.pi fun _ : Fin 1 => gaussianReal 0 1) :=
    (measurePreserving_eval (fun _ : Fin 1 => gaussianReal 0 1) 0).hasLaw
  have hm : MemLp (fun z : Fin 1 → ℝ => z 0) 2 (Measure.pi fun _ : Fin 1 => gaussianReal 0 1) :=
    (memLp_id_gaussianReal' 2 (by simp)).comp_measurePreserving (measurePreserving_eval (fun _ : Fin 1 => gaussianReal 0 1) 0)
  have h1 := C112_refuted (s := id) (a := normalMap E) (T := 1) (k := 1) toySplit rfl (by norm_num) (by norm_num) (streamRng_normal (3 * 1) 1)
    (fun ω => hr (ω, F)) (fun i => by rw [e]; exact hm) hrun (hw 0).ne' (by
      rw [e, hl.variance_eq, variance_id_gaussianReal]
      norm_num)
  refine ⟨mu, lb, ub, hrun, (h1.2 rfl).1, (h1.2 rfl).2, lt_of_le_of_lt (integral_nonneg fun ω => sq_nonneg _) h1.1⟩

end Props
