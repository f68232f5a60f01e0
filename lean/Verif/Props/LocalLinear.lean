import Mathlib.Tactic.FinCases
import Mathlib.Tactic.NormNum
import Mathlib.Analysis.Complex.ExponentialBounds
import Verif.Proofs.Gradients
import Verif.Proofs.SimRunners
import Verif.Proofs.LeastSquares

/-!
# Properties C12-C14: `local_linear_gradients`
-/

open Py Model.Gradients Proofs.SimRunners

namespace Props

variable {W : Type} {M m : ℕ}

/-- The library behaves as documented. -/
structure LibOK (lib : Lib) : Prop where
  argsort : ∀ {n : ℕ} (v : Fin n → ℝ), Spec.IsArgsort v (lib.argsort v)
  lstsq : ∀ {r c : ℕ} (A : Matrix (Fin r) (Fin c) ℝ) (b : Fin r → ℝ), Spec.IsLeastSquares A b (lib.lstsq A b) ∧
    ∀ v, Spec.IsLeastSquares A b v → Spec.sqNorm (lib.lstsq A b) ≤ Spec.sqNorm v

/-- `np.random.randint(M)` always returns (for `M ≥ 1`). -/
def RandintOK (randint : PyM W (Fin M)) : Prop := ∀ w, ∃ i w', randint.run w = (.ok i, w')

/-- Such a library exists. -/
theorem libOK_exists : ∃ lib, LibOK lib := by
  obtain ⟨lstsq, h⟩ := Proofs.LeastSquares.lstsqContract_satisfiable
  exact ⟨⟨fun v => (Tuple.sort v : Equiv.Perm _), lstsq⟩, fun v => Spec.argsortContract_sort v, fun A b => h A b⟩

/-! ### The loop -/

/-- One pass of the loop. -/
noncomputable def step (lib : Lib) (randint : PyM W (Fin M)) (X : Matrix (Fin M) (Fin m) ℝ) (f weights : Fin M → ℝ)
    (p : ℕ) : Unit → PyM W (Fin m → ℝ) := fun _ => do
  let ii ← randint
  PyM.lift (localModel lib X f weights p ii)

theorem localLoop_eq (lib : Lib) (randint : PyM W (Fin M)) (X : Matrix (Fin M) (Fin m) ℝ) (f weights : Fin M → ℝ)
    (p MM : ℕ) :
    localLoop lib randint X f weights p MM
      = (List.finRange MM).foldlM (fun df i => do
          let g ← step lib randint X f weights p ((fun _ => ()) i)
          return Matrix.updateRow df i g) (Np.zeros MM m) := by
  unfold localLoop
  congr 1
  funext df i w
  simp only [step, bind, PyM.bind]
  rcases randint w with ⟨_ | ii, w'⟩
  · rfl
  · simp only [PyM.lift]

/-- If every local model succeeds with a value in `P`, the loop succeeds with all rows in `P`. -/
theorem localLoop_ok {lib : Lib} {randint : PyM W (Fin M)} (hr : RandintOK randint)
    {X : Matrix (Fin M) (Fin m) ℝ} {f weights : Fin M → ℝ} {p : ℕ} (MM : ℕ) (P : (Fin m → ℝ) → Prop)
    (h : ∀ ii, ∃ g, localModel lib X f weights p ii = .ok g ∧ P g) (w : W) :
    ∃ df w', (localLoop lib randint X f weights p MM).run w = (.ok df, w') ∧ ∀ i, P (df i) := by
  have htot : ∀ x w, ∃ v w', (step lib randint X f weights p x).run w = (.ok v, w') ∧ P v := by
    intro _ w
    obtain ⟨ii, w', hi⟩ := hr w
    obtain ⟨g, hg, hP⟩ := h ii
    exact ⟨g, w', by rw [step, PyM.run_bind, hi]; simp [hg], hP⟩
  obtain ⟨vs, w', hc, hP⟩ := calls_of_total htot ((List.finRange MM).map fun _ => ()) w
  have hl : vs.length = MM := by simpa using hc.length
  have h1 := foldlM_calls (put := fun (F : Matrix (Fin MM) (Fin m) ℝ) i v => Matrix.updateRow F i v)
    (List.finRange MM) (Np.zeros MM m) w hc
  rw [fill_rows (fun v => v) vs hl] at h1
  refine ⟨_, w', by rw [localLoop_eq]; exact h1, fun i => ?_⟩
  exact hP _ (List.get_mem vs _)

/-- If every local model fails with `e`, a non-empty loop fails with `e`. -/
theorem localLoop_fail {lib : Lib} {randint : PyM W (Fin M)} (hr : RandintOK randint)
    {X : Matrix (Fin M) (Fin m) ℝ} {f weights : Fin M → ℝ} {p : ℕ} (MM : ℕ) (hMM : MM ≠ 0) (e : Err)
    (h : ∀ ii, localModel lib X f weights p ii = .error e) (w : W) :
    ∃ w', (localLoop lib randint X f weights p MM).run w = (.error e, w') := by
  have hf : ∀ x w, ∃ w', (step lib randint X f weights p x).run w = (.error e, w') := by
    intro _ w
    obtain ⟨ii, w', hi⟩ := hr w
    exact ⟨w', by rw [step, PyM.run_bind, hi]; simp [h ii]⟩
  obtain ⟨w', hc⟩ := callsFail_of_first hf ((List.finRange MM).map fun _ => ())
    (by simpa [List.finRange_eq_nil_iff] using hMM) w
  have h1 := foldlM_callsFail (put := fun (F : Matrix (Fin MM) (Fin m) ℝ) i v => Matrix.updateRow F i v)
    (List.finRange MM) (Np.zeros MM m) w hc
  exact ⟨w', by rw [localLoop_eq]; exact h1⟩

/-! ### The neighbour list -/

theorem sqDist_eq_zero {X : Matrix (Fin M) (Fin m) ℝ} {k ii : Fin M} :
    sqDist X (X ii) k = 0 ↔ X k = X ii := by
  unfold sqDist
  rw [Finset.sum_eq_zero_iff_of_nonneg fun _ _ => sq_nonneg _]
  constructor
  · intro h
    funext j
    have := h j (Finset.mem_univ j)
    exact sub_eq_zero.mp (pow_eq_zero_iff two_ne_zero |>.mp this)
  · intro h j _
    simp [h]

/-- At most `M - 1` indices survive the mask. -/
theorem length_neighbours_lt (lib : Lib) (X : Matrix (Fin M) (Fin m) ℝ) (ii : Fin M) (p : ℕ) :
    (neighbours lib X ii p).length < M := by
  simp only [neighbours, List.length_take, List.length_map]
  refine lt_of_le_of_lt (Nat.min_le_right _ _) ?_
  have h1 : ((List.finRange M).filter fun k => decide (sqDist X (X ii) k ≠ 0)).length < (List.finRange M).length := by
    apply List.length_filter_lt_length_iff_exists.mpr
    exact ⟨ii, List.mem_finRange ii, by simp [sqDist_eq_zero]⟩
  simpa using h1

/-- With pairwise distinct points the mask removes position `ii` only. -/
theorem neighbours_distinct (lib : Lib) {X : Matrix (Fin M) (Fin m) ℝ} (hX : Function.Injective fun i => X i)
    (ii : Fin M) (p : ℕ) :
    neighbours lib X ii p
      = (((List.finRange M).filter fun k => k ≠ ii).map (lib.argsort (sqDist X (X ii)))).take p := by
  simp only [neighbours]
  congr 3
  funext k
  have : sqDist X (X ii) k ≠ 0 ↔ k ≠ ii := not_congr (sqDist_eq_zero.trans hX.eq_iff)
  simp only [this]

theorem length_neighbours_distinct (lib : Lib) {X : Matrix (Fin M) (Fin m) ℝ}
    (hX : Function.Injective fun i => X i) (ii : Fin M) (p : ℕ) (hp : p < M) :
    (neighbours lib X ii p).length = p := by
  rw [neighbours_distinct lib hX]
  have h1 : ((List.finRange M).filter fun k => decide (k ≠ ii)).length = M - 1 := by
    have hf : ((List.finRange M).filter fun k => decide (k ≠ ii)).toFinset = Finset.univ.erase ii := by
      ext k; simp
    rw [← List.toFinset_card_of_nodup ((List.nodup_finRange M).filter _), hf,
      Finset.card_erase_of_mem (Finset.mem_univ _)]
    simp
  simp only [List.length_take, List.length_map, h1]
  omega

theorem nodup_neighbours {lib : Lib} (hlib : LibOK lib) (X : Matrix (Fin M) (Fin m) ℝ) (ii : Fin M) (p : ℕ) :
    (neighbours lib X ii p).Nodup := by
  have hb := (hlib.argsort (sqDist X (X ii))).bij
  refine List.Nodup.sublist (List.take_sublist _ _) ?_
  exact (List.nodup_map_iff hb.injective).mpr ((List.nodup_finRange M).filter _)

/-! ## C12 -/

/-- Every choice of `p` distinct sample points determines an affine function. -/
def GeneralPosition (X : Matrix (Fin M) (Fin m) ℝ) (p : ℕ) : Prop :=
  ∀ s : Fin p → Fin M, Function.Injective s →
    ∀ (a a' : ℝ) (v v' : Fin m → ℝ), (∀ k, a + ∑ j, X (s k) j * v j = a' + ∑ j, X (s k) j * v' j) → a = a' ∧ v = v'

/-- C12: for values of an affine function on a sample in general position, with positive weights (or none)
and `m+1 ≤ p < M`, the call succeeds and every row of the result is the slope, whatever the generator draws. -/
theorem C12_affine {lib : Lib} (hlib : LibOK lib) {randint : PyM W (Fin M)} (hr : RandintOK randint)
    (X : Matrix (Fin M) (Fin m) ℝ) (hX : Function.Injective fun i => X i) (p : ℕ) (hp1 : m + 1 ≤ p) (hp2 : p < M)
    (hgp : GeneralPosition X p) (a : ℝ) (v : Fin m → ℝ) (f : Fin M → ℝ) (hf : ∀ i, f i = a + ∑ j, X i j * v j)
    (weights : Option (Fin M → ℝ)) (hw : ∀ u, weights = some u → ∀ i, 0 < u i) (w : W) :
    ∃ df w', (local_linear_gradients lib randint X f (.int p) weights).run w = (.ok df, w') ∧
      ∀ i, df i = v := by
  have hcheck : checkP M m (.int p) = .ok p := by
    have h1 : ¬ M ≤ m := by omega
    have h2 : ¬ ((p : ℤ) < m + 1 ∨ (p : ℤ) > M) := by omega
    simp only [checkP, h1, if_false, h2]
    rfl
  simp only [local_linear_gradients, hcheck]
  refine localLoop_ok hr (numModels M m) (fun g => g = v) (fun ii => ?_) w
  have hlen := length_neighbours_distinct lib hX ii p hp2
  have hnd := nodup_neighbours hlib X ii p
  have hwpos : 0 < weights.getD (fun _ => 1 / (M : ℝ)) ii := by
    cases weights with
    | none =>
      have : (0 : ℝ) < M := by exact_mod_cast (by omega : 0 < M)
      simp [this]
    | some u => exact hw u rfl ii
  set wt := weights.getD (fun _ => 1 / (M : ℝ)) with hwt
  have hsq : 0 < Real.sqrt (wt ii) := Real.sqrt_pos.mpr hwpos
  simp only [localModel, hlen, dif_pos]
  refine ⟨_, rfl, ?_⟩
  set s : Fin p → Fin M := fun k => (neighbours lib X ii p).get (k.cast hlen.symm) with hs
  have hsinj : Function.Injective s := by
    intro k k' hk
    have := (List.nodup_iff_injective_get.mp hnd) hk
    simpa [Fin.ext_iff] using this
  set A : Matrix (Fin p) (Fin (1 + m)) ℝ :=
    Real.sqrt (wt ii) • Np.hstack (Np.ones p 1) (X.submatrix s id) with hA
  have hmul : ∀ (u : Fin (1 + m) → ℝ) (k : Fin p), A.mulVec u k
      = Real.sqrt (wt ii) * (u (Fin.castAdd m 0) + ∑ j, X (s k) j * u (Fin.natAdd 1 j)) := by
    intro u k
    rw [hA, Matrix.smul_mulVec, Pi.smul_apply, smul_eq_mul]
    congr 1
    rw [Matrix.mulVec, dotProduct, Fin.sum_univ_add]
    simp only [Np.hstack_castAdd, Np.hstack_natAdd]
    simp [Np.ones]
  have hex : A.mulVec (Fin.append (fun _ : Fin 1 => a) v) = fun k => f (s k) * Real.sqrt (wt ii) := by
    funext k
    rw [hmul, hf]
    simp only [Fin.append_left, Fin.append_right]
    ring
  have hrank : Spec.FullColumnRank A := by
    intro u u' huu
    have h1 : ∀ k, u (Fin.castAdd m 0) + ∑ j, X (s k) j * u (Fin.natAdd 1 j)
        = u' (Fin.castAdd m 0) + ∑ j, X (s k) j * u' (Fin.natAdd 1 j) := by
      intro k
      have := congrFun huu k
      rw [hmul, hmul] at this
      exact mul_left_cancel₀ hsq.ne' this
    obtain ⟨h2, h3⟩ := hgp s hsinj _ _ (fun j => u (Fin.natAdd 1 j)) (fun j => u' (Fin.natAdd 1 j)) h1
    funext i
    refine Fin.addCases (fun i => ?_) (fun j => ?_) i
    · rw [Subsingleton.elim i 0]; exact h2
    · exact congrFun h3 j
  have hu := Proofs.LeastSquares.unique_of_consistent (hlib.lstsq A _).1 hex hrank
  funext j
  exact (congrFun hu _).trans (Fin.append_right _ _ _)

/-- Four points in the plane, no three on a line: the hypotheses of `C12_affine` hold with `p = 3`. -/
theorem general_position_example : Function.Injective (fun i => (!![0, 0; 1, 0; 0, 1; 2, 3] : Matrix (Fin 4) (Fin 2) ℝ) i) ∧
    GeneralPosition (!![0, 0; 1, 0; 0, 1; 2, 3] : Matrix (Fin 4) (Fin 2) ℝ) 3 ∧ 2 + 1 ≤ 3 ∧ 3 < 4 := by
  refine ⟨?_, ?_, by norm_num, by norm_num⟩
  · intro i j h
    have h0 := congrFun h 0
    have h1 := congrFun h 1
    fin_cases i <;> fin_cases j <;> simp_all
  · intro s hs a a' v v' h
    have e0 := h 0
    have e1 := h 1
    have e2 := h 2
    have n01 : s 0 ≠ s 1 := fun h => absurd (hs h) (by decide)
    have n02 : s 0 ≠ s 2 := fun h => absurd (hs h) (by decide)
    have n12 : s 1 ≠ s 2 := fun h => absurd (hs h) (by decide)
    clear h hs
    generalize s 0 = x at e0 n01 n02
    generalize s 1 = y at e1 n01 n12
    generalize s 2 = z at e2 n02 n12
    have key : a = a' ∧ v 0 = v' 0 ∧ v 1 = v' 1 := by
      fin_cases x <;> fin_cases y <;> first | exact absurd rfl n01 | skip
      all_goals fin_cases z
      all_goals first | exact absurd rfl n02 | exact absurd rfl n12 | skip
      all_goals simp at e0 e1 e2
      all_goals refine ⟨?_, ?_, ?_⟩ <;> linarith
    refine ⟨key.1, ?_⟩
    funext j
    fin_cases j
    · exact key.2.1
    · exact key.2.2

/-! ## C13 -/

/-- `S` consists of `p` points other than `ii`, and no other point (except `ii`) is nearer to `ii`. -/
def NearestOthers (X : Matrix (Fin M) (Fin m) ℝ) (ii : Fin M) (p : ℕ) (S : Finset (Fin M)) : Prop :=
  ii ∉ S ∧ S.card = p ∧
    ∀ a ∈ S, ∀ b, b ∉ S → b ≠ ii → ∑ j, (X a j - X ii j) ^ 2 ≤ ∑ j, (X b j - X ii j) ^ 2

/-- C13 fails: with pairwise distinct points, whenever the centre is not row 0, the centre itself is one of
its own neighbours (`p ≥ 1`), for every sample and every argsort. -/
theorem C13_centre_included (lib : Lib) (hlib : LibOK lib) (X : Matrix (Fin M) (Fin m) ℝ)
    (hX : Function.Injective fun i => X i) (ii : Fin M) (hii : (ii : ℕ) ≠ 0) (p : ℕ) (hp : 1 ≤ p) :
    ii ∈ neighbours lib X ii p := by
  have hM : 0 < M := ii.pos
  set D2 := sqDist X (X ii) with hD2
  have hs := hlib.argsort D2
  have h0 : lib.argsort D2 ⟨0, hM⟩ = ii := by
    obtain ⟨k, hk⟩ := hs.bij.surjective ii
    have h1 : D2 (lib.argsort D2 ⟨0, hM⟩) ≤ D2 (lib.argsort D2 k) := hs.mono (Fin.mk_le_of_le_val (Nat.zero_le _))
    rw [hk] at h1
    have h2 : D2 ii = 0 := sqDist_eq_zero.mpr rfl
    have h3 : 0 ≤ D2 (lib.argsort D2 ⟨0, hM⟩) := Finset.sum_nonneg fun _ _ => sq_nonneg _
    exact hX (sqDist_eq_zero.mp (le_antisymm (h2 ▸ h1) h3))
  rw [neighbours_distinct lib hX]
  obtain ⟨n, rfl⟩ : ∃ n, M = n + 1 := ⟨M - 1, by omega⟩
  have hne : (0 : Fin (n + 1)) ≠ ii := fun h => hii (by rw [← h]; rfl)
  rw [List.finRange_succ, List.filter_cons_of_pos (by simpa using hne), List.map_cons]
  obtain ⟨q, rfl⟩ : ∃ q, p = q + 1 := ⟨p - 1, by omega⟩
  rw [List.take_succ_cons, ← hD2]
  exact List.mem_cons.mpr (.inl h0.symm)

/-- C13 fails observably: changing the data at the centre alone changes the fitted gradient.  Four points,
`p = 3`, and a generator that always draws row 1. -/
theorem C13_depends_on_centre :
    ∃ (X : Matrix (Fin 4) (Fin 2) ℝ) (f f' : Fin 4 → ℝ), Function.Injective (fun i => X i) ∧
      (∀ i, i ≠ 1 → f i = f' i) ∧
      ∀ lib, LibOK lib → ∃ df df' : Matrix (Fin (numModels 4 2)) (Fin 2) ℝ,
        (local_linear_gradients lib (pure 1 : PyM Unit (Fin 4)) X f (.int 3) none).run () = (.ok df, ()) ∧
        (local_linear_gradients lib (pure 1 : PyM Unit (Fin 4)) X f' (.int 3) none).run () = (.ok df', ()) ∧
        ∀ i, df i ≠ df' i := by
  let X : Matrix (Fin 4) (Fin 2) ℝ := !![1, 0; 0, 0; 0, 2; 3, 3]
  have hXinj : Function.Injective (fun i => X i) := by
    intro i j h
    have h0 := congrFun h 0
    have h1 := congrFun h 1
    fin_cases i <;> fin_cases j <;> simp_all [X]
  refine ⟨X, 0, Pi.single 1 1, hXinj, fun i hi => by simp [hi], fun lib hlib => ?_⟩
  have hr : RandintOK (W := Unit) (pure 1 : PyM Unit (Fin 4)) := fun w => ⟨1, w, rfl⟩
  have hcheck : checkP 4 2 (.int ((3 : ℕ) : ℤ)) = .ok 3 := by norm_num [checkP]; rfl
  -- the neighbours of row 1
  have hsort := hlib.argsort (sqDist X (X 1))
  set σ := lib.argsort (sqDist X (X 1)) with hσ
  have hD : sqDist X (X 1) = ![1, 0, 4, 18] := by
    funext k
    fin_cases k <;> simp [sqDist, X, Fin.sum_univ_two] <;> norm_num
  have hσinj : Function.Injective σ := hsort.bij.injective
  have m01 : sqDist X (X 1) (σ 0) ≤ sqDist X (X 1) (σ 1) := hsort.mono (show (0 : Fin 4) ≤ 1 by decide)
  have m12 : sqDist X (X 1) (σ 1) ≤ sqDist X (X 1) (σ 2) := hsort.mono (show (1 : Fin 4) ≤ 2 by decide)
  have m23 : sqDist X (X 1) (σ 2) ≤ sqDist X (X 1) (σ 3) := hsort.mono (show (2 : Fin 4) ≤ 3 by decide)
  have n01 : σ 0 ≠ σ 1 := fun h => absurd (hσinj h) (by decide)
  have n02 : σ 0 ≠ σ 2 := fun h => absurd (hσinj h) (by decide)
  have n03 : σ 0 ≠ σ 3 := fun h => absurd (hσinj h) (by decide)
  have n12 : σ 1 ≠ σ 2 := fun h => absurd (hσinj h) (by decide)
  have n13 : σ 1 ≠ σ 3 := fun h => absurd (hσinj h) (by decide)
  have n23 : σ 2 ≠ σ 3 := fun h => absurd (hσinj h) (by decide)
  have hall : σ 0 = 1 ∧ σ 2 = 2 ∧ σ 3 = 3 := by
    generalize σ 0 = a at m01 n01 n02 n03 ⊢
    generalize σ 1 = b at m01 m12 n01 n12 n13
    generalize σ 2 = c at m12 m23 n02 n12 n23 ⊢
    generalize σ 3 = d at m23 n03 n13 n23 ⊢
    rw [hD] at m01 m12 m23
    clear hσinj hsort
    fin_cases a <;> fin_cases b <;> first | exact absurd rfl n01 | skip
    all_goals fin_cases c
    all_goals first | exact absurd rfl n02 | exact absurd rfl n12 | skip
    all_goals fin_cases d
    all_goals first | exact absurd rfl n03 | exact absurd rfl n13 | exact absurd rfl n23 | skip
    all_goals first | exact ⟨rfl, rfl, rfl⟩ | (exfalso; revert m01 m12 m23; simp; try norm_num)
  have hnb : neighbours lib X 1 3 = [1, 2, 3] := by
    rw [neighbours_distinct lib hXinj, ← hσ]
    have : (List.finRange 4).filter (fun k => decide (k ≠ (1 : Fin 4))) = [0, 2, 3] := by decide
    rw [this]
    simp [hall.1, hall.2.1, hall.2.2]
  -- the fitted slopes
  have hw : (0 : ℝ) < 1 / ((4 : ℕ) : ℝ) := by norm_num
  have hsq : Real.sqrt (1 / ((4 : ℕ) : ℝ)) ≠ 0 := (Real.sqrt_pos.mpr hw).ne'
  have hmodel : ∀ f : Fin 4 → ℝ, ∃ g, localModel lib X f (fun _ => 1 / ((4 : ℕ) : ℝ)) 3 1 = .ok g ∧
      g 1 = (f 2 - f 1) / 2 := by
    intro f
    have hlen : (neighbours lib X 1 3).length = 3 := by rw [hnb]; rfl
    simp only [localModel, hlen, dif_pos]
    refine ⟨_, rfl, ?_⟩
    have hs : (fun k : Fin 3 => (neighbours lib X 1 3).get (k.cast hlen.symm)) = ![1, 2, 3] := by
      funext k
      fin_cases k <;> simp [hnb]
    have hs' : ∀ k : Fin 3, (neighbours lib X 1 3).get (k.cast hlen.symm) = ![1, 2, 3] k := fun k => congrFun hs k
    simp only [hs']
    set A : Matrix (Fin 3) (Fin (1 + 2)) ℝ := Real.sqrt (1 / ((4 : ℕ) : ℝ)) •
      Np.hstack (Np.ones 3 1) (X.submatrix ![1, 2, 3] id) with hA
    have hmul : ∀ (u : Fin (1 + 2) → ℝ) (k : Fin 3), A.mulVec u k
        = Real.sqrt (1 / ((4 : ℕ) : ℝ)) * (u (Fin.castAdd 2 0)
          + ∑ j, X (![1, 2, 3] k) j * u (Fin.natAdd 1 j)) := by
      intro u k
      rw [hA, Matrix.smul_mulVec, Pi.smul_apply, smul_eq_mul]
      congr 1
      rw [Matrix.mulVec, dotProduct, Fin.sum_univ_add]
      simp only [Np.hstack_castAdd, Np.hstack_natAdd]
      simp [Np.ones]
    have hex : A.mulVec (Fin.append (fun _ : Fin 1 => f 1)
        ![(f 3 - f 1) / 3 - (f 2 - f 1) / 2, (f 2 - f 1) / 2])
        = fun k => f (![1, 2, 3] k) * Real.sqrt (1 / ((4 : ℕ) : ℝ)) := by
      funext k
      rw [hmul, mul_comm]
      congr 1
      simp only [Fin.append_left, Fin.append_right, Fin.sum_univ_two]
      fin_cases k <;> simp [X] <;> ring
    have hE := Proofs.LeastSquares.exact_of_consistent (hlib.lstsq A _).1 hex
    generalize lib.lstsq A (fun k => f (![1, 2, 3] k) * Real.sqrt (1 / ((4 : ℕ) : ℝ))) = u at *
    have e0 := congrFun hE 0
    have e1 := congrFun hE 1
    rw [hmul, mul_comm] at e0 e1
    have e0' := mul_right_cancel₀ hsq e0
    have e1' := mul_right_cancel₀ hsq e1
    simp [X, Fin.sum_univ_two] at e0' e1'
    change u 2 = _
    linarith
  have hstep : ∀ f : Fin 4 → ℝ, ∃ df, (local_linear_gradients lib (pure 1 : PyM Unit (Fin 4)) X f
      (.int ((3 : ℕ) : ℤ)) none).run () = (.ok df, ()) ∧ ∀ i, df i 1 = (f 2 - f 1) / 2 := by
    intro f
    simp only [local_linear_gradients, hcheck, Option.getD_none]
    have htot : ∀ x w, ∃ v w', (step lib (pure 1 : PyM Unit (Fin 4)) X f (fun _ => 1 / ((4 : ℕ) : ℝ)) 3 x).run w
        = (.ok v, w') ∧ v 1 = (f 2 - f 1) / 2 := by
      intro _ w
      obtain ⟨g, hg, hP⟩ := hmodel f
      refine ⟨g, w, ?_, hP⟩
      change (PyM.lift (localModel lib X f (fun _ => 1 / ((4 : ℕ) : ℝ)) 3 1)).run w = _
      rw [hg]
      rfl
    obtain ⟨vs, w', hc, hP⟩ := calls_of_total htot ((List.finRange (numModels 4 2)).map fun _ => ()) ()
    have hl : vs.length = numModels 4 2 := by simpa using hc.length
    have h1 := foldlM_calls (put := fun (F : Matrix (Fin (numModels 4 2)) (Fin 2) ℝ) i v => Matrix.updateRow F i v)
      (List.finRange _) (Np.zeros _ 2) () hc
    rw [fill_rows (fun v => v) vs hl] at h1
    exact ⟨_, by rw [localLoop_eq]; exact h1, fun i => hP _ (List.get_mem vs _)⟩
  obtain ⟨df, h1, h1'⟩ := hstep 0
  obtain ⟨df', h2, h2'⟩ := hstep (Pi.single 1 1)
  refine ⟨df, df', h1, h2, fun i hi => ?_⟩
  have e1 := h1' i
  have e2 := h2' i
  rw [hi, e2] at e1
  have e3 : (Pi.single 1 1 : Fin 4 → ℝ) 2 = 0 := by simp
  rw [e3] at e1
  norm_num at e1

/-- C13, the part that holds: when the centre is row 0 and the points are pairwise distinct, the model is
fitted on exactly the `p` nearest other points. -/
theorem C13_nearest_others_partial (lib : Lib) (hlib : LibOK lib) (X : Matrix (Fin M) (Fin m) ℝ)
    (hX : Function.Injective fun i => X i) (ii : Fin M) (hii : (ii : ℕ) = 0) (p : ℕ) (hp : p < M) :
    NearestOthers X ii p (neighbours lib X ii p).toFinset := by
  obtain ⟨n, rfl⟩ : ∃ n, M = n + 1 := ⟨M - 1, by omega⟩
  obtain rfl : ii = 0 := Fin.ext hii
  set D2 := sqDist X (X 0) with hD2
  have hs := hlib.argsort D2
  have h0 : lib.argsort D2 0 = 0 := by
    obtain ⟨k, hk⟩ := hs.bij.surjective 0
    have h1 : D2 (lib.argsort D2 0) ≤ D2 (lib.argsort D2 k) := hs.mono (Fin.zero_le _)
    rw [hk] at h1
    have h2 : D2 0 = 0 := sqDist_eq_zero.mpr rfl
    have h3 : 0 ≤ D2 (lib.argsort D2 0) := Finset.sum_nonneg fun _ _ => sq_nonneg _
    exact hX (sqDist_eq_zero.mp (le_antisymm (h2 ▸ h1) h3))
  have hlist : neighbours lib X 0 p = ((List.finRange n).map fun k => lib.argsort D2 k.succ).take p := by
    rw [neighbours_distinct lib hX, List.finRange_succ, List.filter_cons_of_neg (by simp)]
    have : ((List.finRange n).map Fin.succ).filter (fun k => decide (k ≠ 0)) = (List.finRange n).map Fin.succ := by
      rw [List.filter_eq_self]
      intro a ha
      obtain ⟨b, -, rfl⟩ := List.mem_map.mp ha
      simp
    rw [this, List.map_map]
    rfl
  have hmem : ∀ a, a ∈ neighbours lib X 0 p ↔ ∃ k : Fin n, (k : ℕ) < p ∧ lib.argsort D2 k.succ = a := by
    intro a
    rw [hlist, List.mem_take_iff_getElem]
    constructor
    · rintro ⟨i, hi, rfl⟩
      simp only [List.length_map, List.length_finRange] at hi
      exact ⟨⟨i, by omega⟩, by simp; omega, by simp⟩
    · rintro ⟨k, hk, rfl⟩
      exact ⟨k, by simp; omega, by simp⟩
  refine ⟨?_, ?_, ?_⟩
  · rw [List.mem_toFinset, hmem]
    rintro ⟨k, -, hk⟩
    have := hs.bij.injective (hk.trans h0.symm)
    exact Fin.succ_ne_zero k this
  · rw [List.toFinset_card_of_nodup (nodup_neighbours hlib X 0 p), length_neighbours_distinct lib hX 0 p hp]
  · intro a ha b hb hb0
    rw [List.mem_toFinset, hmem] at ha hb
    obtain ⟨k, hk, rfl⟩ := ha
    obtain ⟨l, rfl⟩ := hs.bij.surjective b
    have hl0 : l ≠ 0 := by rintro rfl; exact hb0 h0
    obtain ⟨l', rfl⟩ := Fin.exists_succ_eq_of_ne_zero hl0
    have hl : p ≤ l' := by
      by_contra hlt
      exact hb ⟨l', by omega, rfl⟩
    exact hs.mono (show k.succ ≤ l'.succ by
      rw [Fin.succ_le_succ_iff]; exact Fin.le_iff_val_le_val.mpr (by omega))

example : Function.Injective (fun i => (!![0, 0; 1, 0; 0, 1] : Matrix (Fin 3) (Fin 2) ℝ) i) := by
  intro i j h
  have h0 := congrFun h 0
  have h1 := congrFun h 1
  fin_cases i <;> fin_cases j <;> simp_all

/-! ## C14 -/

/-- C14: the guards, in order: too few samples, `p` not an int, `p` out of range. -/
theorem C14_guards (lib : Lib) (randint : PyM W (Fin M)) (X : Matrix (Fin M) (Fin m) ℝ) (f : Fin M → ℝ)
    (weights : Option (Fin M → ℝ)) (w : W) :
    (M ≤ m → ∀ p, (local_linear_gradients lib randint X f p weights).run w = (.error .exception, w)) ∧
    (m < M → (local_linear_gradients lib randint X f .other weights).run w = (.error .typeError, w)) ∧
    (m < M → ∀ p : ℤ, (p < m + 1 ∨ M < p) →
      (local_linear_gradients lib randint X f (.int p) weights).run w = (.error .exception, w)) := by
  refine ⟨fun h p => ?_, fun h => ?_, fun h p hp => ?_⟩
  · simp [local_linear_gradients, checkP, h]
  · simp [local_linear_gradients, checkP, not_le.mpr h]
  · have h1 : checkP M m (.int p) = .error .exception := by
      have : p < m + 1 ∨ p > M := hp
      simp only [checkP, not_le.mpr h, if_false, this, if_true]
    simp [local_linear_gradients, h1]

theorem numModels_pos (hm : 2 ≤ m) (hM : m < M) : numModels M m ≠ 0 := by
  have hlog : 0 < Real.log m := Real.log_pos (by exact_mod_cast (by omega : 1 < m))
  have hmpos : (0 : ℝ) < m := by exact_mod_cast (by omega : 0 < m)
  have : 0 < ⌈10 * (m : ℝ) * Real.log m⌉₊ := Nat.ceil_pos.mpr (by positivity)
  unfold numModels
  omega

theorem localModel_full (lib : Lib) (X : Matrix (Fin M) (Fin m) ℝ) (f weights : Fin M → ℝ) (ii : Fin M) :
    localModel lib X f weights M ii = .error .valueError := by
  have := length_neighbours_lt lib X ii M
  simp only [localModel]
  rw [dif_neg (by omega)]

/-- C14 fails: `p = M` passes the guards, and for `m ≥ 2` the call then always raises `ValueError`. -/
theorem C14_p_eq_M_always_fails (lib : Lib) {randint : PyM W (Fin M)} (hr : RandintOK randint)
    (X : Matrix (Fin M) (Fin m) ℝ) (f : Fin M → ℝ) (weights : Option (Fin M → ℝ)) (hm : 2 ≤ m) (hM : m < M) (w : W) :
    ∃ w', (local_linear_gradients lib randint X f (.int M) weights).run w = (.error .valueError, w') := by
  have hcheck : checkP M m (.int M) = .ok M := by
    have h1 : ¬ M ≤ m := by omega
    have h2 : ¬ ((M : ℤ) < m + 1 ∨ (M : ℤ) > M) := by omega
    simp only [checkP, h1, if_false, h2]
    rfl
  simp only [local_linear_gradients, hcheck]
  exact localLoop_fail hr _ (numModels_pos hm hM) _ (fun ii => localModel_full lib X f _ ii) w

/-- C14 fails: with the default `p`, one input (`m = 1`) is always rejected. -/
theorem C14_default_one_input (lib : Lib) (randint : PyM W (Fin M)) (X : Matrix (Fin M) (Fin 1) ℝ) (f : Fin M → ℝ)
    (weights : Option (Fin M → ℝ)) (w : W) :
    (local_linear_gradients lib randint X f .none weights).run w = (.error .exception, w) := by
  have hfl : ⌊(1.7 : ℝ) * ((1 : ℕ) : ℝ)⌋₊ = 1 := by
    rw [Nat.floor_eq_iff (by norm_num)]; norm_num
  have : checkP M 1 .none = .error .exception := by
    unfold checkP
    split_ifs with h
    · rfl
    · simp only [hfl]
      rw [if_pos]
      left
      have : min 1 M ≤ 1 := min_le_left _ _
      push_cast
      omega
  simp [local_linear_gradients, this]

/-- C14 fails: with the default `p` and `M = m + 1` samples (the smallest admitted number) the call always
raises. -/
theorem C14_default_smallest_sample (lib : Lib) {randint : PyM W (Fin (m + 1))} (hr : RandintOK randint)
    (X : Matrix (Fin (m + 1)) (Fin m) ℝ) (f : Fin (m + 1) → ℝ) (weights : Option (Fin (m + 1) → ℝ)) (hm : 2 ≤ m)
    (w : W) :
    ∃ w', (local_linear_gradients lib randint X f .none weights).run w = (.error .valueError, w') := by
  have hfl : m + 1 ≤ ⌊(1.7 : ℝ) * m⌋₊ := by
    apply Nat.le_floor
    push_cast
    have : (2 : ℝ) ≤ m := by exact_mod_cast hm
    linarith
  have hcheck : checkP (m + 1) m .none = .ok (m + 1) := by
    have h1 : ¬ m + 1 ≤ m := by omega
    unfold checkP
    simp only [h1, if_false, min_eq_right hfl]
    rw [if_neg (by push_cast; omega)]
    rfl
  simp only [local_linear_gradients, hcheck]
  exact localLoop_fail hr _ (numModels_pos hm (by omega)) _ (fun ii => localModel_full lib X f _ ii) w

/-- C14: with one input and an admissible `p` the call succeeds but returns an array without rows. -/
theorem C14_one_input_empty (lib : Lib) (randint : PyM W (Fin M)) (X : Matrix (Fin M) (Fin 1) ℝ) (f : Fin M → ℝ)
    (weights : Option (Fin M → ℝ)) (p : ℕ) (hp1 : 2 ≤ p) (hp2 : p ≤ M) (w : W) :
    (∃ df, (local_linear_gradients lib randint X f (.int p) weights).run w = (.ok df, w)) ∧ numModels M 1 = 0 := by
  have h0 : numModels M 1 = 0 := by simp [numModels]
  refine ⟨?_, h0⟩
  have hcheck : checkP M 1 (.int p) = .ok p := by
    have h1 : ¬ M ≤ 1 := by omega
    have h2 : ¬ ((p : ℤ) < (1 : ℕ) + 1 ∨ (p : ℤ) > M) := by omega
    simp only [checkP, h1, if_false, h2]
    rfl
  simp only [local_linear_gradients, hcheck]
  generalize numModels M 1 = MM at h0
  subst h0
  exact ⟨_, rfl⟩

/-- C14, the part that holds: with pairwise distinct points and `m+1 ≤ p < M` the call always completes. -/
theorem C14_completes_partial (lib : Lib) {randint : PyM W (Fin M)} (hr : RandintOK randint)
    (X : Matrix (Fin M) (Fin m) ℝ) (hX : Function.Injective fun i => X i) (f : Fin M → ℝ)
    (weights : Option (Fin M → ℝ)) (p : ℕ) (hp1 : m + 1 ≤ p) (hp2 : p < M) (w : W) :
    ∃ df w', (local_linear_gradients lib randint X f (.int p) weights).run w = (.ok df, w') := by
  have hcheck : checkP M m (.int p) = .ok p := by
    have h1 : ¬ M ≤ m := by omega
    have h2 : ¬ ((p : ℤ) < m + 1 ∨ (p : ℤ) > M) := by omega
    simp only [checkP, h1, if_false, h2]
    rfl
  simp only [local_linear_gradients, hcheck]
  obtain ⟨df, w', h, -⟩ := localLoop_ok (lib := lib) hr (X := X) (f := f)
    (weights := weights.getD fun _ => 1 / (M : ℝ)) (p := p) (numModels M m) (fun _ => True)
    (fun ii => by
      have := length_neighbours_distinct lib hX ii p hp2
      simp only [localModel, this, dif_pos]
      exact ⟨_, rfl, trivial⟩) w
  exact ⟨df, w', h⟩

end Props
