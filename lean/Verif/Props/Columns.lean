import Verif.Props.ActiveSurfaces
import Verif.Props.Sizes
import Verif.Props.Retrain

/-!
# C108: arrays with a wrong number of columns
-/

open Py Model.Misc Model.QPSolver Model.Subspaces Model.Domains Model.ResponseSurfaces Model.ActiveSurfaces Spec
open Proofs.Run Proofs.Misc

namespace Props

variable {S R E : Type} {M m n : ℕ}

/-- Every column is the one column of `x`. -/
def repeated (m : ℕ) (x : Matrix (Fin M) (Fin 1) ℝ) : Matrix (Fin M) (Fin m) ℝ := Matrix.of fun i _ => x i 0

theorem bdim_none {a b : ℕ} (h : a ≠ b) (ha : a ≠ 1) (hb : b ≠ 1) : NpMat.bdim a b = none := by
  unfold NpMat.bdim
  rw [if_neg h, if_neg ha, if_neg hb]

theorem zipB_none {op : ℝ → ℝ → ℝ} {A B : NpMat} (h : NpMat.bdim A.cols B.cols = none) : NpMat.zipB op A B = .error .valueError := by
  unfold NpMat.zipB
  rw [h]
  cases NpMat.bdim A.rows B.rows <;> rfl

theorem bget_of_col (x : Matrix (Fin M) (Fin 1) ℝ) (i : Fin M) (j : ℕ) : (NpMat.of x).bget i j = x i 0 := by
  have hi : (if M = 1 then 0 else (i : ℕ)) = i := by
    split_ifs with h
    · subst h; omega
    · rfl
  change (NpMat.of x).get (if M = 1 then 0 else (i : ℕ)) 0 = x i 0
  rw [hi]
  exact NpMat.get_of x i 0

theorem zipB_col_row (op : ℝ → ℝ → ℝ) (x : Matrix (Fin M) (Fin 1) ℝ) (b : Matrix (Fin 1) (Fin m) ℝ) :
    NpMat.zipB op (NpMat.of x) (NpMat.of b) = NpMat.zipB op (NpMat.of (repeated m x)) (NpMat.of b) := by
  rw [NpMat.zipB_row_right]
  simp only [NpMat.zipB, NpMat.of_rows, NpMat.of_cols, NpMat.bdim_one_left, NpMat.bdim_one_right]
  simp only [bget_of_col, NpMat.bget_of_row]
  rfl

theorem zipB_row_col (op : ℝ → ℝ → ℝ) (x : Matrix (Fin M) (Fin 1) ℝ) (b : Matrix (Fin 1) (Fin m) ℝ) :
    NpMat.zipB op (NpMat.of b) (NpMat.of x) = NpMat.zipB op (NpMat.of b) (NpMat.of (repeated m x)) := by
  rw [NpMat.zipB_row_left]
  simp only [NpMat.zipB, NpMat.of_rows, NpMat.of_cols, NpMat.bdim_one_left, NpMat.bdim_one_right]
  simp only [bget_of_col, NpMat.bget_of_row]
  rfl

/-! ## The normalizers -/

/-- Neither one column nor one bound: refused. -/
theorem C108_bounded_partial (lb ub : Fin m → ℝ) (X : NpMat) (h : X.cols ≠ m) (h1 : X.cols ≠ 1) (hm : m ≠ 1) :
    ∃ s, BoundedNormalizer.init (List.ofFn lb) (List.ofFn ub) = .ok s ∧ s.normalize (.mat X) = .error .valueError ∧
      s.unnormalize (.mat X) = .error .valueError := by
  refine ⟨_, init_ofFn lb ub, ?_, ?_⟩
  · simp only [BoundedNormalizer.normalize, process_inputs, bind, Except.bind]
    rw [zipB_none (bdim_none h h1 hm)]
  · simp only [BoundedNormalizer.unnormalize, process_inputs, bind, Except.bind, rowOf, NpMat.zipB_same]
    rw [zipB_none (A := NpMat.of _) (B := NpMat.map _ X) (bdim_none (a := m) (b := X.cols) (Ne.symm h) hm h1)]

/-- A single column stands for `m` equal ones. -/
theorem C108_bounded_column (lb ub : Fin m → ℝ) (x : Matrix (Fin M) (Fin 1) ℝ) :
    ∃ s, BoundedNormalizer.init (List.ofFn lb) (List.ofFn ub) = .ok s ∧
      s.normalize (.mat (NpMat.of x)) = s.normalize (.mat (NpMat.of (repeated m x))) ∧
      s.unnormalize (.mat (NpMat.of x)) = s.unnormalize (.mat (NpMat.of (repeated m x))) := by
  refine ⟨_, init_ofFn lb ub, ?_, ?_⟩
  · simp only [BoundedNormalizer.normalize, process_inputs, bind, Except.bind, rowOf]
    rw [zipB_col_row]
  · simp only [BoundedNormalizer.unnormalize, process_inputs, bind, Except.bind, rowOf, NpMat.zipB_same, NpMat.map_of]
    rw [zipB_row_col _ (Matrix.of fun i j => x i j + 1)]
    rfl

/-- One bound serves for all columns. -/
theorem C108_bounded_one (lb ub : Fin 1 → ℝ) (X : Matrix (Fin M) (Fin n) ℝ) :
    ∃ s, BoundedNormalizer.init (List.ofFn lb) (List.ofFn ub) = .ok s ∧
      s.normalize (.mat (NpMat.of X)) = .ok (NpMat.of (Matrix.of fun i j => 2 * (X i j - lb 0) / (ub 0 - lb 0) - 1)) := by
  have hz : ∀ (op : ℝ → ℝ → ℝ) (A : Matrix (Fin M) (Fin n) ℝ) (b : Matrix (Fin 1) (Fin 1) ℝ),
      NpMat.zipB op (NpMat.of A) (NpMat.of b) = .ok (NpMat.of (Matrix.of fun i j => op (A i j) (b 0 0))) := fun op A b => by
    simp only [NpMat.zipB, NpMat.of_rows, NpMat.of_cols, NpMat.bdim_one_right, NpMat.bget_of]
    rfl
  refine ⟨_, init_ofFn lb ub, ?_⟩
  simp only [BoundedNormalizer.normalize, process_inputs, bind, Except.bind, rowOf, hz, NpMat.zipB_same, NpMat.map_of, Matrix.of_apply, pure,
    Except.pure]

/-- The normalizer of Gaussian inputs: `unnormalize` refuses every wrong number of columns, `normalize` every one but a single column. -/
theorem C108_unbounded_partial (s : UnboundedNormalizer m) (X : NpMat) (h : X.cols ≠ m) :
    s.unnormalize (.mat X) = .error .valueError ∧ (X.cols ≠ 1 → s.normalize (.mat X) = .error .valueError) := by
  constructor
  · simp only [UnboundedNormalizer.unnormalize, process_inputs, bind, Except.bind]
    rw [dif_neg h]
  · intro h1
    simp only [UnboundedNormalizer.normalize, process_inputs, bind, Except.bind]
    by_cases hm : m = 1
    · subst hm
      have : NpMat.zipB (· - ·) X (NpMat.of (Matrix.of fun (_ : Fin 1) j => s.mu j))
          = .ok ⟨X.rows, X.cols, Matrix.of fun i j => X.bget i j - (NpMat.of (Matrix.of fun (_ : Fin 1) j => s.mu j)).bget i j⟩ := by
        simp only [NpMat.zipB, NpMat.of_rows, NpMat.of_cols, NpMat.bdim_one_right]
      rw [this]
      dsimp only
      rw [dif_neg h]
    · rw [zipB_none (bdim_none h h1 hm)]

/-- `normalize` takes a single column for `m` equal ones. -/
theorem C108_unbounded_column (s : UnboundedNormalizer m) (x : Matrix (Fin M) (Fin 1) ℝ) :
    s.normalize (.mat (NpMat.of x)) = s.normalize (.mat (NpMat.of (repeated m x))) := by
  simp only [UnboundedNormalizer.normalize, process_inputs, bind, Except.bind]
  rw [zipB_col_row]

/-! ## Maps between the variables -/

theorem C108_forward {s : Subspaces} {V1 : Matrix (Fin m) (Fin n) ℝ} {V2 : NpMat} (hW : s.W1 = some (NpMat.of V1)) (hV : s.W2 = some V2)
    (X : NpMat) (h : X.cols ≠ m) : forward s (.mat X) = .error .valueError := by
  unfold forward
  simp only [process_inputs, bind, Except.bind, hW, hV]
  have : X.dot (NpMat.of V1) = .error .valueError := by
    unfold NpMat.dot
    rw [dif_neg (by rw [NpMat.of_rows]; exact Ne.symm h)]
  rw [this]

/-- `inverse` of the maps for cubes and for Gaussian inputs. -/
theorem C108_inverse {lib : Model.Domains.Lib} {rng : Rng S} {a : AVMap S E} (ha : StandardMap lib rng a) {W : Matrix (Fin m) (Fin m) ℝ}
    {V1 : Matrix (Fin m) (Fin n) ℝ} {V2 : NpMat} (hn : n ≤ m) (hE : a.subspaces.eigenvecs = some (NpMat.of W))
    (hW : a.subspaces.W1 = some (NpMat.of V1)) (hV : a.subspaces.W2 = some V2) (Y : NpMat) (h : Y.cols ≠ n) (N : ℕ) (w : S × Files × E) :
    ((a.inverse (.mat Y) (.int N)).run w).1 = .error .valueError := by
  have hstep : ((a.inverse (.mat Y) (.int N)).run w) = ((a.regularize_z Y N >>= fun o => match o with
      | none => pure none
      | some Z => match a.subspaces.eigenvecs with
        | none => PyM.raise .attributeError
        | some W => do
          let r ← PyM.lift (rotate_x Y Z W)
          return some r) : PyM (S × Files × E) (Option (NpMat × NpMat))).run w := by
    refine (PyM.run_bind_ok (w' := w) (a := Y) rfl).trans ?_
    dsimp only
    rw [if_neg (by omega)]
    rfl
  rw [hstep, hE]
  rcases ha with ha | ha
  · have : (a.regularize_z Y N).run w = (.error .valueError, w) := by
      rw [ha]
      unfold boundedZ
      simp only [hW, hV]
      rw [dif_neg (by rw [NpMat.of_cols]; omega)]
      rfl
    rw [PyM.run_bind_error this]
  · have : ∃ Z w', (a.regularize_z Y N).run w = (.ok (some Z), w') ∧ Z.b = m - n := by
      rw [ha]
      dsimp only
      unfold unboundedZ
      simp only [hW]
      exact ⟨_, _, rfl, rfl⟩
    obtain ⟨Z, w', hz, hb⟩ := this
    rw [PyM.run_bind_ok hz]
    have hr : rotate_x Y Z (NpMat.of W) = .error .valueError := by
      unfold rotate_x
      split_ifs with h1
      · have : NpMat.dot (NpMat.of (flattenYZ (concatYZ Y Z h1))) (NpMat.of W).transpose = .error .valueError := by
          unfold NpMat.dot
          rw [dif_neg]
          change ¬ (m = Y.cols + Z.b)
          omega
        rw [this]
      · rfl
    dsimp only
    rw [hr]
    rfl

/-! ## Response surfaces -/

theorem choose_ne {N k m : ℕ} (hN : 1 ≤ N) (h : k ≠ m) : (N + k).choose k ≠ (N + m).choose m := by
  have hmono : StrictMono fun k => (N + k).choose k := strictMono_nat_of_lt_succ fun k => by
    obtain ⟨N, rfl⟩ : ∃ a, N = a + 1 := ⟨N - 1, by omega⟩
    have h1 : (N + 1 + (k + 1)).choose (k + 1) = (N + 1 + k).choose k + (N + 1 + k).choose (k + 1) := Nat.choose_succ_succ _ _
    have h2 : 0 < (N + 1 + k).choose (k + 1) := Nat.choose_pos (by omega)
    omega
  exact fun e => h (hmono.injective e)

theorem dot_length {p : ℕ} (B : Matrix (Fin M) (Fin p) ℝ) {c : NpVec} (h : c.n ≠ p) : NpVec.dot B c = .error .valueError := dif_neg h

/-- A polynomial surface that was trained. -/
theorem C108_poly (lib : Model.ResponseSurfaces.Lib) (w w' : PolyApprox) (hm : 1 ≤ m) (hN : 1 ≤ w.N) (X : Matrix (Fin M) (Fin m) ℝ) (f : Fin M → ℝ)
    (weights : Option (Fin M → ℝ)) (h : (fit lib X f weights).run w = (.ok (), w')) (Y : NpMat) (hY : Y.cols ≠ m) (hY0 : Y.cols ≠ 0) (c : Bool) :
    w'.predict (.mat Y) c = .error .valueError := by
  have hM : (w.N + m).choose m ≤ M := by
    by_contra hc
    push Not at hc
    have h2 : (PolyApprox.train lib (.mat (NpMat.of X)) (.mat (NpMat.of (colMat f))) (weights.map NpVec.of)).run w = (.ok (), w') := h
    rw [Proofs.PolyTrain.train_eq] at h2
    unfold trainMat at h2
    rw [if_pos hc] at h2
    exact absurd (Prod.mk.inj h2).1 (by simp)
  obtain ⟨I, hI, -, -, hlen, w1, hrun, ht⟩ := Proofs.PolyTrain.train_run lib w hm hN X f weights hM
  obtain rfl := (Prod.mk.inj (h.symm.trans hrun)).2
  obtain ⟨J, hJ, -, -, -, hlenJ⟩ := C25_enumerates w.N Y.cols (by omega)
  have : w'.predictMat Y.val c = .error .valueError := by
    unfold PolyApprox.predictMat polynomial_bases
    rw [ht.hN, hJ]
    dsimp only [bind, Except.bind]
    rw [ht.hc]
    dsimp only
    rw [dot_length _ (by rw [hlenJ]; change I.length ≠ _; rw [hlen]; exact choose_ne hN (Ne.symm hY))]
  unfold PolyApprox.predict
  simp only [process_inputs, this]

/-- A radial basis surface of positive degree that was trained. -/
theorem C108_rbf_partial (lib : Model.ResponseSurfaces.Lib) (w w' : RBF) (hm : 1 ≤ m) (hN : 1 ≤ w.N) (X : Matrix (Fin M) (Fin m) ℝ) (f : Fin M → ℝ)
    (v e : Option NpVec) (h : (rfit lib X f v e).run w = (.ok (), w')) (Y : NpMat) (hY : Y.cols ≠ m) (c : Bool) :
    w'.predict (.mat Y) c = .error .valueError := by
  have hM : 0 < M := by
    rw [rfit_run] at h
    unfold rbfTrainMat at h
    split_ifs at h with h1
    · exact absurd (Prod.mk.inj h).1 (by simp)
    · have : 0 < (w.N + m).choose m := Nat.choose_pos (by omega)
      omega
  obtain ⟨t, g, hg, hfit, hN', hX, -, -, -, hell, hr, hc⟩ := rfit_ok lib w w' X f v e h
  obtain ⟨q0, hq0, hq, hK, hI, -⟩ := Proofs.RBF.rbfFit_spec hfit
  obtain ⟨I', hI', -, -, -, hlen⟩ := C25_enumerates w.N m hm
  have hlen : t.I.length = (w.N + m).choose m := by rw [← Except.ok.inj (hI'.symm.trans hI)]; exact hlen
  have : rbfPredictOther w'.N (NpMat.of X) (NpVec.of t.q.ell) (NpVec.of t.radial) (NpVec.of t.poly) Y c = .error .valueError := by
    unfold rbfPredictOther
    have hk : (∃ K, kernelOther Y (NpMat.of X) (NpVec.of t.q.ell) = .ok K ∧ Y.cols = 1) ∨
        kernelOther Y (NpMat.of X) (NpVec.of t.q.ell) = .error .valueError := by
      unfold kernelOther
      split_ifs with h1
      · refine .inl ⟨_, rfl, ?_⟩
        rcases h1 with h1 | h1
        · exact absurd h1 (by rw [NpMat.of_rows]; omega)
        · unfold NpMat.bdim at h1
          change (if Y.cols = m then some Y.cols else if Y.cols = 1 then some m else if m = 1 then some Y.cols else none) = some m at h1
          rw [if_neg hY] at h1
          by_contra h2
          rw [if_neg h2] at h1
          split_ifs at h1
          exact hY (Option.some.inj h1)
      · exact .inr rfl
    rcases hk with ⟨K, hk, h1⟩ | hk
    · obtain ⟨J, hJ, -, -, -, hlenJ⟩ := C25_enumerates w.N Y.cols (by omega)
      rw [hk]
      unfold polynomial_bases
      rw [hN', hJ]
      dsimp only [bind, Except.bind]
      have hp : ∀ B : Matrix (Fin Y.rows) (Fin J.length) ℝ, NpVec.dot B (NpVec.of t.poly) = .error .valueError := fun B =>
        dot_length B (by rw [hlenJ]; change t.I.length ≠ _; rw [hlen]; exact choose_ne hN (Ne.symm hY))
      rw [hp]
      unfold NpVec.dot
      split_ifs <;> rfl
    · rw [hk]
      rfl
  unfold RBF.predict
  simp only [process_inputs, hX, hell, hr, hc]
  rw [dif_neg (by rw [NpMat.of_cols]; exact fun h => hY h.1.symm), this]

/-- A radial basis surface of degree zero takes a single column for `m` equal ones. -/
theorem C108_rbf_column (lib : Model.ResponseSurfaces.Lib) (w w' : RBF) (hm : 2 ≤ m) (hN : w.N = 0) (X : Matrix (Fin M) (Fin m) ℝ) (f : Fin M → ℝ)
    (v e : Option NpVec) (h : (rfit lib X f v e).run w = (.ok (), w')) {K : ℕ} (x : Matrix (Fin K) (Fin 1) ℝ) :
    ∃ p, w'.predict (.mat (NpMat.of (repeated m x))) false = .ok p ∧ w'.predict (.mat (NpMat.of x)) false = .ok p := by
  obtain ⟨t, g, hg, hfit, hN', hX, -, -, -, hell, hr, hc⟩ := rfit_ok lib w w' X f v e h
  obtain ⟨q0, hq0, hq, hK, hI, -⟩ := Proofs.RBF.rbfFit_spec hfit
  rw [hN] at hI hN'
  obtain ⟨k, rfl⟩ : ∃ k, m = k + 1 := ⟨m - 1, by omega⟩
  clear hfit hq hK
  obtain ⟨q, K0, I, radial, poly, R⟩ := t
  dsimp only at hI hX hell hr hc
  obtain rfl : [fun _ => 0] = I := Except.ok.inj hI
  refine ⟨_, (Proofs.RBF.rbfPredict_eq w' (by rw [hN']; exact hI) X q.ell radial poly hX hell hr hc (repeated (k + 1) x)).1, ?_⟩
  have hk : kernelOther (NpMat.of x) (NpMat.of X) (NpVec.of q.ell) = .ok (exponential_squared (repeated (k + 1) x) X 1 q.ell) := by
    unfold kernelOther
    rw [if_pos (.inr (by rw [NpMat.of_cols, NpMat.of_cols, NpMat.bdim_one_left]; rfl))]
    refine congrArg _ (Matrix.ext fun i j => ?_)
    change 1 * Real.exp (∑ l : Fin (k + 1), ((NpMat.of x).bget i l - (NpMat.of X).bget j l) * ((NpMat.of x).bget i l - (NpMat.of X).bget j l) * (-1 / q.ell l))
      = 1 * Real.exp (∑ l : Fin (k + 1), (x i 0 - X j l) * (x i 0 - X j l) * (-1 / q.ell l))
    congr 2
    refine Finset.sum_congr rfl fun l _ => ?_
    rw [bget_of_col x i l, NpMat.bget_of X j l]
  have hp : rbfPredictOther w'.N (NpMat.of X) (NpVec.of q.ell) (NpVec.of radial) (NpVec.of poly) (NpMat.of x) false
      = .ok (fun i => Proofs.RBF.surface X q.ell radial (Proofs.PolyApprox.fitted [fun _ => 0] poly) (repeated (k + 1) x i), none) := by
    unfold rbfPredictOther
    rw [hk]
    unfold polynomial_bases
    rw [hN']
    have hJ : index_set 0 (NpMat.of x).cols = .ok [fun _ => 0] := rfl
    rw [hJ]
    dsimp only [bind, Except.bind]
    have h4 := Proofs.RBF.kernel_mulVec X q.ell radial (repeated (k + 1) x) [fun _ => 0] poly
    have h5 : NpVec.dot (monomials x [fun _ => 0]) (NpVec.of poly) = .ok ((monomials (repeated (k + 1) x) [fun _ => 0]).mulVec poly) := by
      refine (NpVec.dot_of (p := 1) (monomials x [fun _ => 0]) poly).trans (congrArg (fun B : Matrix (Fin K) (Fin 1) ℝ => Except.ok (B.mulVec poly)) ?_)
      ext i j
      simp [monomials]
    rw [show NpVec.dot (monomials (NpMat.of x).val [fun _ => 0]) (NpVec.of poly) = _ from h5]
    have h6 : NpVec.dot (exponential_squared (repeated (k + 1) x) X 1 q.ell) (NpVec.of radial) = _ := NpVec.dot_of _ _
    erw [h6]
    exact congrArg (fun F : Fin K → ℝ => Except.ok (F, none)) h4
  unfold RBF.predict
  simp only [process_inputs, hX, hell, hr, hc]
  rw [dif_neg (by rw [NpMat.of_cols, NpMat.of_cols]; omega), hp]
  rfl

/-- With a single column it returns the partial derivatives by the first variable only, at the point with `m` equal coordinates. -/
theorem C108_rbf_column_gradient (lib : Model.ResponseSurfaces.Lib) (w w' : RBF) (hm : 2 ≤ m) (hN : w.N = 0) (X : Matrix (Fin M) (Fin m) ℝ)
    (f : Fin M → ℝ) (v e : Option NpVec) (h : (rfit lib X f v e).run w = (.ok (), w')) {K : ℕ} (x : Matrix (Fin K) (Fin 1) ℝ) :
    ∃ (p : NpVec) (D : Matrix (Fin K) (Fin m) ℝ), w'.predict (.mat (NpMat.of (repeated m x))) true = .ok (p, some (NpMat.of D)) ∧
      w'.predict (.mat (NpMat.of x)) true = .ok (p, some (NpMat.of (Matrix.of fun i (_ : Fin 1) => D i ⟨0, by omega⟩))) := by
  obtain ⟨t, g, hg, hfit, hN', hX, -, -, -, hell, hr, hc⟩ := rfit_ok lib w w' X f v e h
  obtain ⟨q0, hq0, hq, hK, hI, -⟩ := Proofs.RBF.rbfFit_spec hfit
  rw [hN] at hI hN'
  obtain ⟨k, rfl⟩ : ∃ k, m = k + 1 := ⟨m - 1, by omega⟩
  clear hfit hq hK
  obtain ⟨q, K0, I, radial, poly, R⟩ := t
  dsimp only at hI hX hell hr hc
  obtain rfl : [fun _ => 0] = I := Except.ok.inj hI
  refine ⟨_, _, (Proofs.RBF.rbfPredict_eq w' (by rw [hN']; exact hI) X q.ell radial poly hX hell hr hc (repeated (k + 1) x)).2, ?_⟩
  have hk : kernelOther (NpMat.of x) (NpMat.of X) (NpVec.of q.ell) = .ok (exponential_squared (repeated (k + 1) x) X 1 q.ell) := by
    unfold kernelOther
    rw [if_pos (.inr (by rw [NpMat.of_cols, NpMat.of_cols, NpMat.bdim_one_left]; rfl))]
    refine congrArg _ (Matrix.ext fun i j => ?_)
    change 1 * Real.exp (∑ l : Fin (k + 1), ((NpMat.of x).bget i l - (NpMat.of X).bget j l) * ((NpMat.of x).bget i l - (NpMat.of X).bget j l) * (-1 / q.ell l))
      = 1 * Real.exp (∑ l : Fin (k + 1), (x i 0 - X j l) * (x i 0 - X j l) * (-1 / q.ell l))
    congr 2
    refine Finset.sum_congr rfl fun l _ => ?_
    rw [bget_of_col x i l, NpMat.bget_of X j l]
  have hgk : gradKernelOther (NpMat.of X) (NpMat.of x) (NpVec.of q.ell) 0 = .ok (grad_exponential_squared X (repeated (k + 1) x) 1 q.ell 0) := by
    unfold gradKernelOther
    rw [dif_pos ⟨Nat.succ_pos k, Nat.succ_pos k⟩]
    refine congrArg _ (Matrix.ext fun j i => ?_)
    change 1 * (-2 * (-1 / q.ell 0) * ((NpMat.of X).bget j 0 - (NpMat.of x).bget i 0))
        * Real.exp (∑ l : Fin (k + 1), ((NpMat.of X).bget j l - (NpMat.of x).bget i l) * ((NpMat.of X).bget j l - (NpMat.of x).bget i l) * (-1 / q.ell l))
      = 1 * (-2 * (-1 / q.ell 0) * (X j 0 - x i 0)) * Real.exp (∑ l : Fin (k + 1), (X j l - x i 0) * (X j l - x i 0) * (-1 / q.ell l))
    have hb : ∀ l : Fin (k + 1), (NpMat.of X).bget j l - (NpMat.of x).bget i l = X j l - x i 0 := fun l => by
      rw [bget_of_col x i l, NpMat.bget_of X j l]
    have hb0 : (NpMat.of X).bget j 0 - (NpMat.of x).bget i 0 = X j 0 - x i 0 := hb 0
    rw [hb0]
    simp only [hb]
  have hp : rbfPredictOther w'.N (NpMat.of X) (NpVec.of q.ell) (NpVec.of radial) (NpVec.of poly) (NpMat.of x) true
      = .ok (fun i => Proofs.RBF.surface X q.ell radial (Proofs.PolyApprox.fitted [fun _ => 0] poly) (repeated (k + 1) x i),
        some (Matrix.of fun i (_ : Fin 1) => Proofs.RBF.surfaceGrad X q.ell radial (Proofs.PolyApprox.fitted [fun _ => 0] poly) (repeated (k + 1) x i) 0)) := by
    unfold rbfPredictOther
    rw [hk]
    unfold polynomial_bases grad_polynomial_bases
    rw [hN']
    have hJ : index_set 0 (NpMat.of x).cols = .ok [fun _ => 0] := rfl
    rw [hJ]
    dsimp only [bind, Except.bind]
    have h4 := Proofs.RBF.kernel_mulVec X q.ell radial (repeated (k + 1) x) [fun _ => 0] poly
    have h5 : NpVec.dot (monomials x [fun _ => 0]) (NpVec.of poly) = .ok ((monomials (repeated (k + 1) x) [fun _ => 0]).mulVec poly) := by
      refine (NpVec.dot_of (p := 1) (monomials x [fun _ => 0]) poly).trans (congrArg (fun B : Matrix (Fin K) (Fin 1) ℝ => Except.ok (B.mulVec poly)) ?_)
      ext i j
      simp [monomials]
    have h7 : NpVec.dot (gradMonomials x [fun _ => 0] 0) (NpVec.of poly) = .ok ((gradMonomials (repeated (k + 1) x) [fun _ => 0] 0).mulVec poly) := by
      refine (NpVec.dot_of (p := 1) (gradMonomials x [fun _ => 0] 0) poly).trans (congrArg (fun B : Matrix (Fin K) (Fin 1) ℝ => Except.ok (B.mulVec poly)) ?_)
      ext i j
      simp [gradMonomials]
    have h8 : ((List.finRange (NpMat.of x).cols).mapM fun k : Fin (NpMat.of x).cols =>
        (gradKernelOther (NpMat.of X) (NpMat.of x) (NpVec.of q.ell) k).bind fun dK => (NpVec.dot dK.transpose (NpVec.of radial)).bind fun a =>
          (NpVec.dot (gradMonomials (NpMat.of x).val [fun _ => 0] k) (NpVec.of poly)).bind fun b => (pure (a + b) : Except Err (Fin K → ℝ)))
        = .ok [fun i => Proofs.RBF.surfaceGrad X q.ell radial (Proofs.PolyApprox.fitted [fun _ => 0] poly) (repeated (k + 1) x i) 0] := by
      refine (Proofs.PolyApprox.mapM_ok _ (fun _ => fun i => Proofs.RBF.surfaceGrad X q.ell radial
        (Proofs.PolyApprox.fitted [fun _ => 0] poly) (repeated (k + 1) x i) 0) (List.finRange 1) fun l _ => ?_)
      obtain rfl : l = 0 := Subsingleton.elim _ _
      change (gradKernelOther (NpMat.of X) (NpMat.of x) (NpVec.of q.ell) 0).bind _ = _
      rw [hgk, ← Proofs.RBF.grad_mulVec]
      change (NpVec.dot (grad_exponential_squared X (repeated (k + 1) x) 1 q.ell 0).transpose (NpVec.of radial)).bind _ = _
      rw [NpVec.dot_of]
      dsimp only [Except.bind]
      erw [h7]
      rfl
    rw [show NpVec.dot (monomials (NpMat.of x).val [fun _ => 0]) (NpVec.of poly) = _ from h5]
    have h6 : NpVec.dot (exponential_squared (repeated (k + 1) x) X 1 q.ell) (NpVec.of radial) = _ := NpVec.dot_of _ _
    erw [h6]
    dsimp only
    rw [if_pos rfl]
    erw [h8]
    refine congrArg Except.ok (Prod.ext h4 (congrArg some (Matrix.ext fun i j => ?_)))
    obtain ⟨j, hj⟩ := j
    obtain rfl : j = 0 := Nat.lt_one_iff.mp hj
    rfl
  unfold RBF.predict
  simp only [process_inputs, hX, hell, hr, hc]
  rw [dif_neg (by rw [NpMat.of_cols, NpMat.of_cols]; omega), hp]
  rfl

/-- The response surface of the active variables. -/
theorem C108_surface (surf : Surface R) (r : R) {s : Subspaces} {V1 : Matrix (Fin m) (Fin n) ℝ} {V2 : NpMat} (hW : s.W1 = some (NpMat.of V1))
    (hV : s.W2 = some V2) (X : NpMat) (h : X.cols ≠ m) (c : Bool) (a : AVMap S (R × E)) (ha : a.subspaces = s) (f : Arr) (v : Option NpVec) :
    Model.ActiveSurfaces.predict surf r s (.mat X) c = .error .valueError ∧ Model.ActiveSurfaces.gradient surf r s (.mat X) = .error .valueError ∧
    call surf r s (.mat X) = .error .valueError ∧ Refused (train_with_data surf a (.mat X) f v) .valueError := by
  have hp : ∀ c, Model.ActiveSurfaces.predict surf r s (.mat X) c = .error .valueError := fun c => by
    unfold Model.ActiveSurfaces.predict
    rw [C108_forward hW hV X h]
    rfl
  refine ⟨hp c, ?_, ?_, refused_bind (refused_lift ?_) _⟩
  · unfold Model.ActiveSurfaces.gradient
    rw [hp]
    rfl
  · unfold call
    rw [hp]
    rfl
  · unfold AVMap.forward
    rw [ha, C108_forward hW hV X h]

/-- A point determines constants. -/
theorem unisolvent_const (X : Matrix (Fin (M + 1)) (Fin m) ℝ) : Unisolvent 0 X := fun q hq h => by
  rw [Nat.le_zero, MvPolynomial.totalDegree_eq_zero_iff_eq_C] at hq
  have h0 := h 0
  rw [hq, MvPolynomial.eval_C] at h0
  rw [hq, h0, MvPolynomial.C_0]

/-- C108 fails: points of one input are normalised in the box of two, and evaluated by a surface of two variables. -/
theorem C108_refuted (lib : Model.ResponseSurfaces.Lib) (hch : CholeskyOK lib) (hfm : FminboundOK lib) :
    (¬ ∀ (lb ub : List ℝ) (s : BoundedNormalizer) (X : NpMat), BoundedNormalizer.init lb ub = .ok s → X.cols ≠ lb.length →
      ∀ Z, s.normalize (.mat X) ≠ .ok Z) ∧
    (¬ ∀ (s : UnboundedNormalizer 2) (X : NpMat), X.cols ≠ 2 → ∀ Z, s.normalize (.mat X) ≠ .ok Z) ∧
    ¬ ∀ (w w' : RBF) (X : Matrix (Fin 2) (Fin 2) ℝ) (f : Fin 2 → ℝ) (Y : NpMat), (rfit lib X f none none).run w = (.ok (), w') → Y.cols ≠ 2 →
      ∀ p, w'.predict (.mat Y) false ≠ .ok p := by
  refine ⟨fun h => ?_, fun h => ?_, fun h => ?_⟩
  · obtain ⟨s, hs, h1, -⟩ := C108_bounded_column ![(0 : ℝ), 0] ![1, 1] !![(1 : ℝ)]
    rw [show s = _ from (Except.ok.inj ((init_ofFn ![(0 : ℝ), 0] ![1, 1]).symm.trans hs)).symm] at h1
    exact h _ _ _ (NpMat.of !![(1 : ℝ)]) (init_ofFn ![(0 : ℝ), 0] ![1, 1]) (by rw [NpMat.of_cols, List.length_ofFn]; norm_num) _
      (h1.trans (normalize_of _ _ _))
  · exact h ⟨![0, 0], 1⟩ (NpMat.of !![(1 : ℝ)]) (by rw [NpMat.of_cols]; norm_num) _
      ((C108_unbounded_column _ _).trans (unormalize_of _ (by simp) _))
  · obtain ⟨w', hw⟩ := C69_train_partial lib hch hfm { N := 0 } (m := 2) (by norm_num) !![(0 : ℝ), 0; 1, 1] (unisolvent_const _) ![3, 5] none none
      (by rintro u ⟨⟩) (by rintro u ⟨⟩) (Or.inr (Or.inl ⟨rfl, rfl⟩))
    obtain ⟨p, -, hp⟩ := C108_rbf_column lib _ _ le_rfl rfl _ _ none none hw !![(1 : ℝ)]
    exact h _ _ _ _ (NpMat.of !![(1 : ℝ)]) hw (by rw [NpMat.of_cols]; norm_num) p hp

/-- The hypotheses hold: a trained polynomial of two variables, a trained radial basis surface of degree zero, a map with a partition. -/
example (lib : Model.ResponseSurfaces.Lib) (hl : LstsqOK lib) (hch : CholeskyOK lib) (hfm : FminboundOK lib) (rng : Rng S) (dlib : Model.Domains.Lib) :
    (∃ w' : PolyApprox, (fit lib !![(0 : ℝ), 0; 1, 0; 0, 1] ![1, 2, 3] none).run { N := 1 } = (.ok (), w')) ∧
    (∃ w' : RBF, (rfit lib !![(0 : ℝ), 0; 1, 1] ![3, 5] none none).run { N := 0 } = (.ok (), w')) ∧
    ∃ a : AVMap S E, StandardMap dlib rng a ∧ a.subspaces.eigenvecs = some (NpMat.of (1 : Matrix (Fin 2) (Fin 2) ℝ)) ∧
      a.subspaces.W1 = some (NpMat.of !![(1 : ℝ); 0]) ∧ a.subspaces.W2 = some (NpMat.of !![(0 : ℝ); 1]) := by
  refine ⟨?_, C69_train_partial lib hch hfm { N := 0 } (m := 2) (by norm_num) _ (unisolvent_const _) _ none none
      (by rintro u ⟨⟩) (by rintro u ⟨⟩) (Or.inr (Or.inl ⟨rfl, rfl⟩)), ?_⟩
  · obtain ⟨w', P, h, -⟩ := fit_ok lib hl { N := 1 } (m := 2) (by norm_num) le_rfl !![(0 : ℝ), 0; 1, 0; 0, 1] ![1, 2, 3] none (by decide)
    exact ⟨w', h⟩
  · let s : Subspaces := { eigenvecs := some (NpMat.of (1 : Matrix (Fin 2) (Fin 2) ℝ)), W1 := some (NpMat.of !![(1 : ℝ); 0]), W2 := some (NpMat.of !![(0 : ℝ); 1]) }
    exact ⟨⟨.unbounded, s, fun Y N => unboundedZ rng s Y N⟩, .inr rfl, rfl, rfl, rfl⟩

end Props
