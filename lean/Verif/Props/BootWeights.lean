import Verif.Props.WeightShapes
import Verif.Props.BootStream

/-!
# Property C134: the samples that the bootstrap draws from, for weights of any shape
-/

open Py Model.Misc Model.Subspaces Proofs.Run Proofs.Bootstrap
open Model.GradientsArr (Weights)

namespace Props

variable {S E : Type} {K m : ℕ}

/-- The first row alone. -/
def firstRow {n : ℕ} (A : Matrix (Fin (K + 1)) (Fin n) ℝ) : Matrix (Fin 1) (Fin n) ℝ := A.submatrix (fun _ => 0) id

theorem takeRows_first {n : ℕ} (A : Matrix (Fin (K + 1)) (Fin n) ℝ) : (NpMat.of A).takeRows (fun _ : Fin 1 => 0) = .ok (NpMat.of (firstRow A)) :=
  dif_pos fun _ => Nat.succ_pos K

/-- The data with a single row of weights. -/
def oneRow (X : Option (Matrix (Fin (K + 1)) (Fin m) ℝ)) (f : Option (Fin (K + 1) → ℝ)) (df : Option (Matrix (Fin (K + 1)) (Fin m) ℝ)) (w : NpMat) : Data :=
  ⟨X.map NpMat.of, f.map fun f => .mat (wcol f), df.map NpMat.of, w⟩

theorem takeRows_col (f : Fin (K + 1) → ℝ) : (Arr.mat (wcol f)).takeRows (fun _ : Fin 1 => 0) = .ok (.mat (wcol fun _ : Fin 1 => f 0)) := by
  unfold Arr.takeRows wcol
  dsimp only
  rw [takeRows_first]
  rfl

theorem take_first (X : Option (Matrix (Fin (K + 1)) (Fin m) ℝ)) (f : Option (Fin (K + 1) → ℝ)) (df : Option (Matrix (Fin (K + 1)) (Fin m) ℝ)) (w : NpMat) :
    (oneRow X f df w).take (fun _ : Fin 1 => 0)
      = (oneRow (X.map firstRow) (f.map fun f _ => f 0 : Option (Fin (0 + 1) → ℝ)) (df.map firstRow) w).take (fun _ : Fin 1 => 0) := by
  have h1 : (X.map NpMat.of).mapM (fun X => X.takeRows (fun _ : Fin 1 => 0)) = ((X.map firstRow).map NpMat.of).mapM (fun X => X.takeRows (fun _ : Fin 1 => 0)) := by
    cases X with
    | none => rfl
    | some X =>
      change (some <$> (NpMat.of X).takeRows (fun _ : Fin 1 => 0) : Except Err _) = some <$> (NpMat.of (firstRow X)).takeRows (fun _ : Fin 1 => 0)
      rw [takeRows_first, takeRows_first (K := 0)]
      rfl
  have h3 : (df.map NpMat.of).mapM (fun X => X.takeRows (fun _ : Fin 1 => 0)) = ((df.map firstRow).map NpMat.of).mapM (fun X => X.takeRows (fun _ : Fin 1 => 0)) := by
    cases df with
    | none => rfl
    | some X =>
      change (some <$> (NpMat.of X).takeRows (fun _ : Fin 1 => 0) : Except Err _) = some <$> (NpMat.of (firstRow X)).takeRows (fun _ : Fin 1 => 0)
      rw [takeRows_first, takeRows_first (K := 0)]
      rfl
  have h2 : (f.map fun f => Arr.mat (wcol f)).mapM (fun f => f.takeRows (fun _ : Fin 1 => 0))
      = ((f.map fun f _ => f 0 : Option (Fin (0 + 1) → ℝ)).map fun f => Arr.mat (wcol f)).mapM (fun f => f.takeRows (fun _ : Fin 1 => 0)) := by
    cases f with
    | none => rfl
    | some f =>
      change (some <$> (Arr.mat (wcol f)).takeRows (fun _ : Fin 1 => 0) : Except Err _) = some <$> (Arr.mat (wcol fun _ : Fin (0 + 1) => f 0)).takeRows (fun _ : Fin 1 => 0)
      rw [takeRows_col, takeRows_col (K := 0)]
  unfold Data.take oneRow
  dsimp only
  rw [h1, h2, h3]

theorem replicate_first (rng : Rng S) (X : Option (Matrix (Fin (K + 1)) (Fin m) ℝ)) (f : Option (Fin (K + 1) → ℝ)) (df : Option (Matrix (Fin (K + 1)) (Fin m) ℝ)) (c : Fin 1 → ℝ) :
    (bootstrap_replicate rng (oneRow X f df (wcol c)) : PyM (S × E) Data)
      = bootstrap_replicate rng (oneRow (X.map firstRow) (f.map fun f _ => f 0 : Option (Fin (0 + 1) → ℝ)) (df.map firstRow) (wcol c)) := by
  change (do
    let ind ← Rng.draw (randints rng 0 (0 + 1))
    PyM.lift ((oneRow X f df (wcol c)).take fun i => (ind i : ℕ))) = (do
    let ind ← Rng.draw (randints rng 0 (0 + 1))
    PyM.lift ((oneRow (X.map firstRow) (f.map fun f _ => f 0 : Option (Fin (0 + 1) → ℝ)) (df.map firstRow) (wcol c)).take fun i => (ind i : ℕ)))
  congr 1
  funext ind
  have : (fun i => (ind i : ℕ)) = fun _ : Fin 1 => 0 := funext fun i => by have := (ind i).2; omega
  congr 1
  exact (congrArg (oneRow X f df (wcol c)).take this).trans ((take_first X f df (wcol c)).trans (congrArg (Data.take _) this.symm))

theorem loop_first (lib : Model.Subspaces.Lib) (rng : Rng S) (t : SS) (X : Option (Matrix (Fin (K + 1)) (Fin m) ℝ)) (f : Option (Fin (K + 1) → ℝ))
    (df : Option (Matrix (Fin (K + 1)) (Fin m) ℝ)) (c : Fin 1 → ℝ) {n : ℕ} (W : Matrix (Fin n) (Fin n) ℝ) (k : ℕ) :
    (bootLoop lib rng t (oneRow X f df (wcol c)) W k : PyM (S × E) _)
      = bootLoop lib rng t (oneRow (X.map firstRow) (f.map fun f _ => f 0 : Option (Fin (0 + 1) → ℝ)) (df.map firstRow) (wcol c)) W k := by
  induction k with
  | zero => rfl
  | succ k ih =>
    unfold bootLoop
    rw [replicate_first, ih]

/-- C134: when all samples are given one number as their weight, the bootstrap is the bootstrap of the first sample alone. -/
theorem C134_number (lib : Model.Subspaces.Lib) (rng : Rng S) (t : SS) (p : EigPair) (X : Option (Matrix (Fin (K + 1)) (Fin m) ℝ)) (f : Option (Fin (K + 1) → ℝ))
    (df : Option (Matrix (Fin (K + 1)) (Fin m) ℝ)) (c : Fin 1 → ℝ) (k : ℕ) :
    (bootstrap_ranges lib rng t p (X.map NpMat.of) (f.map fun f => .mat (wcol f)) (df.map fun G => .mat (NpMat.of G)) (wcol c) k : PyM (S × E) BootRes)
      = bootstrap_ranges lib rng t p ((X.map firstRow).map NpMat.of) ((f.map fun f _ => f 0 : Option (Fin 1 → ℝ)).map fun f => .mat (wcol f))
          ((df.map firstRow).map fun G => .mat (NpMat.of G)) (wcol c) k := by
  have h1 : ∀ {r : ℕ} (df : Option (Matrix (Fin r) (Fin m) ℝ)), (df.map fun G => Arr.mat (NpMat.of G)).mapM process_inputs = .ok (df.map NpMat.of) := by
    intro r df
    cases df <;> rfl
  unfold bootstrap_ranges
  rw [h1, h1]
  dsimp only
  have hl := fun n => loop_first (E := E) lib rng t X f df c p.W n
  have hr := replicate_first (E := E) rng X f df c
  unfold oneRow at hl hr
  cases df with
  | some G =>
    by_cases h : m = p.m
    · refine (dif_pos (show (NpMat.of G).cols = p.m from h)).trans (Eq.trans ?_ (dif_pos (show (NpMat.of (firstRow G)).cols = p.m from h)).symm)
      rw [hl]
    · refine (dif_neg (show ¬ (NpMat.of G).cols = p.m from h)).trans (Eq.trans ?_ (dif_neg (show ¬ (NpMat.of (firstRow G)).cols = p.m from h)).symm)
      rw [hr]
  | none =>
    cases X with
    | some X =>
      by_cases h : m = p.m
      · refine (dif_pos (show (NpMat.of X).cols = p.m from h)).trans (Eq.trans ?_ (dif_pos (show (NpMat.of (firstRow X)).cols = p.m from h)).symm)
        rw [hl]
      · refine (dif_neg (show ¬ (NpMat.of X).cols = p.m from h)).trans (Eq.trans ?_ (dif_neg (show ¬ (NpMat.of (firstRow X)).cols = p.m from h)).symm)
        rw [hr]
    | none =>
      by_cases h : 0 = p.m
      · refine (dif_pos h).trans (Eq.trans ?_ (dif_pos h).symm)
        rw [hl]
      · refine (dif_neg h).trans (Eq.trans ?_ (dif_neg h).symm)
        rw [hr]

/-- C134: weights as a vector are refused by the bootstrap. -/
theorem C134_vector (lib : Model.Subspaces.Lib) (rng : Rng S) (X f df : Option Arr) (n : ℕ) (w : Fin n → ℝ) (sstype ptype : String) {nboot : ℤ} (hn : 0 < nboot)
    (u : S × Subspaces) : ∃ er u', (Model.WeightsArr.compute lib rng X f df (.vec n w) sstype ptype nboot).run u = (.error er, u') := by
  have hb : ∀ t p (X : Option NpMat) (f df : Option Arr) (u : S × Subspaces), ∃ er u',
      (Model.WeightsArr.bootStep lib rng t p X f df (.vec n w) ptype nboot : PyM (S × Subspaces) _).run u = (.error er, u') := by
    intro t p X f df u
    unfold Model.WeightsArr.bootStep
    dsimp only
    rw [if_pos hn]
    unfold Model.WeightsArr.boot_vec
    split
    · exact ⟨_, _, rfl⟩
    · dsimp only
      split_ifs
      · exact ⟨_, _, rfl⟩
      · cases n with
        | zero => exact ⟨_, _, rfl⟩
        | succ n => exact ⟨_, _, rfl⟩
  by_contra hne
  cases hr : (Model.WeightsArr.compute lib rng X f df (.vec n w) sstype ptype nboot).run u with
  | mk a u' =>
    cases a with
    | error er => exact hne ⟨er, u', hr⟩
    | ok _ =>
      unfold Model.WeightsArr.compute at hr
      obtain ⟨a, u1, -, hr⟩ := bind_inv hr
      split at hr
      · cases hr
      · obtain ⟨p, u2, -, hr⟩ := bind_inv hr
        obtain ⟨_, u3, -, hr⟩ := bind_inv hr
        obtain ⟨b, u4, h4, -⟩ := bind_inv hr
        obtain ⟨er, u5, h5⟩ := hb _ p a.X f a.df u3
        rw [show Model.WeightsArr.orDefault a.M (.vec n w) = .vec n w from rfl, h5] at h4
        cases h4

/-- C134: with the weights as a column (and an estimator that does not draw itself), every replicate takes as many rows as there are samples from
all samples, with their weights, and the ranges are those of the estimates. -/
theorem C134_column_partial {M : ℕ} {lib : Model.Subspaces.Lib} (hl : SubLibOK lib) (rng : Rng S) {t : SS} (ht : t ≠ .OPG) (X : Matrix (Fin M) (Fin m) ℝ) (f : Fin M → ℝ)
    (G : Matrix (Fin M) (Fin m) ℝ) (u : Fin M → ℝ) {sstype : String} (hs : SS.ofString sstype = some t) (ptype : String) (k : ℕ) {w w' : S × Subspaces}
    (h : (Model.WeightsArr.compute lib rng (some (.mat (NpMat.of X))) (some (.mat (wcol f))) (some (.mat (NpMat.of G))) (.mat (wcol u)) sstype ptype ((k + 1 : ℕ) : ℤ)).run w = (.ok (), w')) :
    ∃ (ind : Fin (k + 1) → Fin M → Fin M) (e : Fin (k + 1) → Fin m → ℝ) (V : Fin (k + 1) → Matrix (Fin m) (Fin m) ℝ) (B : Matrix (Fin m) (Fin 2) ℝ),
      (∀ b, ∃ u1 u2 : S × Subspaces, (estimate lib rng t (some (X.submatrix (ind b) id)) (some (f ∘ ind b)) (some (G.submatrix (ind b) id)) (u ∘ ind b)).run u1
        = (.ok ⟨m, e b, V b⟩, u2)) ∧
      w'.2.e_br = some (NpMat.of B) ∧ ∀ j, IsLeast (Set.range fun b => e b j) (B j 0) ∧ IsGreatest (Set.range fun b => e b j) (B j 1) := by
  rw [C133_compute lib rng X f G (.column u) sstype ptype _ fun _ => rfl] at h
  obtain ⟨e0, V0, c, o, u', -, -, h1, -, -, h2, -⟩ := compute_loop hl rng ht (some X) (some f) (some G) (.inl (by simp)) (some u) hs ptype h
  obtain ⟨ind, e, V, hb⟩ := bootLoop_inv hl rng t (some X) (some f) (some G) u V0 (k + 1) _ _ c h1
  refine ⟨ind, e, V, _, fun b => (hb b).2.2, h2, fun j => ?_⟩
  have hce : ∀ i, (c i).e = e i := fun i => by rw [(hb i).1]; rfl
  have e0 : (bootRanges c).e_br j 0 = min' fun i => e i j := by simp [bootRanges, hce]
  have e1 : (bootRanges c).e_br j 1 = max' fun i => e i j := by simp [bootRanges, hce]
  rw [e0, e1]
  obtain ⟨l1, b1, l2⟩ := min'_spec fun i => e i j
  obtain ⟨g1, b2, g2⟩ := max'_spec fun i => e i j
  exact ⟨⟨⟨b1, l2.symm⟩, by rintro _ ⟨b, rfl⟩; exact l1 b⟩, ⟨b2, g2.symm⟩, by rintro _ ⟨b, rfl⟩; exact g1 b⟩

/-- C134: one number as the weight of all gradients.  `compute` returns, whatever the generator, and the ranges of the eigenvalues are the points
`c` times the squared length of the first gradient, and 0. -/
theorem C134_number_active {lib : Model.Subspaces.Lib} (hl : SubLibOK lib) (rng : Rng S) (hm : 2 ≤ m) (G : Matrix (Fin (K + 1)) (Fin m) ℝ) {c : ℝ} (hc : 0 ≤ c) (k : ℕ)
    (w : S × Subspaces) : ∃ (e : Fin m → ℝ) (B : Matrix (Fin m) (Fin 2) ℝ) (w' : S × Subspaces),
      (Model.WeightsArr.compute lib rng none none (some (.mat (NpMat.of G))) (.mat (wcol fun _ : Fin 1 => c)) "AS" "EVG" ((k + 1 : ℕ) : ℤ)).run w = (.ok (), w') ∧
      w'.2.eigenvals = some (NpVec.of e) ∧ ∑ j, e j = c * ∑ i, ∑ a, G i a ^ 2 ∧
      w'.2.e_br = some (NpMat.of B) ∧ ∀ j, B j 0 = B j 1 ∧ B j 1 = if (j : ℕ) = 0 then c * ∑ a, G 0 a ^ 2 else 0 := by
  have hm0 : 0 < m := by omega
  obtain ⟨e, V, h1, h2, -, h3, -⟩ := C35_active_subspace lib hl hm0 G (fun _ => c) fun _ => hc
  have h1' := (C133_active_matches lib G (.number c)).trans h1
  obtain ⟨b, w3, hb⟩ := C41_succeeds (E := Subspaces) hl rng .AS e V none none (some (firstRow G)) (fun _ : Fin 1 => c) Nat.one_pos (.inr (by simp))
    (estimateOK_AS hl rng hm0 none none (firstRow G) fun _ => c) k (w.1, withEig ⟨m, e, V⟩ w.2)
  have hVV : V.transpose * V = 1 := by
    ext a b
    rw [Matrix.mul_apply, Matrix.one_apply]
    exact h2.orth a b
  obtain ⟨b', ind, e', V', d, hr, hest, hrange, -⟩ := C41_ranges hl rng .AS e V hVV none none (some (firstRow G)) (fun _ : Fin 1 => c) (.inr (by simp)) k _ _ _ hb
  obtain rfl : b = b' := eq_of_heq (BootRes.mk.inj hr).2
  have he' : ∀ i j, e' i j = if (j : ℕ) = 0 then c * ∑ a, G 0 a ^ 2 else 0 := by
    intro i j
    obtain ⟨u1, u2, hu⟩ := hest i
    have hi : ind i = fun _ => 0 := funext fun _ => Subsingleton.elim _ _
    rw [hi] at hu
    obtain ⟨e2, V2, h4, h5⟩ := C34_posSemidef lib hl hm0 _ (gradOuter_posSemidef ((firstRow G).submatrix (fun _ : Fin 1 => 0) id) ((fun _ : Fin 1 => c) ∘ fun _ : Fin 1 => 0) fun _ => hc)
    have h6 : (active_subspace lib (.mat (NpMat.of ((firstRow G).submatrix (fun _ : Fin 1 => 0) id))) (wcol ((fun _ : Fin 1 => c) ∘ fun _ : Fin 1 => 0)), u1)
      = (Except.ok ⟨m, e' i, V' i⟩, u2) := hu
    rw [active_subspace_eq, h4] at h6
    have h7 := Except.ok.inj (Prod.mk.inj h6).1
    obtain rfl : e2 = e' i := eq_of_heq (EigPair.mk.inj h7).2.1
    obtain ⟨r1, r2⟩ := repeated_eigs (K := 0) (firstRow G) 0 hm0 h5
    split_ifs with hj
    · rw [show j = ⟨0, hm0⟩ from Fin.ext hj, r2]
      simp [firstRow]
    · exact r1 j (Nat.pos_of_ne_zero hj)
  obtain ⟨n, n1, n2, d', hd, -⟩ := C38_gap hm e
  have hw3 : w3.2 = withEig ⟨m, e, V⟩ w.2 := by
    have := framed_ranges (E := Subspaces) lib rng .AS ⟨m, e, V⟩ none none (some (.mat (NpMat.of (firstRow G)))) (wcol fun _ : Fin 1 => c) k (w.1, withEig ⟨m, e, V⟩ w.2)
    rw [show (bootstrap_ranges lib rng .AS ⟨m, e, V⟩ none none (some (.mat (NpMat.of (firstRow G)))) (wcol fun _ : Fin 1 => c) k).run (w.1, withEig ⟨m, e, V⟩ w.2) = (.ok ⟨m, b⟩, w3) from hb] at this
    exact this
  obtain ⟨s', p1, -, p2, p3, p4, p5, -⟩ := partition_ok (w := (w3.1, withBoot (some ⟨m, b⟩) w3.2)) (V := V) (n := n)
    ((congrArg Subspaces.eigenvecs hw3).trans rfl) n1 n2.le
  refine ⟨e, b.e_br, (w3.1, s'), ?_, ?_, ?_, p4, fun j => ?_⟩
  · unfold Model.WeightsArr.compute
    rw [PyM.run_bind_ok (lift_of (show checkInputs none (some (.mat (NpMat.of G))) = .ok ⟨none, some (.mat (NpMat.of G)), K + 1, m⟩ from rfl) w)]
    change (PyM.lift (Model.WeightsArr.active_subspace lib (.mat (NpMat.of G)) (.mat (wcol fun _ : Fin 1 => c))) >>= _ : PyM (S × Subspaces) Unit).run w = _
    rw [PyM.run_bind_ok (lift_of h1' w)]
    refine (PyM.run_bind_ok (show (modifyObj (withEig ⟨m, e, V⟩)).run w = (.ok (), (w.1, withEig ⟨m, e, V⟩ w.2)) from rfl)).trans ?_
    have hk : ((k + 1 : ℕ) : ℤ).toNat - 1 = k := by omega
    have hb' : (Model.WeightsArr.bootStep lib rng .AS ⟨m, e, V⟩ none none (some (.mat (NpMat.of G))) (.mat (wcol fun _ : Fin 1 => c)) "EVG" ((k + 1 : ℕ) : ℤ)
        : PyM (S × Subspaces) _).run (w.1, withEig ⟨m, e, V⟩ w.2) = (.ok (some ⟨m, b⟩), w3) := by
      change (bootStep lib rng .AS ⟨m, e, V⟩ none none (some (.mat (NpMat.of G))) (wcol fun _ : Fin 1 => c) "EVG" ((k + 1 : ℕ) : ℤ)).run _ = _
      unfold bootStep
      rw [if_pos (by positivity), hk]
      have := C134_number (E := Subspaces) lib rng .AS ⟨m, e, V⟩ none none (some G) (fun _ : Fin 1 => c) k
      refine (PyM.run_bind_ok (a := ⟨m, b⟩) (w' := w3) ?_).trans rfl
      exact (congrArg (fun x : PyM (S × Subspaces) BootRes => x.run (w.1, withEig ⟨m, e, V⟩ w.2)) this).trans hb
    refine (PyM.run_bind_ok hb').trans ?_
    refine (PyM.run_bind_ok (show (modifyObj (withBoot (some ⟨m, b⟩))).run w3 = (.ok (), (w3.1, withBoot (some ⟨m, b⟩) w3.2)) from rfl)).trans ?_
    have hn : chooseDim "EVG" ⟨m, e, V⟩ m (some ⟨m, b⟩) = .ok n := by
      unfold chooseDim
      rw [if_pos rfl, hd]
      rfl
    rw [PyM.run_bind_ok (lift_of hn _)]
    exact p1
  · exact p3.trans ((congrArg Subspaces.eigenvals hw3).trans rfl)
  · rw [h3, Finset.mul_sum]
  · obtain ⟨-, ⟨i, hi⟩, i', hi'⟩ := hrange j
    rw [hi, hi', he', he']
    exact ⟨rfl, rfl⟩

/-- C134: then an estimated eigenvalue lies above its own range as soon as any other gradient is not zero. -/
theorem C134_refuted {lib : Model.Subspaces.Lib} (hl : SubLibOK lib) (rng : Rng S) (hm : 2 ≤ m) (G : Matrix (Fin (K + 1)) (Fin m) ℝ) {c : ℝ} (hc : 0 < c)
    {i : Fin (K + 1)} (hi : i ≠ 0) {a : Fin m} (ha : G i a ≠ 0) (k : ℕ) (w : S × Subspaces) :
    ∃ (e : Fin m → ℝ) (B : Matrix (Fin m) (Fin 2) ℝ) (w' : S × Subspaces),
      (Model.WeightsArr.compute lib rng none none (some (.mat (NpMat.of G))) (.mat (wcol fun _ : Fin 1 => c)) "AS" "EVG" ((k + 1 : ℕ) : ℤ)).run w = (.ok (), w') ∧
      w'.2.eigenvals = some (NpVec.of e) ∧ w'.2.e_br = some (NpMat.of B) ∧ ∃ j, B j 1 < e j := by
  obtain ⟨e, B, w', h1, h2, h3, h4, h5⟩ := C134_number_active hl rng hm G hc.le k w
  refine ⟨e, B, w', h1, h2, h4, ?_⟩
  by_contra hne
  push Not at hne
  have hle := Finset.sum_le_sum fun j (_ : j ∈ Finset.univ) => hne j
  rw [h3, Finset.sum_congr rfl fun j _ => (h5 j).2, Finset.sum_eq_single (⟨0, by omega⟩ : Fin m) (fun j _ hj => if_neg fun h => hj (Fin.ext h)) (by simp),
    if_pos rfl] at hle
  have h6 := le_of_mul_le_mul_left hle hc
  have h7 : (∑ a, G 0 a ^ 2) + ∑ a, G i a ^ 2 ≤ ∑ i, ∑ a, G i a ^ 2 := by
    rw [← Finset.sum_pair hi.symm (f := fun i => ∑ a, G i a ^ 2)]
    exact Finset.sum_le_sum_of_subset_of_nonneg (Finset.subset_univ _) fun i _ _ => Finset.sum_nonneg fun a _ => sq_nonneg _
  have h8 : 0 < ∑ a, G i a ^ 2 := Finset.sum_pos' (fun a _ => sq_nonneg _) ⟨a, Finset.mem_univ _, by positivity⟩
  linarith

example {lib : Model.Subspaces.Lib} (hl : SubLibOK lib) (rng : Rng S) (w : S × Subspaces) :=
  C134_refuted hl rng le_rfl (!![1, 0; 0, 2] : Matrix (Fin (1 + 1)) (Fin 2) ℝ) (c := 1 / 2) (by norm_num) (i := 1) (by decide) (a := 1) (by norm_num) 99 w

/-- `compute` returns for a column of weights. -/
example {lib : Model.Subspaces.Lib} (hl : SubLibOK lib) (rng : Rng S) (w : S × Subspaces) : ∃ w',
    (Model.WeightsArr.compute lib rng (some (.mat (NpMat.of !![0, 0; 1, 1]))) (some (.mat (wcol ![3, 5]))) (some (.mat (NpMat.of !![1, 0; 0, 2])))
      (.mat (wcol ![1 / 3, 2 / 3])) "AS" "RS" ((4 + 1 : ℕ) : ℤ)).run w = (.ok (), w') := by
  obtain ⟨w', h, -⟩ := C43_succeeds hl rng le_rfl (by norm_num) (some !![0, 0; 1, 1]) (some ![3, 5]) (some !![1, 0; 0, 2]) (some ![1 / 3, 2 / 3]) "AS" "RS" ((4 + 1 : ℕ) : ℤ) w
    (.inl ⟨rfl, by simp⟩) (.inr ⟨by simp, by norm_num⟩)
  exact ⟨w', by rw [C133_compute lib rng _ _ _ (.column ![1 / 3, 2 / 3]) "AS" "RS" _ fun _ => rfl]; exact h⟩

end Props
