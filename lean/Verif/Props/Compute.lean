import Verif.Props.Bootstrap
import Verif.Props.LocalLinear

/-!
# Properties C42, C43 and C72: the class `Subspaces`
-/

open Py Model.Subspaces Model.Misc Spec Matrix Proofs.Eigh Proofs.Bootstrap

namespace Props

variable {S E : Type} {M m : ℕ}

/-! ## `partition` -/

/-- `W1` holds the first `n` eigenvectors and `W2` the others, `1 ≤ n ≤ m`. -/
def IsSplit (s : Subspaces) : Prop :=
  ∃ (m n : ℕ) (V : Matrix (Fin m) (Fin m) ℝ) (V1 : Matrix (Fin m) (Fin n) ℝ) (V2 : Matrix (Fin m) (Fin (m - n)) ℝ),
    s.eigenvecs = some (NpMat.of V) ∧ s.W1 = some (NpMat.of V1) ∧ s.W2 = some (NpMat.of V2) ∧ 1 ≤ n ∧ n ≤ m ∧
    (∀ (i : Fin m) (j : Fin m) (j' : Fin n), (j : ℕ) = j' → V1 i j' = V i j) ∧
    ∀ (i : Fin m) (j : Fin m) (j' : Fin (m - n)), (j : ℕ) = n + j' → V2 i j' = V i j

theorem partition_ok {w : S × Subspaces} {V : Matrix (Fin m) (Fin m) ℝ} (hV : w.2.eigenvecs = some (NpMat.of V)) {n : ℕ}
    (h1 : 1 ≤ n) (h2 : n ≤ m) :
    ∃ s', (partition (.int n)).run w = (.ok (), (w.1, s')) ∧ IsSplit s' ∧ s'.eigenvecs = w.2.eigenvecs ∧
      s'.eigenvals = w.2.eigenvals ∧ s'.e_br = w.2.e_br ∧ s'.sub_br = w.2.sub_br ∧
      ∃ V1 : Matrix (Fin m) (Fin n) ℝ, s'.W1 = some (NpMat.of V1) := by
  unfold partition
  rw [PyM.run_bind_ok (PyM.run_get w), hV]
  simp only
  rw [if_neg (by simp; omega)]
  have hmin : min (((n : ℕ) : ℤ).toNat) m = n := by simp [h2]
  have hW1 : NpMat.of (V.submatrix id (Fin.castLE (Nat.min_le_right ((n : ℕ) : ℤ).toNat (NpMat.of V).cols)))
      = NpMat.of (V.submatrix id (Fin.castLE h2)) := by
    simp only [NpMat.of_cols]
    generalize_proofs hh
    revert hh
    rw [hmin]
    intro hh
    rfl
  refine ⟨_, rfl, ⟨m, n, V, V.submatrix id (Fin.castLE h2), Np.lastCols V n, hV, congrArg some hW1, rfl, h1, h2,
    fun i j j' h => ?_, fun i j j' h => ?_⟩, hV, rfl, rfl, rfl, _, congrArg some hW1⟩
  · exact congrArg (V i) (Fin.ext h.symm)
  · exact congrArg (V i) (Fin.ext h.symm)

theorem partition_error {w : S × Subspaces} {n : IntArg} {e : Err} {w' : S × Subspaces}
    (h : (partition n).run w = (.error e, w')) : w' = w := by
  cases n with
  | other => exact (Prod.mk.inj h).2.symm
  | int n =>
    unfold partition at h
    rw [PyM.run_bind_ok (PyM.run_get w)] at h
    cases hV : w.2.eigenvecs with
    | none =>
      rw [hV] at h
      exact (Prod.mk.inj h).2.symm
    | some V =>
      rw [hV] at h
      simp only at h
      split_ifs at h
      · exact (Prod.mk.inj h).2.symm
      · exact absurd (Prod.mk.inj h).1 (by simp)

/-! ## `compute` -/

theorem chooseDim_square {ptype : String} {p : EigPair} {m : ℕ} {b : Option BootRes} {n : ℕ}
    (h : chooseDim ptype p m b = .ok n) : 1 ≤ n ∧ n ≤ p.m := by
  unfold chooseDim at h
  split_ifs at h with h1 h2 h3
  · rcases lt_or_ge p.m 2 with hp | hp
    · rw [C38_error (by omega)] at h
      exact absurd h (by simp [bind, Except.bind])
    · obtain ⟨n', h4, h5, d, hd, -⟩ := C38_gap hp p.e
      rw [hd] at h
      have : n' = n := Except.ok.inj h
      omega
  · cases b with
    | none => simp at h
    | some b =>
      simp only at h
      split_ifs at h with hb
      rcases lt_or_ge p.m 2 with hp | hp
      · rw [(C39_errbnd_errors p.e _).1 (by omega)] at h
        exact absurd h (by simp [bind, Except.bind])
      · unfold errbnd_partition at h
        rw [if_neg (by omega)] at h
        split_ifs at h with hs
        · obtain ⟨i, hi, -⟩ := Np.argmin_ok (fun i : Fin (p.m - 1) =>
            Real.sqrt (∑ k ∈ Finset.univ.filter (fun k : Fin p.m => (k : ℕ) < i + 1), p.e k)
              * b.boot.sub_br (Fin.cast hb.symm (Fin.castLE hs i)) 1
            + Real.sqrt (∑ k ∈ Finset.univ.filter (fun k : Fin p.m => (i : ℕ) + 1 ≤ k), p.e k)) (by omega)
          simp only [bind, Except.bind] at h
          rw [hi] at h
          have : (i : ℕ) + 1 = n := Except.ok.inj h
          omega
        · exact absurd h (by simp [bind, Except.bind])
  · cases b with
    | none => simp at h
    | some b =>
      simp only at h
      split_ifs at h with hb
      rcases Nat.eq_zero_or_pos p.m with hp | hp
      · exfalso
        rcases p with ⟨pm, e, W⟩
        obtain rfl : pm = 0 := hp
        unfold ladle_partition Np.argminNan at h
        simp only [List.finRange_zero, List.find?_nil] at h
        rw [Np.argmin_empty] at h
        exact absurd h (by simp [bind, Except.bind])
      · obtain ⟨n', G, hn, h4, h5⟩ := ladle_ok hp p.e fun i => b.boot.li_F (Fin.cast hb.symm i)
        rw [hn] at h
        have : n' = n := Except.ok.inj h
        omega

theorem lift_of {α W : Type} {x r : Except Err α} (h : x = r) (w : W) : (PyM.lift x).run w = (r, w) := by
  rw [PyM.run_lift, h]

/-- What a call of `compute` can do to the object: nothing (it raised before the subspace was known); store eigenpairs and
raise, keeping `W1` and `W2`; or succeed. -/
theorem compute_cases (lib : Model.Subspaces.Lib) (rng : Rng S) (X f df : Option Arr) (weights : Option NpMat)
    (sstype ptype : String) (nboot : ℤ) (w w' : S × Subspaces) (r : Except Err Unit)
    (h : (compute lib rng X f df weights sstype ptype nboot).run w = (r, w')) :
    (w'.2 = w.2 ∧ ∃ e, r = .error e) ∨
    (∃ (m : ℕ) (V : Matrix (Fin m) (Fin m) ℝ), w'.2.eigenvecs = some (NpMat.of V) ∧ w'.2.W1 = w.2.W1 ∧ w'.2.W2 = w.2.W2 ∧
      ∃ e, r = .error e) ∨
    (r = .ok () ∧ IsSplit w'.2) := by
  unfold compute at h
  cases ha : checkInputs X df with
  | error e =>
    rw [PyM.run_bind_error (lift_of ha w)] at h
    exact .inl ⟨(Prod.mk.inj h).2 ▸ rfl, e, (Prod.mk.inj h).1.symm⟩
  | ok a =>
    rw [PyM.run_bind_ok (lift_of ha w)] at h
    simp only at h
    cases ht : SS.ofString sstype with
    | none =>
      rw [ht] at h
      exact .inl ⟨(Prod.mk.inj h).2 ▸ rfl, _, (Prod.mk.inj h).1.symm⟩
    | some t =>
      rw [ht] at h
      simp only at h
      generalize weights.getD (NpMat.of (Matrix.of fun (_ : Fin a.M) (_ : Fin 1) => 1 / (a.M : ℝ))) = wt at h
      have hfr := framed_ssCall (E := Subspaces) lib rng t a.X f a.df wt w
      rcases hp : (ssCall lib rng t a.X f a.df wt : PyM (S × Subspaces) EigPair).run w with ⟨rp, w1⟩
      rw [hp] at hfr
      cases rp with
      | error e =>
        rw [PyM.run_bind_error hp] at h
        exact .inl ⟨by rw [← (Prod.mk.inj h).2]; exact hfr, e, (Prod.mk.inj h).1.symm⟩
      | ok p =>
        rw [PyM.run_bind_ok hp] at h
        obtain ⟨w2, hw2⟩ : ∃ w2 : S × Subspaces, w2 = (w1.1, withEig p w1.2) := ⟨_, rfl⟩
        rw [PyM.run_bind_ok (show (modifyObj (withEig p)).run w1 = (.ok (), w2) from hw2 ▸ rfl)] at h
        have hv2 : w2.2.eigenvecs = some (NpMat.of p.W) := by rw [hw2]; rfl
        have h12 : w2.2.W1 = w.2.W1 ∧ w2.2.W2 = w.2.W2 := by rw [hw2, ← hfr]; exact ⟨rfl, rfl⟩
        have hfb : Framed (bootStep lib rng t p a.X f a.df wt ptype nboot : PyM (S × Subspaces) (Option BootRes)) := by
          unfold bootStep
          split_ifs
          · exact framed_bind (framed_ranges _ _ _ _ _ _ _ _ _) fun _ => framed_pure _
          · exact framed_raise _
          · exact framed_pure _
        have hfr3 := hfb w2
        rcases hb : (bootStep lib rng t p a.X f a.df wt ptype nboot : PyM (S × Subspaces) (Option BootRes)).run w2 with ⟨rb, w3⟩
        rw [hb] at hfr3
        simp only at hfr3
        cases rb with
        | error e =>
          rw [PyM.run_bind_error hb] at h
          refine .inr (.inl ⟨p.m, p.W, ?_⟩)
          rw [← (Prod.mk.inj h).2, hfr3]
          exact ⟨hv2, h12.1, h12.2, e, (Prod.mk.inj h).1.symm⟩
        | ok b =>
          rw [PyM.run_bind_ok hb] at h
          obtain ⟨w4, hw4⟩ : ∃ w4 : S × Subspaces, w4 = (w3.1, withBoot b w3.2) := ⟨_, rfl⟩
          rw [PyM.run_bind_ok (show (modifyObj (withBoot b)).run w3 = (.ok (), w4) from hw4 ▸ rfl)] at h
          have hv4 : w4.2.eigenvecs = some (NpMat.of p.W) := by rw [hw4]; exact (congrArg Subspaces.eigenvecs hfr3).trans hv2
          have h14 : w4.2.W1 = w.2.W1 ∧ w4.2.W2 = w.2.W2 := by
            rw [hw4]
            exact ⟨(congrArg Subspaces.W1 hfr3).trans h12.1, (congrArg Subspaces.W2 hfr3).trans h12.2⟩
          cases hc : chooseDim ptype p a.m b with
          | error e =>
            rw [PyM.run_bind_error (lift_of hc w4)] at h
            refine .inr (.inl ⟨p.m, p.W, ?_⟩)
            rw [← (Prod.mk.inj h).2]
            exact ⟨hv4, h14.1, h14.2, e, (Prod.mk.inj h).1.symm⟩
          | ok n =>
            rw [PyM.run_bind_ok (lift_of hc w4)] at h
            obtain ⟨hn1, hn2⟩ := chooseDim_square hc
            obtain ⟨s', h5, h6, -⟩ := partition_ok hv4 hn1 hn2
            rw [h5] at h
            refine .inr (.inr ⟨(Prod.mk.inj h).1.symm, ?_⟩)
            rw [← (Prod.mk.inj h).2]
            exact h6

/-! ## C42 -/

/-- States of a `Subspaces` object that can be reached by calls of `partition` and `compute`, provided a `compute` that raises
after it has stored new eigenvectors is made only while `W1` is not set. -/
inductive Reach (lib : Model.Subspaces.Lib) (rng : Rng S) : Subspaces → Prop where
  | init : Reach lib rng {}
  | partition (s : Subspaces) (n : IntArg) (st : S) : Reach lib rng s → Reach lib rng ((partition n).run (st, s)).2.2
  | compute (s : Subspaces) (st : S) (X f df : Option Arr) (weights : Option NpMat) (sstype ptype : String) (nboot : ℤ)
      (r : Except Err Unit) (w' : S × Subspaces) : Reach lib rng s →
      (compute lib rng X f df weights sstype ptype nboot).run (st, s) = (r, w') →
      (r = .ok () ∨ s.W1 = none ∨ w'.2.eigenvecs = s.eigenvecs) → Reach lib rng w'.2

/-- C42, the part that holds. -/
theorem C42_split_partial (lib : Model.Subspaces.Lib) (rng : Rng S) (s : Subspaces) (h : Reach lib rng s) :
    (s.W1 = none ∧ s.W2 = none) ∨ IsSplit s := by
  suffices hs : ((s.W1 = none ∧ s.W2 = none) ∨ IsSplit s) ∧
      (s.eigenvecs = none ∨ ∃ (m : ℕ) (V : Matrix (Fin m) (Fin m) ℝ), s.eigenvecs = some (NpMat.of V)) from hs.1
  induction h with
  | init => exact ⟨.inl ⟨rfl, rfl⟩, .inl rfl⟩
  | partition s n st _ ih =>
    rcases hr : (partition n).run (st, s) with ⟨r, w'⟩
    cases r with
    | error e =>
      rw [partition_error hr]
      exact ih
    | ok _ =>
      cases n with
      | other => exact absurd (congrArg Prod.fst hr) (by simp [partition])
      | int n =>
        rcases ih.2 with hn | ⟨m, V, hV⟩
        · unfold partition at hr
          rw [PyM.run_bind_ok (PyM.run_get _)] at hr
          simp only [hn] at hr
          exact absurd (congrArg Prod.fst hr) (by simp)
        · by_cases hn : n < 1 ∨ n > m
          · unfold partition at hr
            rw [PyM.run_bind_ok (PyM.run_get _)] at hr
            simp only [hV] at hr
            rw [if_pos (by simpa using hn)] at hr
            exact absurd (congrArg Prod.fst hr) (by simp)
          · push Not at hn
            obtain ⟨k, rfl⟩ : ∃ k : ℕ, n = k := ⟨n.toNat, by omega⟩
            obtain ⟨s', h5, h6, h7, -⟩ := partition_ok (w := (st, s)) hV (n := k) (by omega) (by omega)
            rw [h5] at hr
            rw [← (Prod.mk.inj hr).2]
            exact ⟨.inr h6, .inr ⟨m, V, h7.trans hV⟩⟩
  | compute s st X f df weights sstype ptype nboot r w' _ hrun hcond ih =>
    rcases compute_cases lib rng X f df weights sstype ptype nboot (st, s) w' r hrun with ⟨h1, -⟩ | ⟨m, V, h1, h2, h3, e, h4⟩ | ⟨-, h1⟩
    · rw [h1]
      exact ih
    · refine ⟨?_, .inr ⟨m, V, h1⟩⟩
      rcases hcond with h | h | h
      · exact absurd (h4.symm.trans h) (by simp)
      · rcases ih.1 with h5 | ⟨_, _, _, _, _, -, h5, -⟩
        · exact .inl ⟨h2.trans h5.1, h3.trans h5.2⟩
        · exact absurd (h.symm.trans h5) (by simp)
      · rcases ih.1 with h5 | ⟨m', n, V', V1, V2, h5, h6, h7, h8⟩
        · exact .inl ⟨h2.trans h5.1, h3.trans h5.2⟩
        · exact .inr ⟨m', n, V', V1, V2, h.trans h5, h2.trans h6, h3.trans h7, h8⟩
    · refine ⟨.inr h1, .inr ?_⟩
      obtain ⟨m, n, V, -, -, h2, -⟩ := h1
      exact ⟨m, V, h2⟩

/-! ## C43 -/

/-- `compute` on a sample of consistent shape. -/
noncomputable def computeOn (lib : Model.Subspaces.Lib) (rng : Rng S) (X : Option (Matrix (Fin M) (Fin m) ℝ))
    (f : Option (Fin M → ℝ)) (df : Option (Matrix (Fin M) (Fin m) ℝ)) (weights : Option (Fin M → ℝ)) (sstype ptype : String)
    (nboot : ℤ) : PyM (S × Subspaces) Unit :=
  compute lib rng (X.map fun X => .mat (NpMat.of X)) (f.map fun f => .mat (wcol f)) (df.map fun X => .mat (NpMat.of X))
    (weights.map wcol) sstype ptype nboot

/-- The weights used. -/
noncomputable def weightsOf (weights : Option (Fin M → ℝ)) : Fin M → ℝ := weights.getD fun _ => 1 / (M : ℝ)

/-- The required data are there. -/
def HasData (t : SS) {α β γ : Type} (X : Option α) (f : Option β) (df : Option γ) : Prop :=
  match t with
  | .AS => df ≠ none
  | _ => X ≠ none ∧ f ≠ none

/-- C43: without `X` and `df`, with missing data or an unknown subspace type, `compute` raises and the object (and the
generator) are as before. -/
theorem C43_untouched (lib : Model.Subspaces.Lib) (rng : Rng S) (X f df : Option Arr) (weights : Option NpMat)
    (sstype ptype : String) (nboot : ℤ) (w : S × Subspaces)
    (h : (X = none ∧ df = none) ∨ SS.ofString sstype = none ∨ ∃ t, SS.ofString sstype = some t ∧ ¬ HasData t X f df) :
    ∃ e, (compute lib rng X f df weights sstype ptype nboot).run w = (.error e, w) := by
  cases ha : checkInputs X df with
  | error e =>
    unfold compute
    rw [PyM.run_bind_error (lift_of ha w)]
    exact ⟨e, rfl⟩
  | ok a =>
    unfold compute
    rw [PyM.run_bind_ok (lift_of ha w)]
    simp only
    rcases h with ⟨rfl, rfl⟩ | h | ⟨t, ht, hd⟩
    · exact absurd ha (by simp [checkInputs])
    · rw [h]
      exact ⟨_, rfl⟩
    · rw [ht]
      simp only
      have hX : X = none → a.X = none := by
        rintro rfl
        cases df with
        | none => exact absurd ha (by simp [checkInputs])
        | some df =>
          simp only [checkInputs] at ha
          cases hdf : process_inputs df with
          | error e => rw [hdf] at ha; exact absurd ha (by simp)
          | ok d => rw [hdf] at ha; rw [← Except.ok.inj ha]
      have hdf : df = none → a.df = none := by
        rintro rfl
        cases X with
        | none => exact absurd ha (by simp [checkInputs])
        | some X =>
          simp only [checkInputs] at ha
          cases hX : process_inputs X with
          | error e => rw [hX] at ha; exact absurd ha (by simp)
          | ok d => rw [hX] at ha; rw [← Except.ok.inj ha]
      refine ⟨.exception, ?_⟩
      rw [PyM.run_bind_error]
      unfold HasData at hd
      cases t with
      | AS =>
        rw [hdf (not_not.mp hd)]
        rfl
      | OLS =>
        rw [not_and_or, not_not, not_not] at hd
        rcases hd with hd | hd
        · rw [hX hd]; rfl
        · rw [hd]; cases a.X <;> rfl
      | QPHD =>
        rw [not_and_or, not_not, not_not] at hd
        rcases hd with hd | hd
        · rw [hX hd]; rfl
        · rw [hd]; cases a.X <;> rfl
      | OPG =>
        rw [not_and_or, not_not, not_not] at hd
        rcases hd with hd | hd
        · rw [hX hd]; rfl
        · rw [hd]; cases a.X <;> rfl

/-- C43: the subspace types are exactly four strings. -/
theorem C43_sstype (s : String) : SS.ofString s = none ↔ s ∉ ["AS", "OLS", "QPHD", "OPG"] := by
  unfold SS.ofString
  simp only [List.mem_cons, List.not_mem_nil, or_false, not_or]
  split_ifs with h1 h2 h3 h4 <;> simp [*]

/-- C43: an unknown partition type raises; `RS` and `LI` without bootstrap raise. -/
theorem C43_ptype (lib : Model.Subspaces.Lib) (rng : Rng S) (X f df : Option Arr) (weights : Option NpMat)
    (sstype ptype : String) (nboot : ℤ) (w : S × Subspaces)
    (h : ptype ∉ ["EVG", "RS", "LI"] ∨ (ptype ∈ ["RS", "LI"] ∧ nboot ≤ 0)) :
    ∃ e w', (compute lib rng X f df weights sstype ptype nboot).run w = (.error e, w') := by
  rcases hr : (compute lib rng X f df weights sstype ptype nboot).run w with ⟨r, w'⟩
  cases r with
  | error e => exact ⟨e, w', rfl⟩
  | ok _ =>
    exfalso
    unfold compute at hr
    obtain ⟨a, w1, -, hr⟩ := bind_ok hr
    simp only at hr
    cases ht : SS.ofString sstype with
    | none => rw [ht] at hr; exact absurd (congrArg Prod.fst hr) (by simp)
    | some t =>
      rw [ht] at hr
      simp only at hr
      obtain ⟨p, w2, -, hr⟩ := bind_ok hr
      obtain ⟨-, w3, -, hr⟩ := bind_ok hr
      obtain ⟨b, w4, hb, hr⟩ := bind_ok hr
      obtain ⟨-, w5, -, hr⟩ := bind_ok hr
      obtain ⟨n, w6, hn, hr⟩ := bind_ok hr
      rcases h with h | ⟨h, h0⟩
      · have h1 : chooseDim ptype p a.m b = .ok n := congrArg Prod.fst hn
        simp only [List.mem_cons, List.not_mem_nil, or_false, not_or] at h
        unfold chooseDim at h1
        rw [if_neg h.1, if_neg h.2.1, if_neg h.2.2] at h1
        exact absurd h1 (by simp)
      · unfold bootStep at hb
        rw [if_neg (by omega), if_pos (by simpa using h)] at hb
        exact absurd (congrArg Prod.fst hb) (by simp)

theorem checkInputs_of (X df : Option (Matrix (Fin M) (Fin m) ℝ)) (h : X ≠ none ∨ df ≠ none) :
    checkInputs (X.map fun X => .mat (NpMat.of X)) (df.map fun X => .mat (NpMat.of X))
      = .ok ⟨X.map NpMat.of, df.map fun X => .mat (NpMat.of X), M, m⟩ := by
  cases X with
  | some X => rfl
  | none =>
    cases df with
    | some df => rfl
    | none => simp at h

theorem getD_weights (weights : Option (Fin M → ℝ)) :
    (weights.map wcol).getD (NpMat.of (Matrix.of fun (_ : Fin M) (_ : Fin 1) => 1 / (M : ℝ))) = wcol (weightsOf weights) := by
  cases weights <;> rfl

/-- C43: with a known subspace type, its data, a partition type that fits the bootstrap and at least two inputs, `compute`
succeeds if the estimate succeeds on the sample and (with bootstrap) on every resampling. -/
theorem compute_ok {lib : Model.Subspaces.Lib} (hl : SubLibOK lib) (rng : Rng S) (hm : 2 ≤ m) (hM : 0 < M)
    (X : Option (Matrix (Fin M) (Fin m) ℝ)) (f : Option (Fin M → ℝ)) (df : Option (Matrix (Fin M) (Fin m) ℝ))
    (weights : Option (Fin M → ℝ)) (h : X ≠ none ∨ df ≠ none) (sstype ptype : String) (t : SS)
    (ht : SS.ofString sstype = some t) (nboot : ℤ) (w w1 : S × Subspaces) (p : EigPair)
    (hest : (estimate lib rng t X f df (weightsOf weights)).run w = (.ok p, w1))
    (hok : 0 < nboot → EstimateOK lib rng Subspaces t X f df (weightsOf weights))
    (hp : ptype = "EVG" ∨ (ptype ∈ ["RS", "LI"] ∧ 0 < nboot)) :
    ∃ (e : Fin m → ℝ) (V : Matrix (Fin m) (Fin m) ℝ) (w' : S × Subspaces), p = ⟨m, e, V⟩ ∧
      (computeOn lib rng X f df weights sstype ptype nboot).run w = (.ok (), w') ∧ IsSplit w'.2 ∧
      w'.2.eigenvals = some (NpVec.of e) ∧ w'.2.eigenvecs = some (NpMat.of V) ∧
      (nboot ≤ 0 → w'.2.e_br = none ∧ w'.2.sub_br = none) ∧
      (0 < nboot → ∃ b : Boot m, w'.2.e_br = some (NpMat.of b.e_br) ∧ w'.2.sub_br = some (NpMat.of b.sub_br)) ∧
      (ptype = "EVG" → ∃ (n : ℕ) (d : Fin (m - 1) → ℝ) (V1 : Matrix (Fin m) (Fin n) ℝ),
        eig_partition e = .ok (n, d) ∧ w'.2.W1 = some (NpMat.of V1)) := by
  obtain ⟨e, V, rfl, -⟩ := estimate_good hl rng t _ _ _ _ hest
  unfold computeOn compute
  rw [PyM.run_bind_ok (lift_of (checkInputs_of X df h) w)]
  simp only [getD_weights]
  rw [ht]
  simp only
  have hest' : (ssCall lib rng t (X.map NpMat.of) (f.map fun f => .mat (wcol f)) (df.map fun X => .mat (NpMat.of X))
    (wcol (weightsOf weights))).run w = (.ok ⟨m, e, V⟩, w1) := hest
  rw [PyM.run_bind_ok hest']
  obtain ⟨w2, hw2⟩ : ∃ w2 : S × Subspaces, w2 = (w1.1, withEig ⟨m, e, V⟩ w1.2) := ⟨_, rfl⟩
  rw [PyM.run_bind_ok (show (modifyObj (withEig ⟨m, e, V⟩)).run w1 = (.ok (), w2) from hw2 ▸ rfl)]
  have hboot : ∃ (b : Option BootRes) (w3 : S × Subspaces), (bootStep lib rng t ⟨m, e, V⟩ (X.map NpMat.of)
      (f.map fun f => .mat (wcol f)) (df.map fun X => .mat (NpMat.of X)) (wcol (weightsOf weights)) ptype nboot).run w2 = (.ok b, w3) ∧ w3.2 = w2.2 ∧
      (nboot ≤ 0 → b = none) ∧ (0 < nboot → ∃ b' : Boot m, b = some ⟨m, b'⟩) := by
    unfold bootStep
    by_cases hn : nboot > 0
    · obtain ⟨b, w3, hb⟩ := C41_succeeds hl rng t e V X f df (weightsOf weights) hM h (hok hn) (nboot.toNat - 1) w2
      refine ⟨some ⟨m, b⟩, w3, ?_, ?_, fun h => by omega, fun _ => ⟨b, rfl⟩⟩
      · rw [if_pos hn, PyM.run_bind_ok hb]
        rfl
      · have := framed_ranges (E := Subspaces) lib rng t ⟨m, e, V⟩ (X.map NpMat.of) (f.map fun f => .mat (wcol f))
          (df.map fun X => .mat (NpMat.of X)) (wcol (weightsOf weights)) (nboot.toNat - 1) w2
        rw [hb] at this
        exact this
    · refine ⟨none, w2, ?_, rfl, fun _ => rfl, fun h => absurd h hn⟩
      rw [if_neg hn, if_neg]
      · rfl
      · rcases hp with rfl | ⟨-, h0⟩
        · decide
        · exact absurd h0 hn
  obtain ⟨b, w3, hb, hw3, hb0, hb1⟩ := hboot
  rw [PyM.run_bind_ok hb]
  obtain ⟨w4, hw4⟩ : ∃ w4 : S × Subspaces, w4 = (w3.1, withBoot b w3.2) := ⟨_, rfl⟩
  rw [PyM.run_bind_ok (show (modifyObj (withBoot b)).run w3 = (.ok (), w4) from hw4 ▸ rfl)]
  have hv4 : w4.2.eigenvecs = some (NpMat.of V) := by
    rw [hw4]
    exact (congrArg Subspaces.eigenvecs hw3).trans (by rw [hw2]; rfl)
  have he4 : w4.2.eigenvals = some (NpVec.of e) := by
    rw [hw4]
    exact (congrArg Subspaces.eigenvals hw3).trans (by rw [hw2]; rfl)
  have hdim : ∃ n : ℕ, chooseDim ptype ⟨m, e, V⟩ m b = .ok n ∧ 1 ≤ n ∧ n ≤ m ∧
      (ptype = "EVG" → ∃ d, eig_partition e = .ok (n, d)) := by
    rcases hp with rfl | ⟨hp, h0⟩
    · obtain ⟨n, h1, h2, d, hd, -⟩ := C38_gap hm e
      refine ⟨n, ?_, h1, h2.le, fun _ => ⟨d, hd⟩⟩
      unfold chooseDim
      rw [if_pos rfl, hd]
      rfl
    · obtain ⟨b', rfl⟩ := hb1 h0
      obtain ⟨n, h1, h2, h3, -⟩ := C40_chosen (S := S) hm e V b' (some ⟨m, b'⟩) ptype (.inr ⟨by simpa using hp, rfl⟩)
      refine ⟨n, h1, h2, h3, fun h => ?_⟩
      rw [h] at hp
      exact absurd hp (by decide)
  obtain ⟨n, hn, hn1, hn2, hevg⟩ := hdim
  rw [PyM.run_bind_ok (lift_of hn w4)]
  obtain ⟨s', h5, h6, h7, h8, h9, h10, V1, h11⟩ := partition_ok hv4 hn1 hn2
  refine ⟨e, V, (w4.1, s'), rfl, h5, h6, h8.trans he4, h7.trans hv4, fun h => ?_, fun h => ?_, fun h => ?_⟩
  · rw [hb0 h] at hw4
    exact ⟨h9.trans (by rw [hw4]; rfl), h10.trans (by rw [hw4]; rfl)⟩
  · obtain ⟨b', hb'⟩ := hb1 h
    rw [hb'] at hw4
    exact ⟨b', h9.trans (by rw [hw4]; rfl), h10.trans (by rw [hw4]; rfl)⟩
  · obtain ⟨d, hd⟩ := hevg h
    exact ⟨n, d, V1, hd, h11⟩

theorem estimateOK_self {lib : Model.Subspaces.Lib} {rng : Rng S} {t : SS} {X : Option (Matrix (Fin M) (Fin m) ℝ)}
    {f : Option (Fin M → ℝ)} {df : Option (Matrix (Fin M) (Fin m) ℝ)} {w : Fin M → ℝ}
    (h : EstimateOK lib rng E t X f df w) (u : S × E) : ∃ p u', (estimate lib rng t X f df w).run u = (.ok p, u') := by
  obtain ⟨p, u', h1⟩ := h id u
  have e1 : (X.map fun X => X.submatrix id id) = X := by cases X <;> rfl
  have e2 : (f.map fun f => f ∘ id) = f := by cases f <;> rfl
  have e3 : (df.map fun X => X.submatrix id id) = df := by cases df <;> rfl
  rw [e1, e2, e3] at h1
  exact ⟨p, u', h1⟩

/-- C43: the success cases of the types `AS`, `OLS` and `QPHD` (with enough samples). -/
theorem C43_succeeds {lib : Model.Subspaces.Lib} (hl : SubLibOK lib) (rng : Rng S) (hm : 2 ≤ m) (hM : 0 < M)
    (X : Option (Matrix (Fin M) (Fin m) ℝ)) (f : Option (Fin M → ℝ)) (df : Option (Matrix (Fin M) (Fin m) ℝ))
    (weights : Option (Fin M → ℝ)) (sstype ptype : String) (nboot : ℤ) (w : S × Subspaces)
    (ht : (sstype = "AS" ∧ df ≠ none) ∨ (sstype = "OLS" ∧ X ≠ none ∧ f ≠ none) ∨
      (sstype = "QPHD" ∧ X ≠ none ∧ f ≠ none ∧ (2 + m).choose m ≤ M))
    (hp : ptype = "EVG" ∨ (ptype ∈ ["RS", "LI"] ∧ 0 < nboot)) :
    ∃ w', (computeOn lib rng X f df weights sstype ptype nboot).run w = (.ok (), w') ∧ IsSplit w'.2 := by
  suffices hs : ∃ t, SS.ofString sstype = some t ∧ (X ≠ none ∨ df ≠ none) ∧
      EstimateOK lib rng Subspaces t X f df (weightsOf weights) by
    obtain ⟨t, h1, h2, h3⟩ := hs
    obtain ⟨p, w1, h4⟩ := estimateOK_self h3 w
    obtain ⟨e, V, w', -, h5, h6, -⟩ := compute_ok hl rng hm hM X f df weights h2 sstype ptype t h1 nboot w w1 p h4
      (fun _ => h3) hp
    exact ⟨w', h5, h6⟩
  rcases ht with ⟨rfl, h⟩ | ⟨rfl, h, hf⟩ | ⟨rfl, h, hf, hc⟩
  · obtain ⟨G, rfl⟩ := Option.ne_none_iff_exists'.mp h
    exact ⟨.AS, rfl, .inr h, estimateOK_AS hl rng (by omega) X f G _⟩
  · obtain ⟨X, rfl⟩ := Option.ne_none_iff_exists'.mp h
    obtain ⟨f, rfl⟩ := Option.ne_none_iff_exists'.mp hf
    exact ⟨.OLS, rfl, .inl h, estimateOK_OLS hl rng (by omega) X f df _⟩
  · obtain ⟨X, rfl⟩ := Option.ne_none_iff_exists'.mp h
    obtain ⟨f, rfl⟩ := Option.ne_none_iff_exists'.mp hf
    exact ⟨.QPHD, rfl, .inl h, estimateOK_QPHD hl rng (by omega) X f df _ hc⟩

end Props
