import Mathlib.Probability.StrongLaw
import Mathlib.Probability.Independence.InfinitePi
import Verif.Props.EigenBias

/-!
# Property C119: bootstrap replicates are independent, and what many of them give
-/

open Py Model.Subspaces Model.Misc Spec Matrix Proofs.Eigh Proofs.Bootstrap Proofs.Run MeasureTheory ProbabilityTheory Filter
open scoped Topology

namespace Props

variable {S E Ω : Type} {m K : ℕ} [MeasurableSpace Ω]

/-! ## The stream of random integers -/

/-- The generator after `i` integers below `K + 1`. -/
def genAfter (rng : Rng S) (K : ℕ) (s : S) : ℕ → S
  | 0 => s
  | i + 1 => (rng.randint K (genAfter rng K s i)).2

/-- The integers below `K + 1` drawn one after another. -/
def intAt (rng : Rng S) (K : ℕ) (s : S) (i : ℕ) : Fin (K + 1) := (rng.randint K (genAfter rng K s i)).1

/-- The rows of replicate `b`: the next `K + 1` integers. -/
def rowsAt (rng : Rng S) (K : ℕ) (s : S) (b : ℕ) : Fin (K + 1) → Fin (K + 1) := fun i => intAt rng K s (b * (K + 1) + i)

theorem genAfter_succ (rng : Rng S) (K : ℕ) (s : S) (i : ℕ) : genAfter rng K s (i + 1) = genAfter rng K (rng.randint K s).2 i := by
  induction i with
  | zero => rfl
  | succ i ih => rw [genAfter, ih, genAfter]

theorem genAfter_add (rng : Rng S) (K : ℕ) (s : S) (i j : ℕ) : genAfter rng K s (i + j) = genAfter rng K (genAfter rng K s i) j := by
  induction j with
  | zero => rfl
  | succ j ih => rw [← add_assoc, genAfter, ih, genAfter]

theorem randints_stream (rng : Rng S) (K k : ℕ) (s : S) : randints rng K k s = (fun i : Fin k => intAt rng K s i, genAfter rng K s k) := by
  induction k generalizing s with
  | zero => exact Prod.ext (funext fun i => i.elim0) rfl
  | succ k ih =>
    unfold randints
    simp only [ih]
    refine Prod.ext (funext fun i => ?_) (genAfter_succ rng K s k).symm
    refine Fin.cases rfl (fun i => ?_) i
    change intAt rng K _ i = intAt rng K s (i + 1)
    unfold intAt
    rw [genAfter_succ]

theorem rowsAt_succ (rng : Rng S) (K : ℕ) (s : S) (b : ℕ) : rowsAt rng K s (b + 1) = rowsAt rng K (genAfter rng K s (K + 1)) b := by
  funext i
  unfold rowsAt intAt
  rw [← genAfter_add]
  congr 3
  ring

/-! ## The loop -/

/-- The subspace types that draw no random numbers. -/
theorem estimate_lift (lib : Model.Subspaces.Lib) (rng : Rng S) {t : SS} (ht : t ≠ .OPG) {M : ℕ} (X : Option (Matrix (Fin M) (Fin m) ℝ)) (f : Option (Fin M → ℝ))
    (df : Option (Matrix (Fin M) (Fin m) ℝ)) (w : Fin M → ℝ) : ∃ r : Except Err EigPair, (estimate lib rng t X f df w : PyM (S × E) EigPair) = PyM.lift r := by
  unfold estimate ssCall
  cases t with
  | OPG => exact absurd rfl ht
  | AS => cases df <;> exact ⟨_, rfl⟩
  | OLS => cases X <;> cases f <;> exact ⟨_, rfl⟩
  | QPHD => cases X <;> cases f <;> exact ⟨_, rfl⟩

/-- The estimate of the sample with rows `v`. -/
noncomputable def resampled (lib : Model.Subspaces.Lib) (rng : Rng S) (t : SS) (X : Option (Matrix (Fin (K + 1)) (Fin m) ℝ)) (f : Option (Fin (K + 1) → ℝ))
    (df : Option (Matrix (Fin (K + 1)) (Fin m) ℝ)) (w : Fin (K + 1) → ℝ) (v : Fin (K + 1) → Fin (K + 1)) : PyM (S × E) EigPair :=
  estimate lib rng t (X.map fun X => X.submatrix v id) (f.map fun f => f ∘ v) (df.map fun X => X.submatrix v id) (w ∘ v)

/-- The loop over the replicates reads the stream block by block. -/
theorem bootLoop_stream {lib : Model.Subspaces.Lib} (hl : SubLibOK lib) (rng : Rng S) {t : SS} (ht : t ≠ .OPG) (X : Option (Matrix (Fin (K + 1)) (Fin m) ℝ))
    (f : Option (Fin (K + 1) → ℝ)) (df : Option (Matrix (Fin (K + 1)) (Fin m) ℝ)) (w : Fin (K + 1) → ℝ) (V : Matrix (Fin m) (Fin m) ℝ) (n : ℕ) :
    ∀ (u u' : S × E) (c : Fin n → BootCol m), (bootLoop lib rng t (dataOf X f df w) V n).run u = (.ok c, u') →
      u'.1 = genAfter rng K u.1 (n * (K + 1)) ∧
      ∀ b, ∃ (e : Fin m → ℝ) (V' : Matrix (Fin m) (Fin m) ℝ), c b = bootCol V e V' ∧ V'.transpose * V' = 1 ∧
        (resampled lib rng t X f df w (rowsAt rng K u.1 b) : PyM (S × E) EigPair) = PyM.lift (.ok ⟨m, e, V'⟩) := by
  induction n with
  | zero =>
    intro u u' c h
    obtain rfl : u = u' := (Prod.mk.inj h).2
    exact ⟨by rw [Nat.zero_mul]; rfl, fun b => b.elim0⟩
  | succ n ih =>
    intro u u' c h
    unfold bootLoop at h
    obtain ⟨d0, u1, h1, h⟩ := bind_ok h
    rw [replicate_run, randints_stream] at h1
    obtain ⟨h1a, rfl⟩ := Prod.mk.inj h1
    obtain rfl := Except.ok.inj h1a
    obtain ⟨p0, u2, h2, h⟩ := bind_ok h
    rw [estimate_eq] at h2
    obtain ⟨e, V', rfl, ho, -⟩ := estimate_good hl rng t _ _ _ _ h2
    obtain ⟨r, hr⟩ := estimate_lift (E := E) lib rng ht (X.map fun X => X.submatrix (fun i : Fin (K + 1) => intAt rng K u.1 i) id)
      (f.map fun f => f ∘ fun i : Fin (K + 1) => intAt rng K u.1 i) (df.map fun X => X.submatrix (fun i : Fin (K + 1) => intAt rng K u.1 i) id)
      (w ∘ fun i : Fin (K + 1) => intAt rng K u.1 i)
    have h2' := h2
    rw [hr] at h2'
    obtain ⟨rfl, h2''⟩ := lift_inv h2'
    subst h2''
    rw [dif_pos (show (EigPair.mk m e V').m = m from rfl)] at h
    obtain ⟨cs, u3, h3, h⟩ := bind_ok h
    obtain ⟨i1, i2⟩ := ih _ u3 cs h3
    have hc : c = Fin.cons (bootCol V e V') cs := (Except.ok.inj (Prod.mk.inj h).1).symm
    have hu : u3 = u' := (Prod.mk.inj h).2
    subst hc hu
    refine ⟨?_, fun b => ?_⟩
    · rw [i1, ← genAfter_add]
      congr 1
      ring
    · refine Fin.cases ?_ (fun b => ?_) b
      · refine ⟨e, V', rfl, ho, ?_⟩
        have h0 : rowsAt rng K u.1 ((0 : Fin (n + 1)) : ℕ) = fun i : Fin (K + 1) => intAt rng K u.1 i := funext fun i => by
          unfold rowsAt
          simp
        rw [h0]
        exact hr
      · obtain ⟨e', V'', q1, q2, q3⟩ := i2 b
        refine ⟨e', V'', q1, q2, ?_⟩
        rw [Fin.val_succ, rowsAt_succ]
        exact q3

/-! ## `compute` -/

/-- `compute` with bootstrap: the loop that was run and what was stored. -/
theorem compute_loop {k M : ℕ} {lib : Model.Subspaces.Lib} (hl : SubLibOK lib) (rng : Rng S) {t : SS} (ht : t ≠ .OPG)
    (X : Option (Matrix (Fin M) (Fin m) ℝ)) (f : Option (Fin M → ℝ)) (df : Option (Matrix (Fin M) (Fin m) ℝ)) (hX : X ≠ none ∨ df ≠ none)
    (weights : Option (Fin M → ℝ)) {sstype : String} (hs : SS.ofString sstype = some t) (ptype : String) {w w' : S × Subspaces}
    (h : (computeOn lib rng X f df weights sstype ptype ((k + 1 : ℕ) : ℤ)).run w = (.ok (), w')) :
    ∃ (e : Fin m → ℝ) (V : Matrix (Fin m) (Fin m) ℝ) (c : Fin (k + 1) → BootCol m) (o : Subspaces) (u' : S × Subspaces),
      V.transpose * V = 1 ∧ (estimate lib rng t X f df (weightsOf weights) : PyM (S × Subspaces) EigPair) = PyM.lift (.ok ⟨m, e, V⟩) ∧
      (bootLoop lib rng t (dataOf X f df (weightsOf weights)) V (k + 1)).run (w.1, o) = (.ok c, u') ∧ w'.1 = u'.1 ∧
      w'.2.eigenvals = some (NpVec.of e) ∧ w'.2.e_br = some (NpMat.of (bootRanges c).e_br) ∧ w'.2.sub_br = some (NpMat.of (bootRanges c).sub_br) := by
  unfold computeOn compute at h
  obtain ⟨a, w0, h1, h⟩ := bind_inv h
  rw [lift_of (checkInputs_of X df hX) w] at h1
  obtain rfl := Except.ok.inj (Prod.mk.inj h1).1
  have hw0 := (Prod.mk.inj h1).2
  subst w0
  simp only [getD_weights] at h
  rw [hs] at h
  simp only at h
  obtain ⟨p, w1, h2, h⟩ := bind_inv h
  have h2' : (estimate lib rng t X f df (weightsOf weights)).run w = (.ok p, w1) := h2
  obtain ⟨e, V, rfl, ho, -⟩ := estimate_good hl rng t X f df (weightsOf weights) h2'
  obtain ⟨r, hr⟩ := estimate_lift (E := Subspaces) lib rng ht X f df (weightsOf weights)
  rw [hr] at h2'
  obtain ⟨rfl, hw1⟩ := lift_inv h2'
  subst w1
  obtain ⟨_, w2, h3, h⟩ := bind_inv h
  obtain rfl : w2 = (w.1, withEig ⟨m, e, V⟩ w.2) := (Prod.mk.inj h3).2.symm
  obtain ⟨b, w3, h4, h⟩ := bind_inv h
  obtain ⟨_, w4, h5, h⟩ := bind_inv h
  obtain rfl : w4 = (w3.1, withBoot b w3.2) := (Prod.mk.inj h5).2.symm
  obtain ⟨n, w5, h6, h⟩ := bind_inv h
  obtain ⟨-, rfl⟩ := lift_inv h6
  unfold bootStep at h4
  rw [if_pos (by positivity)] at h4
  obtain ⟨r, w6, h7, h8⟩ := bind_inv h4
  obtain ⟨rfl, rfl⟩ := pure_inv h8
  have hfr := framed_ranges (E := Subspaces) lib rng t ⟨m, e, V⟩ (X.map NpMat.of) (f.map fun f => .mat (wcol f))
    (df.map fun X => .mat (NpMat.of X)) (wcol (weightsOf weights)) (((k + 1 : ℕ) : ℤ).toNat - 1) (w.1, withEig ⟨m, e, V⟩ w.2)
  rw [h7] at hfr
  have hk : ((k + 1 : ℕ) : ℤ).toNat - 1 = k := by omega
  rw [hk, ranges_eq lib rng t e V X f df (weightsOf weights) hX k] at h7
  obtain ⟨c, w7, h9, h10⟩ := bind_inv h7
  obtain ⟨rfl, rfl⟩ := pure_inv h10
  refine ⟨e, V, c, _, w7, ho, hr, h9, ?_⟩
  unfold partition at h
  obtain ⟨s, w8, g1, g⟩ := bind_inv h
  rw [PyM.run_get] at g1
  obtain rfl := Except.ok.inj (Prod.mk.inj g1).1
  obtain rfl := (Prod.mk.inj g1).2
  split at g
  · exact absurd (Prod.mk.inj g).1 (by simp)
  · split at g
    · exact absurd (Prod.mk.inj g).1 (by simp)
    · obtain rfl := (Prod.mk.inj g).2
      exact ⟨rfl, (congrArg Subspaces.eigenvals hfr).trans rfl, rfl, rfl⟩

/-- The attributes after `compute` with `k + 1` replicates: ranges and mean over the first `k + 1` blocks of the stream. -/
structure BootStored (rng : Rng S) (K : ℕ) (s : S) (k : ℕ) (ev : (Fin (K + 1) → Fin (K + 1)) → Fin m → ℝ)
    (dist : (Fin (K + 1) → Fin (K + 1)) → Fin (m - 1) → ℝ) (o : Subspaces) (B : Matrix (Fin m) (Fin 2) ℝ) (D : Matrix (Fin (m - 1)) (Fin 3) ℝ) : Prop where
  e_br : o.e_br = some (NpMat.of B)
  sub_br : o.sub_br = some (NpMat.of D)
  low : ∀ j, IsLeast ((fun b => ev (rowsAt rng K s b) j) '' Set.Iic k) (B j 0)
  high : ∀ j, IsGreatest ((fun b => ev (rowsAt rng K s b) j) '' Set.Iic k) (B j 1)
  dlow : ∀ j, IsLeast ((fun b => dist (rowsAt rng K s b) j) '' Set.Iic k) (D j 0)
  dmean : ∀ j, D j 1 = (∑ b ∈ Finset.range (k + 1), dist (rowsAt rng K s b) j) / ((k + 1 : ℕ) : ℝ)
  dhigh : ∀ j, IsGreatest ((fun b => dist (rowsAt rng K s b) j) '' Set.Iic k) (D j 2)

theorem isLeast_min {k : ℕ} {g : Fin (k + 1) → ℝ} {h : ℕ → ℝ} (hg : ∀ b, g b = h b) : IsLeast (h '' Set.Iic k) (min' g) := by
  obtain ⟨h1, i, h2⟩ := min'_spec g
  refine ⟨⟨i, Nat.lt_succ_iff.mp i.2, by rw [h2, hg]⟩, ?_⟩
  rintro - ⟨b, hb, rfl⟩
  have := h1 ⟨b, Nat.lt_succ_iff.mpr hb⟩
  rwa [hg] at this

theorem isGreatest_max {k : ℕ} {g : Fin (k + 1) → ℝ} {h : ℕ → ℝ} (hg : ∀ b, g b = h b) : IsGreatest (h '' Set.Iic k) (max' g) := by
  obtain ⟨h1, i, h2⟩ := max'_spec g
  refine ⟨⟨i, Nat.lt_succ_iff.mp i.2, by rw [h2, hg]⟩, ?_⟩
  rintro - ⟨b, hb, rfl⟩
  have := h1 ⟨b, Nat.lt_succ_iff.mpr hb⟩
  rwa [hg] at this

/-- `e`, `V` is what the computation returns. -/
def Returns (x : PyM (S × E) EigPair) (e : Fin m → ℝ) (V : Matrix (Fin m) (Fin m) ℝ) : Prop := ∃ u u', x.run u = (.ok ⟨m, e, V⟩, u')

theorem returns_unique {x : PyM (S × E) EigPair} {r : Except Err EigPair} (hx : x = PyM.lift r) {e e' : Fin m → ℝ} {V V' : Matrix (Fin m) (Fin m) ℝ}
    (h : Returns x e V) (h' : Returns x e' V') : e = e' ∧ V = V' := by
  obtain ⟨u, u1, h⟩ := h
  obtain ⟨v, v1, h'⟩ := h'
  rw [hx] at h h'
  have h1 := (lift_inv h).1.symm.trans (lift_inv h').1
  exact ⟨eq_of_heq (EigPair.mk.inj (Except.ok.inj h1)).2.1, eq_of_heq (EigPair.mk.inj (Except.ok.inj h1)).2.2⟩

/-- C119: the values of a replicate are functions `ev`, `dist` of its rows alone, whatever the number of replicates, the state of the generator and the
partition type; replicate `b` consists of the rows given by block `b` of the stream of integers; nothing else is drawn. -/
theorem C119_stream {lib : Model.Subspaces.Lib} (hl : SubLibOK lib) (rng : Rng S) {t : SS} (ht : t ≠ .OPG) (X : Option (Matrix (Fin (K + 1)) (Fin m) ℝ))
    (f : Option (Fin (K + 1) → ℝ)) (df : Option (Matrix (Fin (K + 1)) (Fin m) ℝ)) (hX : X ≠ none ∨ df ≠ none) (weights : Option (Fin (K + 1) → ℝ))
    {sstype : String} (hs : SS.ofString sstype = some t) :
    ∃ (ev : (Fin (K + 1) → Fin (K + 1)) → Fin m → ℝ) (dist : (Fin (K + 1) → Fin (K + 1)) → Fin (m - 1) → ℝ),
      (∀ v e V e' V', Returns (estimate lib rng t X f df (weightsOf weights) : PyM (S × Subspaces) EigPair) e V →
        Returns (resampled lib rng t X f df (weightsOf weights) v : PyM (S × Subspaces) EigPair) e' V' →
          ev v = e' ∧ ∀ j : Fin (m - 1), IsLUB (leakage V V' (j + 1)) (dist v j)) ∧
      ∀ k ptype s o w', (computeOn lib rng X f df weights sstype ptype ((k + 1 : ℕ) : ℤ)).run (s, o) = (.ok (), w') →
        w'.1 = genAfter rng K s ((k + 1) * (K + 1)) ∧ ∃ B D, BootStored rng K s k ev dist w'.2 B D := by
  classical
  let est : PyM (S × Subspaces) EigPair := estimate lib rng t X f df (weightsOf weights)
  let res : (Fin (K + 1) → Fin (K + 1)) → PyM (S × Subspaces) EigPair := resampled lib rng t X f df (weightsOf weights)
  obtain ⟨r0, hr0⟩ := estimate_lift (E := Subspaces) lib rng ht X f df (weightsOf weights)
  have hres : ∀ v, ∃ r, res v = PyM.lift r := fun v => estimate_lift (E := Subspaces) lib rng ht _ _ _ _
  have pick : ∀ x : PyM (S × Subspaces) EigPair, (∃ r, x = PyM.lift r) → ∃ q : (Fin m → ℝ) × Matrix (Fin m) (Fin m) ℝ, ∀ e V, Returns x e V → q = (e, V) := by
    rintro x ⟨r, hx⟩
    by_cases hv : ∃ e V, Returns (m := m) x e V
    · obtain ⟨e1, V1, h1⟩ := hv
      exact ⟨(e1, V1), fun e V h2 => Prod.ext (returns_unique hx h1 h2).1 (returns_unique hx h1 h2).2⟩
    · exact ⟨(0, 0), fun e V h => absurd ⟨e, V, h⟩ hv⟩
  obtain ⟨q0, hq0⟩ := pick est ⟨r0, hr0⟩
  choose q hq using fun v => pick (res v) (hres v)
  have orth : ∀ (X' : Option (Matrix (Fin (K + 1)) (Fin m) ℝ)) f' df' w' (e : Fin m → ℝ) (V : Matrix (Fin m) (Fin m) ℝ),
      Returns (estimate lib rng t X' f' df' w' : PyM (S × Subspaces) EigPair) e V → V.transpose * V = 1 := by
    rintro X' f' df' w' e V ⟨u, u', h⟩
    obtain ⟨e1, V1, h1, h2, -⟩ := estimate_good hl rng t _ _ _ _ h
    rw [eq_of_heq (EigPair.mk.inj h1).2.2]
    exact h2
  refine ⟨fun v => (q v).1, fun v => (bootCol q0.2 (q v).1 (q v).2).dist, fun v e V e' V' h h' => ?_, fun k ptype s o w' h => ?_⟩
  · have e0 := hq0 e V h
    have e1 := hq v e' V' h'
    dsimp only
    rw [e0, e1]
    exact ⟨rfl, fun j => (dist_leakage (orth _ _ _ _ _ _ h) (orth _ _ _ _ _ _ h') e' j).1⟩
  · obtain ⟨e, V, c, o', u', -, g2, g3, g4, -, g6, g7⟩ := compute_loop hl rng ht X f df hX weights hs ptype h
    obtain ⟨i1, i2⟩ := bootLoop_stream hl rng ht X f df (weightsOf weights) V (k + 1) _ _ c g3
    have e0 : q0 = (e, V) := hq0 e V ⟨(s, o), (s, o), by change est.run _ = _; rw [show est = PyM.lift (.ok ⟨m, e, V⟩) from g2]; rfl⟩
    have hc : ∀ b : Fin (k + 1), c b = bootCol q0.2 (q (rowsAt rng K s b)).1 (q (rowsAt rng K s b)).2 := fun b => by
      obtain ⟨e', V', j1, -, j3⟩ := i2 b
      have e1 : q (rowsAt rng K s b) = (e', V') := hq _ e' V' ⟨(s, o), (s, o), by
        rw [show res (rowsAt rng K s b) = PyM.lift (.ok ⟨m, e', V'⟩) from j3]; rfl⟩
      rw [j1, e0, e1]
    refine ⟨by rw [g4, i1], _, _, ⟨g6, g7, fun j => ?_, fun j => ?_, fun j => ?_, fun j => ?_, fun j => ?_⟩⟩
    · exact isLeast_min (g := fun b => (c b).e j) fun b => by rw [hc]; rfl
    · exact isGreatest_max (g := fun b => (c b).e j) fun b => by rw [hc]; rfl
    · exact isLeast_min (g := fun b => (c b).dist j) fun b => by rw [hc]
    · change (∑ b, (c b).dist j) / ((k + 1 : ℕ) : ℝ) = _
      rw [Finset.sum_range]
      congr 1
      exact Finset.sum_congr rfl fun b _ => by rw [hc]
    · exact isGreatest_max (g := fun b => (c b).dist j) fun b => by rw [hc]

/-- C119: more replicates from the same state only widen the intervals. -/
theorem C119_widen {rng : Rng S} {s : S} {k k' : ℕ} {ev : (Fin (K + 1) → Fin (K + 1)) → Fin m → ℝ} {dist : (Fin (K + 1) → Fin (K + 1)) → Fin (m - 1) → ℝ}
    {o o' : Subspaces} {B B' : Matrix (Fin m) (Fin 2) ℝ} {D D' : Matrix (Fin (m - 1)) (Fin 3) ℝ} (h : BootStored rng K s k ev dist o B D)
    (h' : BootStored rng K s k' ev dist o' B' D') (hk : k ≤ k') :
    (∀ j, B' j 0 ≤ B j 0 ∧ B j 1 ≤ B' j 1) ∧ ∀ j, D' j 0 ≤ D j 0 ∧ D j 2 ≤ D' j 2 :=
  ⟨fun j => ⟨(h.low j).mono (h'.low j) (Set.image_mono (Set.Iic_subset_Iic.mpr hk)), (h.high j).mono (h'.high j) (Set.image_mono (Set.Iic_subset_Iic.mpr hk))⟩,
    fun j => ⟨(h.dlow j).mono (h'.dlow j) (Set.image_mono (Set.Iic_subset_Iic.mpr hk)),
      (h.dhigh j).mono (h'.dhigh j) (Set.image_mono (Set.Iic_subset_Iic.mpr hk))⟩⟩

/-! ## Independent integers -/

/-- The integers drawn are independent and uniform. -/
structure UniformStream (μ : Measure Ω) (rng : Rng S) (K : ℕ) (st : Ω → S) : Prop where
  meas : ∀ i, Measurable fun ω => intAt rng K (st ω) i
  indep : iIndepFun (fun i ω => intAt rng K (st ω) i) μ
  unif : ∀ i a, μ.real {ω | intAt rng K (st ω) i = a} = 1 / ((K + 1 : ℕ) : ℝ)

variable {μ : Measure Ω} {rng : Rng S} {st : Ω → S}

theorem UniformStream.measRows (h : UniformStream μ rng K st) (b : ℕ) : Measurable fun ω => rowsAt rng K (st ω) b :=
  measurable_pi_lambda _ fun _ => h.meas _

/-- C119: if the integers are independent and uniform, the replicates are independent, and each one is uniform among all choices of rows. -/
theorem C119_independent (h : UniformStream μ rng K st) : iIndepFun (fun b ω => rowsAt rng K (st ω) b) μ ∧
    ∀ b v, μ.real {ω | rowsAt rng K (st ω) b = v} = 1 / ((K + 1 : ℕ) : ℝ) ^ (K + 1) := by
  have hp := h.indep.isProbabilityMeasure
  have hinj : Function.Injective fun p : (_ : ℕ) × Fin (K + 1) => p.1 * (K + 1) + (p.2 : ℕ) := by
    rintro ⟨a, i⟩ ⟨b, j⟩ hab
    dsimp only at hab
    have h1 : a = b := by
      have := congrArg (· / (K + 1)) hab
      simp only [Nat.mul_comm _ (K + 1), Nat.mul_add_div (Nat.succ_pos K), Nat.div_eq_of_lt i.2, Nat.div_eq_of_lt j.2, add_zero] at this
      exact this
    subst h1
    exact Sigma.ext rfl (heq_of_eq (Fin.ext (Nat.add_left_cancel hab)))
  have hblk := h.indep.precomp hinj
  have hblkrow : ∀ b, iIndepFun (fun (i : Fin (K + 1)) ω => intAt rng K (st ω) (b * (K + 1) + i)) μ := fun b =>
    h.indep.precomp (g := fun i : Fin (K + 1) => b * (K + 1) + (i : ℕ)) fun i j hij => Fin.ext (Nat.add_left_cancel hij)
  refine ⟨?_, fun b v => ?_⟩
  · have : ∀ b i, IsProbabilityMeasure (μ.map fun ω => intAt rng K (st ω) (b * (K + 1) + i)) := fun b i => Measure.isProbabilityMeasure_map (h.meas _).aemeasurable
    rw [iIndepFun_iff_map_fun_eq_infinitePi_map fun b => h.measRows b]
    have e1 : (fun ω b => rowsAt rng K (st ω) b) = (MeasurableEquiv.piCurry fun (_ : ℕ) (_ : Fin (K + 1)) => Fin (K + 1)) ∘
        fun ω (p : (_ : ℕ) × Fin (K + 1)) => intAt rng K (st ω) (p.1 * (K + 1) + (p.2 : ℕ)) := rfl
    rw [e1, ← Measure.map_map (MeasurableEquiv.measurable _) (measurable_pi_lambda _ fun p => h.meas _),
      (iIndepFun_iff_map_fun_eq_infinitePi_map fun p : (_ : ℕ) × Fin (K + 1) => h.meas _).1 hblk,
      Measure.infinitePi_map_piCurry fun (b : ℕ) (i : Fin (K + 1)) => μ.map fun ω => intAt rng K (st ω) (b * (K + 1) + i)]
    congrm Measure.infinitePi fun b => ?_
    exact ((iIndepFun_iff_map_fun_eq_infinitePi_map fun i => h.meas _).1 (hblkrow b)).symm
  · have e2 : {ω | rowsAt rng K (st ω) b = v} = ⋂ i : Fin (K + 1), {ω | intAt rng K (st ω) (b * (K + 1) + (i : ℕ)) = v i} := by
      ext ω
      simp only [Set.mem_ofPred_eq, Set.mem_iInter]
      exact funext_iff
    rw [e2, measureReal_def, (hblkrow b).meas_iInter (s := fun i : Fin (K + 1) => {ω | intAt rng K (st ω) (b * (K + 1) + (i : ℕ)) = v i}) fun i => ⟨{v i}, measurableSet_singleton _, rfl⟩,
      ENNReal.toReal_prod]
    have e3 : ∀ i : Fin (K + 1), (μ {ω | intAt rng K (st ω) (b * (K + 1) + (i : ℕ)) = v i}).toReal = 1 / ((K + 1 : ℕ) : ℝ) := fun i => h.unif _ _
    rw [Finset.prod_congr rfl fun i _ => e3 i, Finset.prod_const, Finset.card_univ, Fintype.card_fin, div_pow, one_pow]

/-- Averages over the replicates. -/
theorem replicate_average (h : UniformStream μ rng K st) (g : (Fin (K + 1) → Fin (K + 1)) → ℝ) :
    ∀ᵐ ω ∂μ, Tendsto (fun n : ℕ => (∑ b ∈ Finset.range n, g (rowsAt rng K (st ω) b)) / n) atTop (𝓝 ((∑ v, g v) / ((K + 1 : ℕ) : ℝ) ^ (K + 1))) := by
  have hp := h.indep.isProbabilityMeasure
  obtain ⟨hi, hu⟩ := C119_independent h
  have hint : Integrable (fun ω => g (rowsAt rng K (st ω) 0)) μ :=
    (Integrable.of_finite (μ := μ.map fun ω => rowsAt rng K (st ω) 0) (f := g)).comp_measurable (h.measRows 0)
  have hid : ∀ b, IdentDistrib (fun ω => rowsAt rng K (st ω) b) (fun ω => rowsAt rng K (st ω) 0) μ μ := fun b => by
    refine ⟨(h.measRows b).aemeasurable, (h.measRows 0).aemeasurable, Measure.ext_of_singleton fun v => ?_⟩
    rw [Measure.map_apply (h.measRows b) (measurableSet_singleton v), Measure.map_apply (h.measRows 0) (measurableSet_singleton v)]
    have := (hu b v).trans (hu 0 v).symm
    exact (measureReal_eq_measureReal_iff).mp this
  have hlaw := strong_law_ae_real (fun b ω => g (rowsAt rng K (st ω) b)) hint
    (fun b c hbc => (hi.indepFun hbc).comp Measurable.of_discrete Measurable.of_discrete)
    fun b => (hid b).comp Measurable.of_discrete
  have hE : ∫ ω, g (rowsAt rng K (st ω) 0) ∂μ = (∑ v, g v) / ((K + 1 : ℕ) : ℝ) ^ (K + 1) := by
    have h1 : ∫ ω, g (rowsAt rng K (st ω) 0) ∂μ = ∫ v, g v ∂(μ.map fun ω => rowsAt rng K (st ω) 0) :=
      (integral_map (h.measRows 0).aemeasurable (Measurable.of_discrete).aestronglyMeasurable).symm
    rw [h1, integral_fintype .of_finite, Finset.sum_div]
    refine Finset.sum_congr rfl fun v _ => ?_
    rw [map_measureReal_apply (h.measRows 0) (measurableSet_singleton v)]
    have := hu 0 v
    rw [show (fun ω => rowsAt rng K (st ω) 0) ⁻¹' {v} = {ω | rowsAt rng K (st ω) 0 = v} from rfl, this, smul_eq_mul]
    ring
  rw [← hE]
  exact hlaw

/-- Almost surely every choice of rows occurs. -/
theorem replicate_all (h : UniformStream μ rng K st) : ∀ᵐ ω ∂μ, ∀ v, ∃ b, rowsAt rng K (st ω) b = v := by
  classical
  rw [ae_all_iff]
  intro v
  filter_upwards [replicate_average h fun v' => if v' = v then 1 else 0] with ω hω
  by_contra hno
  push Not at hno
  have h0 : (fun n : ℕ => (∑ b ∈ Finset.range n, (if rowsAt rng K (st ω) b = v then (1 : ℝ) else 0)) / n) = fun _ => 0 := funext fun n => by
    rw [Finset.sum_eq_zero fun b _ => if_neg (hno b), zero_div]
  rw [h0] at hω
  have h1 := tendsto_nhds_unique hω tendsto_const_nhds
  rw [Finset.sum_ite_eq' Finset.univ v, if_pos (Finset.mem_univ v)] at h1
  have : (0 : ℝ) < 1 / ((K + 1 : ℕ) : ℝ) ^ (K + 1) := by positivity
  linarith

variable {ev : (Fin (K + 1) → Fin (K + 1)) → Fin m → ℝ} {dist : (Fin (K + 1) → Fin (K + 1)) → Fin (m - 1) → ℝ} {o : Ω → ℕ → Subspaces}
  {B : Ω → ℕ → Matrix (Fin m) (Fin 2) ℝ} {D : Ω → ℕ → Matrix (Fin (m - 1)) (Fin 3) ℝ}

/-- C119: the mean subspace distances converge to the mean over all choices of rows as the number of replicates grows. -/
theorem C119_mean (h : UniformStream μ rng K st) (hs : ∀ ω k, BootStored rng K (st ω) k ev dist (o ω k) (B ω k) (D ω k)) :
    ∀ᵐ ω ∂μ, ∀ j, Tendsto (fun k => D ω k j 1) atTop (𝓝 ((∑ v, dist v j) / ((K + 1 : ℕ) : ℝ) ^ (K + 1))) := by
  rw [ae_all_iff]
  intro j
  filter_upwards [replicate_average h fun v => dist v j] with ω hω
  have h1 := hω.comp (tendsto_add_atTop_nat 1)
  refine h1.congr fun k => ?_
  rw [(hs ω k).dmean j]
  rfl

/-- C119: the intervals grow to the whole range over all choices of rows, and reach it after finitely many replicates. -/
theorem C119_extremes (h : UniformStream μ rng K st) (hs : ∀ ω k, BootStored rng K (st ω) k ev dist (o ω k) (B ω k) (D ω k)) :
    ∀ᵐ ω ∂μ, ∀ᶠ k in atTop, (∀ j, IsLeast (Set.range fun v => ev v j) (B ω k j 0) ∧ IsGreatest (Set.range fun v => ev v j) (B ω k j 1)) ∧
      ∀ j, IsLeast (Set.range fun v => dist v j) (D ω k j 0) ∧ IsGreatest (Set.range fun v => dist v j) (D ω k j 2) := by
  filter_upwards [replicate_all h] with ω hω
  choose b hb using hω
  have hk : ∀ᶠ k in atTop, ∀ v, b v ≤ k := eventually_all.mpr fun v => eventually_ge_atTop (b v)
  filter_upwards [hk] with k hk
  have him : ∀ g : (Fin (K + 1) → Fin (K + 1)) → ℝ, (fun b => g (rowsAt rng K (st ω) b)) '' Set.Iic k = Set.range g := fun g => by
    refine Set.Subset.antisymm ?_ ?_
    · rintro - ⟨b, -, rfl⟩
      exact ⟨_, rfl⟩
    · rintro - ⟨v, rfl⟩
      exact ⟨b v, hk v, congrArg g (hb v)⟩
  refine ⟨fun j => ⟨?_, ?_⟩, fun j => ⟨?_, ?_⟩⟩
  · have := (hs ω k).low j; rwa [him fun v => ev v j] at this
  · have := (hs ω k).high j; rwa [him fun v => ev v j] at this
  · have := (hs ω k).dlow j; rwa [him fun v => dist v j] at this
  · have := (hs ω k).dhigh j; rwa [him fun v => dist v j] at this

/-! ## Many replicates of `active_subspace` -/

/-- One gradient repeated: its eigenvalues. -/
theorem repeated_eigs {w : Fin (K + 1) → ℝ} (G : Matrix (Fin (K + 1)) (Fin m) ℝ) (i : Fin (K + 1)) {e : Fin m → ℝ} {V : Matrix (Fin m) (Fin m) ℝ} (hm : 0 < m)
    (h : IsSortedEigh (gradOuter (G.submatrix (fun _ : Fin (K + 1) => i) id) (w ∘ fun _ : Fin (K + 1) => i)) e V) :
    (∀ j : Fin m, 0 < (j : ℕ) → e j = 0) ∧ e ⟨0, hm⟩ = ((K + 1 : ℕ) : ℝ) * (w i * ∑ a, G i a ^ 2) := by
  have hC : ∀ a b, gradOuter (G.submatrix (fun _ : Fin (K + 1) => i) id) (w ∘ fun _ : Fin (K + 1) => i) a b = ((K + 1 : ℕ) : ℝ) * w i * (G i a * G i b) := fun a b => by
    change ∑ _l : Fin (K + 1), w i * (G i a * G i b) = _
    rw [Finset.sum_const, Finset.card_univ, Fintype.card_fin, nsmul_eq_mul, mul_assoc]
  have hv : ∀ j a, e j * V a j = ((K + 1 : ℕ) : ℝ) * w i * (∑ b, G i b * V b j) * G i a := fun j a => by
    have := congrFun (h.vec j) a
    rw [Pi.smul_apply, smul_eq_mul] at this
    rw [← this]
    change ∑ b, _ * V b j = _
    rw [Finset.mul_sum, Finset.sum_mul]
    exact Finset.sum_congr rfl fun b _ => by rw [hC]; ring
  have h0 : ∀ j : Fin m, 0 < (j : ℕ) → e j = 0 := by
    intro j hj
    by_contra hne
    have hpos : 0 < e j := lt_of_le_of_ne (h.nonneg j) (Ne.symm hne)
    have hpos0 : 0 < e ⟨0, hm⟩ := hpos.trans_le (h.anti (Fin.mk_le_of_le_val (Nat.zero_le _)))
    have ho := h.orth ⟨0, hm⟩ j
    rw [if_neg (fun hh => by rw [← hh] at hj; exact absurd hj (lt_irrefl 0))] at ho
    set c := ((K + 1 : ℕ) : ℝ) * w i
    set p := ∑ b, G i b * V b ⟨0, hm⟩ with hp
    set q := ∑ b, G i b * V b j with hq
    have h1 : e ⟨0, hm⟩ * 0 = c * p * q := by
      rw [← ho, Finset.mul_sum, hq, Finset.mul_sum]
      exact Finset.sum_congr rfl fun a _ => by rw [← mul_assoc, hv]; ring
    rw [mul_zero, eq_comm, mul_eq_zero] at h1
    have unit : ∀ l, c * (∑ b, G i b * V b l) = 0 → e l = 0 := fun l hl => by
      have h2 : ∀ a, e l * V a l = 0 := fun a => by rw [hv, hl, zero_mul]
      have h3 := h.orth l l
      rw [if_pos rfl] at h3
      calc e l = e l * ∑ a, V a l * V a l := by rw [h3, mul_one]
        _ = ∑ a, (e l * V a l) * V a l := by rw [Finset.mul_sum]; exact Finset.sum_congr rfl fun a _ => by ring
        _ = 0 := Finset.sum_eq_zero fun a _ => by rw [h2, zero_mul]
    rcases h1 with h1 | h1
    · exact absurd (unit _ h1) hpos0.ne'
    · exact absurd (unit j (by rw [← hq, h1, mul_zero])) hne
  refine ⟨h0, ?_⟩
  have ht := all_eq h
  rw [Finset.sum_eq_single (⟨0, hm⟩ : Fin m) (fun b _ hb => h0 b (Nat.pos_of_ne_zero fun hh => hb (Fin.ext hh))) (by simp)] at ht
  rw [ht, ← mul_assoc, Finset.mul_sum]
  exact Finset.sum_congr rfl fun a _ => by rw [hC]; ring

/-- C119: as the number of replicates grows, the intervals of all eigenvalues but the first come to reach down to 0, and that of the first up to the
largest weighted squared gradient times the number of samples. -/
theorem C119_active (h : UniformStream μ rng K st) {lib : Model.Subspaces.Lib} (hl : SubLibOK lib) (hm : 0 < m)
    (X : Option (Matrix (Fin (K + 1)) (Fin m) ℝ)) (f : Option (Fin (K + 1) → ℝ)) (G : Matrix (Fin (K + 1)) (Fin m) ℝ) (weights : Option (Fin (K + 1) → ℝ))
    (hw : ∀ i, 0 ≤ weightsOf weights i) (ptype : String) {o : Subspaces} {w' : Ω → ℕ → S × Subspaces}
    (hrun : ∀ ω k, (computeOn lib rng X f (some G) weights "AS" ptype ((k + 1 : ℕ) : ℤ)).run (st ω, o) = (.ok (), w' ω k)) :
    ∀ᵐ ω ∂μ, ∀ᶠ k in atTop, ∃ B : Matrix (Fin m) (Fin 2) ℝ, (w' ω k).2.e_br = some (NpMat.of B) ∧ (∀ j : Fin m, 0 < (j : ℕ) → B j 0 = 0) ∧
      IsGreatest (Set.range fun i => ((K + 1 : ℕ) : ℝ) * (weightsOf weights i * ∑ a, G i a ^ 2)) (B ⟨0, hm⟩ 1) := by
  obtain ⟨ev, dist, h1, h2⟩ := C119_stream (t := .AS) hl rng (by simp) X f (some G) (.inr (by simp)) weights (sstype := "AS") rfl
  have h3 : ∀ ω k, ∃ (B : Matrix (Fin m) (Fin 2) ℝ) (D : Matrix (Fin (m - 1)) (Fin 3) ℝ), BootStored rng K (st ω) k ev dist (w' ω k).2 B D :=
    fun ω k => (h2 k ptype (st ω) o _ (hrun ω k)).2
  choose B D hB using h3
  filter_upwards [C119_extremes h hB] with ω hω
  have hev : ∀ v, ∃ V', IsSortedEigh (gradOuter (G.submatrix v id) (weightsOf weights ∘ v)) (ev v) V' := fun v => by
    obtain ⟨e, V, r1, -⟩ := C34_posSemidef lib hl hm _ (gradOuter_posSemidef G (weightsOf weights) hw)
    obtain ⟨e', V', r2, r3⟩ := C34_posSemidef lib hl hm _ (gradOuter_posSemidef (G.submatrix v id) (weightsOf weights ∘ v) fun i => hw _)
    have g1 : Returns (estimate lib rng .AS X f (some G) (weightsOf weights) : PyM (S × Subspaces) EigPair) e V :=
      ⟨(st ω, o), (st ω, o), Prod.ext ((active_subspace_eq lib G _).trans r1) rfl⟩
    have g2 : Returns (resampled lib rng .AS X f (some G) (weightsOf weights) v : PyM (S × Subspaces) EigPair) e' V' :=
      ⟨(st ω, o), (st ω, o), Prod.ext ((active_subspace_eq lib (G.submatrix v id) _).trans r2) rfl⟩
    rw [(h1 v e V e' V' g1 g2).1]
    exact ⟨V', r3⟩
  have hconst : ∀ i : Fin (K + 1), (∀ j : Fin m, 0 < (j : ℕ) → ev (fun _ => i) j = 0) ∧
      ev (fun _ => i) ⟨0, hm⟩ = ((K + 1 : ℕ) : ℝ) * (weightsOf weights i * ∑ a, G i a ^ 2) := fun i => by
    obtain ⟨V', hV⟩ := hev fun _ => i
    exact repeated_eigs G i hm hV
  obtain ⟨i0, -, hi0⟩ := Finset.exists_max_image Finset.univ (fun i => weightsOf weights i * ∑ a, G i a ^ 2) ⟨0, Finset.mem_univ _⟩
  filter_upwards [hω] with k hk
  refine ⟨B ω k, (hB ω k).e_br, fun j hj => ?_, ?_⟩
  · refine le_antisymm ?_ ?_
    · exact ((hk.1 j).1.2 ⟨fun _ => 0, rfl⟩).trans_eq ((hconst 0).1 j hj)
    · obtain ⟨v, hv⟩ := (hk.1 j).1.1
      obtain ⟨V', hV⟩ := hev v
      rw [← hv]
      exact hV.nonneg j
  · obtain ⟨⟨v, hv⟩, hup⟩ := (hk.1 ⟨0, hm⟩).2
    have hle : B ω k ⟨0, hm⟩ 1 ≤ ((K + 1 : ℕ) : ℝ) * (weightsOf weights i0 * ∑ a, G i0 a ^ 2) := by
      obtain ⟨V', hV⟩ := hev v
      rw [← hv]
      refine (le_abs_self _).trans ((eig_le_trace hV _).trans ?_)
      calc ∑ a, gradOuter (G.submatrix v id) (weightsOf weights ∘ v) a a = ∑ l, weightsOf weights (v l) * ∑ a, G (v l) a ^ 2 := by
            change ∑ a, ∑ l, weightsOf weights (v l) * (G (v l) a * G (v l) a) = _
            rw [Finset.sum_comm]
            exact Finset.sum_congr rfl fun l _ => by rw [Finset.mul_sum]; exact Finset.sum_congr rfl fun a _ => by ring
        _ ≤ ∑ _l : Fin (K + 1), weightsOf weights i0 * ∑ a, G i0 a ^ 2 := Finset.sum_le_sum fun l _ => hi0 _ (Finset.mem_univ _)
        _ = _ := by rw [Finset.sum_const, Finset.card_univ, Fintype.card_fin, nsmul_eq_mul]
    have heq : B ω k ⟨0, hm⟩ 1 = ((K + 1 : ℕ) : ℝ) * (weightsOf weights i0 * ∑ a, G i0 a ^ 2) :=
      le_antisymm hle ((hconst i0).2.symm.le.trans (hup ⟨_, rfl⟩))
    refine ⟨⟨i0, heq.symm⟩, ?_⟩
    rintro - ⟨i, rfl⟩
    rw [heq]
    exact mul_le_mul_of_nonneg_left (hi0 i (Finset.mem_univ i)) (by positivity)

/-! ## Examples -/

theorem intRng_state (N : ℕ) (s : ℕ → Fin (N + 1)) (i : ℕ) : genAfter (intRng N) N s i = fun j => s (j + i) := by
  induction i with
  | zero => rfl
  | succ i ih =>
    rw [genAfter, ih]
    funext j
    change s (j + 1 + i) = s (j + (i + 1))
    congr 1
    omega

theorem intRng_at (N : ℕ) (s : ℕ → Fin (N + 1)) (i : ℕ) : intAt (intRng N) N s i = s i := by
  unfold intAt
  rw [intRng_state]
  refine (dif_pos rfl).trans ?_
  change s (0 + i) = s i
  rw [zero_add]

/-- A stream of independent uniform integers. -/
theorem intRng_stream (N : ℕ) : UniformStream (Measure.infinitePi fun _ : ℕ => uniformOn (Set.univ : Set (Fin (N + 1)))) (intRng N) N fun ω : ℕ → Fin (N + 1) => ω := by
  refine ⟨fun i => ?_, ?_, fun i a => ?_⟩
  · simp only [intRng_at]
    exact measurable_pi_apply i
  · simp only [intRng_at]
    exact iIndepFun_infinitePi (P := fun _ : ℕ => uniformOn (Set.univ : Set (Fin (N + 1)))) (X := fun _ x => x) fun _ => measurable_id
  · simp only [intRng_at]
    have h := measurePreserving_eval_infinitePi (fun _ : ℕ => uniformOn (Set.univ : Set (Fin (N + 1)))) i
    have e : {ω : ℕ → Fin (N + 1) | ω i = a} = Function.eval (β := fun _ : ℕ => Fin (N + 1)) i ⁻¹' {a} := rfl
    rw [e, h.measureReal_preimage (measurableSet_singleton a).nullMeasurableSet]
    rw [measureReal_def, uniformOn_univ, Measure.count_singleton, Fintype.card_fin, ENNReal.toReal_div, ENNReal.toReal_one, ENNReal.toReal_natCast]

/-- C119 applies to the gradients `(2, 0)`, `(0, 1)`: with enough replicates the interval of the second eigenvalue begins at 0, though the
estimate is `1/2`, and that of the first ends at 4, though the estimate is 2. -/
example {lib : Model.Subspaces.Lib} (hl : SubLibOK lib) : ∀ᵐ ω ∂(Measure.infinitePi fun _ : ℕ => uniformOn (Set.univ : Set (Fin 2))), ∀ᶠ k in atTop,
    ∃ (w' : (ℕ → Fin 2) × Subspaces) (B : Matrix (Fin 2) (Fin 2) ℝ),
      (computeOn lib (intRng 1) none none (some !![2, 0; 0, 1]) none "AS" "EVG" ((k + 1 : ℕ) : ℤ)).run (ω, {}) = (.ok (), w') ∧
      w'.2.e_br = some (NpMat.of B) ∧ B 1 0 = 0 ∧ B 0 1 = 4 := by
  have hrun := fun (ω : ℕ → Fin 2) (k : ℕ) => C43_succeeds hl (intRng 1) (le_refl 2) (by norm_num : 0 < 2) none none (some !![2, 0; 0, 1]) none "AS" "EVG"
    ((k + 1 : ℕ) : ℤ) (ω, {}) (.inl ⟨rfl, by simp⟩) (.inl rfl)
  choose w' h1 h2 using hrun
  filter_upwards [C119_active (intRng_stream 1) hl (by norm_num) none none !![2, 0; 0, 1] none (fun _ => by simp [weightsOf]) "EVG" h1] with ω hω
  filter_upwards [hω] with k hk
  obtain ⟨B, b1, b2, ⟨b3, b4⟩, b5⟩ := hk
  refine ⟨w' ω k, B, h1 ω k, b1, b2 1 (by norm_num), ?_⟩
  have h0 := b5 ⟨0, rfl⟩
  have hB : B ⟨0, by norm_num⟩ 1 = B 0 1 := rfl
  rw [hB] at b4 h0
  simp only [weightsOf, Fin.sum_univ_two] at b4 h0
  norm_num at h0
  fin_cases b3 <;> norm_num at b4
  · exact b4.symm
  · linarith

/-- The same runs store values that fulfil the hypotheses of `C119_widen` and `C119_mean`. -/
example {lib : Model.Subspaces.Lib} (hl : SubLibOK lib) : ∃ (ev : (Fin 2 → Fin 2) → Fin 2 → ℝ) (dist : (Fin 2 → Fin 2) → Fin 1 → ℝ) (o : (ℕ → Fin 2) → ℕ → Subspaces)
    (B : (ℕ → Fin 2) → ℕ → Matrix (Fin 2) (Fin 2) ℝ) (D : (ℕ → Fin 2) → ℕ → Matrix (Fin 1) (Fin 3) ℝ),
    (∀ ω k, BootStored (intRng 1) 1 ω k ev dist (o ω k) (B ω k) (D ω k)) ∧ (∀ ω k, B ω (k + 1) 0 0 ≤ B ω k 0 0) ∧
    ∀ᵐ ω ∂(Measure.infinitePi fun _ : ℕ => uniformOn (Set.univ : Set (Fin 2))), ∀ j, Tendsto (fun k => D ω k j 1) atTop (𝓝 ((∑ v, dist v j) / ((1 + 1 : ℕ) : ℝ) ^ (1 + 1))) := by
  have hrun := fun (ω : ℕ → Fin 2) (k : ℕ) => C43_succeeds hl (intRng 1) (le_refl 2) (by norm_num : 0 < 2) none none (some !![2, 0; 0, 1]) none "AS" "EVG"
    ((k + 1 : ℕ) : ℤ) (ω, {}) (.inl ⟨rfl, by simp⟩) (.inl rfl)
  choose w' h1 h2 using hrun
  obtain ⟨ev, dist, -, g⟩ := C119_stream (K := 1) (m := 2) (t := .AS) hl (intRng 1) (by simp) none none (some !![2, 0; 0, 1]) (.inr (by simp)) none (sstype := "AS") rfl
  have h3 : ∀ ω k, ∃ (B : Matrix (Fin 2) (Fin 2) ℝ) (D : Matrix (Fin 1) (Fin 3) ℝ), BootStored (intRng 1) 1 ω k ev dist (w' ω k).2 B D :=
    fun ω k => (g k "EVG" ω {} _ (h1 ω k)).2
  choose B D hB using h3
  exact ⟨ev, dist, fun ω k => (w' ω k).2, B, D, hB, fun ω k => ((C119_widen (hB ω k) (hB ω (k + 1)) (Nat.le_succ k)).1 0).1, C119_mean (intRng_stream 1) hB⟩

end Props
