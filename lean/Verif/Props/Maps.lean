import Verif.Props.Compute
import Verif.Props.RandomWalk
import Verif.Props.ZonotopeHull

/-!
# Properties C44 and C48: maps between the active variables and the full space
-/

open Py Model.Domains Model.QPSolver Model.Misc Model.Subspaces Spec Proofs.Run

namespace Props

variable {S E : Type} {n k NY N : ℕ}

/-- Orthogonal eigenvectors, split into active and inactive ones. -/
structure Split (s : Subspaces) (V1 : Matrix (Fin (n + k)) (Fin n) ℝ) (V2 : Matrix (Fin (n + k)) (Fin k) ℝ) : Prop where
  eig : s.eigenvecs = some (NpMat.of (Np.hstack V1 V2))
  w1 : s.W1 = some (NpMat.of V1)
  w2 : s.W2 = some (NpMat.of V2)
  orth : (Np.hstack V1 V2).transpose * Np.hstack V1 V2 = 1

/-- What `partition` leaves behind is a split. -/
theorem split_of_isSplit {s : Subspaces} (h : IsSplit s)
    (ho : ∀ (m : ℕ) (V : Matrix (Fin m) (Fin m) ℝ), s.eigenvecs = some (NpMat.of V) → V.transpose * V = 1) :
    ∃ (n k : ℕ) (V1 : Matrix (Fin (n + k)) (Fin n) ℝ) (V2 : Matrix (Fin (n + k)) (Fin k) ℝ), 1 ≤ n ∧ Split s V1 V2 := by
  obtain ⟨m, n, V, V1, V2, h1, h2, h3, h4, h5, h6, h7⟩ := h
  obtain ⟨k, hk⟩ : ∃ k, k = m - n := ⟨_, rfl⟩
  have hm : m = n + k := by omega
  revert V2
  rw [← hk]
  subst hm
  intro V2 h3 h7
  have hV : V = Np.hstack V1 V2 := by
    ext i j
    refine Fin.addCases (fun j => ?_) (fun j => ?_) j
    · rw [Np.hstack_castAdd]
      exact (h6 i _ j rfl).symm
    · rw [Np.hstack_natAdd]
      exact (h7 i _ j rfl).symm
  exact ⟨n, k, V1, V2, h4, hV ▸ h1, h2, h3, hV ▸ ho _ V h1⟩

variable {s : Subspaces} {V1 : Matrix (Fin (n + k)) (Fin n) ℝ} {V2 : Matrix (Fin (n + k)) (Fin k) ℝ}

theorem Split.orth_entry (h : Split s V1 V2) (a b : Fin (n + k)) :
    ∑ i, Np.hstack V1 V2 i a * Np.hstack V1 V2 i b = if a = b then 1 else 0 := by
  have := congrFun (congrFun h.orth a) b
  rw [Matrix.mul_apply, Matrix.one_apply] at this
  exact this

theorem Split.orth11 (h : Split s V1 V2) (a b : Fin n) : ∑ i, V1 i a * V1 i b = if a = b then 1 else 0 := by
  have := h.orth_entry (Fin.castAdd k a) (Fin.castAdd k b)
  simpa using this

theorem Split.orth12 (h : Split s V1 V2) (a : Fin n) (b : Fin k) : ∑ i, V1 i a * V2 i b = 0 := by
  have := h.orth_entry (Fin.castAdd k a) (Fin.natAdd n b)
  rw [if_neg (by intro e; have := congrArg Fin.val e; simp at this; omega)] at this
  simpa using this

theorem Split.orth22 (h : Split s V1 V2) (a b : Fin k) : ∑ i, V2 i a * V2 i b = if a = b then 1 else 0 := by
  have := h.orth_entry (Fin.natAdd n a) (Fin.natAdd n b)
  simpa using this

theorem Split.complete (h : Split s V1 V2) : V1 * V1.transpose + V2 * V2.transpose = 1 := by
  have h1 : Np.hstack V1 V2 * (Np.hstack V1 V2).transpose = 1 := mul_eq_one_comm.mp h.orth
  rw [← h1]
  ext i j
  rw [Matrix.add_apply, Matrix.mul_apply, Matrix.mul_apply, Matrix.mul_apply, Fin.sum_univ_add]
  simp [Matrix.transpose_apply]

/-- Points `x = W1 y + W2 z`, `N` of them for each row of `Y`, with the index of that row. -/
structure InverseOf (V1 : Matrix (Fin (n + k)) (Fin n) ℝ) (V2 : Matrix (Fin (n + k)) (Fin k) ℝ) (Y : Matrix (Fin NY) (Fin n) ℝ)
    (Z : Fin NY → Fin k → Fin N → ℝ) (X : Matrix (Fin (NY * N)) (Fin (n + k)) ℝ) (ind : Matrix (Fin (NY * N)) (Fin 1) ℝ) : Prop where
  index : ∀ r, ind r 0 = (((r : ℕ) / N : ℕ) : ℝ)
  point : ∀ (a : Fin NY) (t : Fin N) (r : Fin (NY * N)), (r : ℕ) = a * N + t → ∀ i,
    X r i = ∑ j, V1 i j * Y a j + ∑ j, V2 i j * Z a j t

theorem rotate_x_ok (V1 : Matrix (Fin (n + k)) (Fin n) ℝ) (V2 : Matrix (Fin (n + k)) (Fin k) ℝ) (Y : Matrix (Fin NY) (Fin n) ℝ)
    (Z : Fin NY → Fin k → Fin N → ℝ) : ∃ X ind, rotate_x (NpMat.of Y) ⟨NY, k, N, Z⟩ (NpMat.of (Np.hstack V1 V2)) = .ok (NpMat.of X, NpMat.of ind) ∧
      InverseOf V1 V2 Y Z X ind := by
  let F : Matrix (Fin (NY * N)) (Fin (n + k)) ℝ := flattenYZ (concatYZ (NpMat.of Y) ⟨NY, k, N, Z⟩ rfl)
  refine ⟨F * (Np.hstack V1 V2).transpose, rotateInd NY N, ?_, ⟨fun r => ?_, fun a t r hr i => ?_⟩⟩
  · unfold rotate_x
    refine (dif_pos rfl).trans ?_
    have : NpMat.dot (NpMat.of (flattenYZ (concatYZ (NpMat.of Y) ⟨NY, k, N, Z⟩ rfl))) (NpMat.of (Np.hstack V1 V2)).transpose
        = .ok (NpMat.of (F * (Np.hstack V1 V2).transpose)) := dot_of F _
    rw [this]
    exact if_pos rfl
  · change ((r.divNat : ℕ) : ℝ) * 1 = _
    rw [mul_one]
    rfl
  · have e1 : r.divNat = a := Fin.ext (by
      change (r : ℕ) / N = a
      rw [hr, Nat.add_comm, Nat.add_mul_div_right _ _ (t.pos), Nat.div_eq_of_lt t.2, Nat.zero_add])
    have e2 : r.modNat = t := Fin.ext (by
      change (r : ℕ) % N = t
      rw [hr, Nat.add_comm, Nat.add_mul_mod_self_right, Nat.mod_eq_of_lt t.2])
    rw [Matrix.mul_apply, Fin.sum_univ_add]
    congr 1
    · refine Finset.sum_congr rfl fun j _ => ?_
      have : F r (Fin.castAdd k j) = Y a j := by
        change concatYZ (NpMat.of Y) ⟨NY, k, N, Z⟩ rfl r.divNat (Fin.castAdd k j) r.modNat = _
        rw [e1, e2]
        unfold concatYZ
        exact congrFun (Fin.append_left _ _ j) t
      rw [this, Matrix.transpose_apply, Np.hstack_castAdd, mul_comm]
    · refine Finset.sum_congr rfl fun j _ => ?_
      have : F r (Fin.natAdd n j) = Z a j t := by
        change concatYZ (NpMat.of Y) ⟨NY, k, N, Z⟩ rfl r.divNat (Fin.natAdd n j) r.modNat = _
        rw [e1, e2]
        unfold concatYZ
        exact congrFun (Fin.append_right _ _ j) t
      rw [this, Matrix.transpose_apply, Np.hstack_natAdd, mul_comm]

theorem forward_of (h : Split s V1 V2) {M : ℕ} (X : Matrix (Fin M) (Fin (n + k)) ℝ) :
    forward s (.mat (NpMat.of X)) = .ok (NpMat.of (X * V1), NpMat.of (X * V2)) := by
  unfold forward
  rw [h.w1, h.w2]
  simp only [process_inputs, bind, Except.bind, dot_of]
  rfl

/-- C44: `forward` returns the active and the inactive variables the points were made of, and lengths are kept. -/
theorem C44_forward (h : Split s V1 V2) {Y : Matrix (Fin NY) (Fin n) ℝ} {Z : Fin NY → Fin k → Fin N → ℝ}
    {X : Matrix (Fin (NY * N)) (Fin (n + k)) ℝ} {ind : Matrix (Fin (NY * N)) (Fin 1) ℝ} (hX : InverseOf V1 V2 Y Z X ind) :
    ∃ (Y' : Matrix (Fin (NY * N)) (Fin n) ℝ) (Z' : Matrix (Fin (NY * N)) (Fin k) ℝ),
      forward s (.mat (NpMat.of X)) = .ok (NpMat.of Y', NpMat.of Z') ∧
      ∀ (a : Fin NY) (t : Fin N) (r : Fin (NY * N)), (r : ℕ) = a * N + t →
        (∀ j, Y' r j = Y a j) ∧ (∀ j, Z' r j = Z a j t) ∧ ∑ i, X r i ^ 2 = ∑ j, Y a j ^ 2 + ∑ j, Z a j t ^ 2 := by
  refine ⟨_, _, forward_of h X, fun a t r hr => ?_⟩
  have hp := hX.point a t r hr
  have h1 : ∀ j, (X * V1) r j = Y a j := fun j => by
    rw [Matrix.mul_apply]
    simp only [hp, add_mul, Finset.sum_add_distrib, Finset.sum_mul]
    rw [Finset.sum_comm, Finset.sum_comm (f := fun i l => V2 i l * Z a l t * V1 i j)]
    have e1 : ∀ l, ∑ i, V1 i l * Y a l * V1 i j = (if l = j then 1 else 0) * Y a l := fun l => by
      rw [← h.orth11 l j, Finset.sum_mul]
      exact Finset.sum_congr rfl fun i _ => by ring
    have e2 : ∀ l, ∑ i, V2 i l * Z a l t * V1 i j = 0 * Z a l t := fun l => by
      rw [← h.orth12 j l, Finset.sum_mul]
      exact Finset.sum_congr rfl fun i _ => by ring
    simp only [e1, e2]
    simp
  have h2 : ∀ j, (X * V2) r j = Z a j t := fun j => by
    rw [Matrix.mul_apply]
    simp only [hp, add_mul, Finset.sum_add_distrib, Finset.sum_mul]
    rw [Finset.sum_comm, Finset.sum_comm (f := fun i l => V2 i l * Z a l t * V2 i j)]
    have e1 : ∀ l, ∑ i, V1 i l * Y a l * V2 i j = 0 * Y a l := fun l => by
      rw [← h.orth12 l j, Finset.sum_mul]
      exact Finset.sum_congr rfl fun i _ => by ring
    have e2 : ∀ l, ∑ i, V2 i l * Z a l t * V2 i j = (if l = j then 1 else 0) * Z a l t := fun l => by
      rw [← h.orth22 l j, Finset.sum_mul]
      exact Finset.sum_congr rfl fun i _ => by ring
    simp only [e1, e2]
    simp
  refine ⟨h1, h2, ?_⟩
  calc ∑ i, X r i ^ 2 = ∑ i, X r i * (∑ j, V1 i j * Y a j + ∑ j, V2 i j * Z a j t) :=
        Finset.sum_congr rfl fun i _ => by rw [← hp, sq]
    _ = ∑ j, (X * V1) r j * Y a j + ∑ j, (X * V2) r j * Z a j t := by
        simp only [mul_add, Finset.sum_add_distrib, Finset.mul_sum, Matrix.mul_apply, Finset.sum_mul]
        rw [Finset.sum_comm, Finset.sum_comm (f := fun i l => X r i * (V2 i l * Z a l t))]
        simp only [mul_assoc]
    _ = _ := by
        simp only [h1, h2, sq]

/-- The shape of the inactive variables. -/
def ShapeOK (reg : NpMat → ℕ → PyM (S × Files × E) (Option Arr3)) (n k : ℕ) : Prop :=
  ∀ {NY : ℕ} (Y : Matrix (Fin NY) (Fin n) ℝ) (N : ℕ) w w' Z, (reg (NpMat.of Y) N).run w = (.ok (some Z), w') →
    Z.a = NY ∧ Z.b = k ∧ Z.c = N

theorem shapeOK_bounded (h : Split s V1 V2) (lib : Model.Domains.Lib) (rng : Rng S) : ShapeOK (E := E) (boundedZ lib rng s) n k := by
  classical
  intro NY Y N w w' Z hr
  unfold boundedZ at hr
  rw [h.w1, h.w2] at hr
  dsimp only at hr
  split_ifs at hr with h1
  · obtain ⟨Zlist, w1, -, h3⟩ := bind_inv hr
    split_ifs at h3 with h4
    · obtain ⟨h5, -⟩ := pure_inv h3
      rw [← Option.some.inj h5]
      exact ⟨rfl, rfl, rfl⟩
    · exact absurd (pure_inv h3).1 (by simp)
  · exact absurd (Prod.mk.inj hr).1 (by simp)

theorem shapeOK_unbounded (h : Split s V1 V2) (rng : Rng S) : ShapeOK (E := E) (unboundedZ rng s) n k := by
  intro NY Y N w w' Z hr
  unfold unboundedZ at hr
  rw [h.w1] at hr
  dsimp only at hr
  obtain ⟨D, w1, -, h3⟩ := bind_inv hr
  obtain ⟨h5, -⟩ := pure_inv h3
  rw [← Option.some.inj h5]
  exact ⟨rfl, Nat.add_sub_cancel_left n k, rfl⟩

/-- C44: what `inverse` returns, for whatever inactive variables were picked. -/
theorem C44_inverse (h : Split s V1 V2) {reg : NpMat → ℕ → PyM (S × Files × E) (Option Arr3)} (hreg : ShapeOK reg n k)
    (Y : Matrix (Fin NY) (Fin n) ℝ) (N : ℕ) (w w' : S × Files × E) (r : NpMat × NpMat)
    (hr : (inverse reg s (.mat (NpMat.of Y)) (.int N)).run w = (.ok (some r), w')) :
    ∃ (Z : Fin NY → Fin k → Fin N → ℝ) (X : Matrix (Fin (NY * N)) (Fin (n + k)) ℝ) (ind : Matrix (Fin (NY * N)) (Fin 1) ℝ),
      (reg (NpMat.of Y) N).run w = (.ok (some ⟨NY, k, N, Z⟩), w') ∧ r = (NpMat.of X, NpMat.of ind) ∧ InverseOf V1 V2 Y Z X ind := by
  unfold inverse at hr
  obtain ⟨Y1, w0, h0, hr⟩ := bind_inv hr
  obtain ⟨h0', rfl⟩ := lift_inv h0
  obtain rfl : NpMat.of Y = Y1 := Except.ok.inj h0'
  dsimp only at hr
  rw [if_neg (by omega), Int.toNat_natCast] at hr
  obtain ⟨oZ, w1, h1, h2⟩ := bind_inv hr
  cases oZ with
  | none => exact absurd (pure_inv h2).1 (by simp)
  | some Z =>
    obtain ⟨a, b, c, Z⟩ := Z
    obtain ⟨ha, hb, hc⟩ := hreg Y N _ _ _ h1
    dsimp only at ha hb hc
    subst ha hb hc
    dsimp only at h2
    rw [h.eig] at h2
    dsimp only at h2
    obtain ⟨X, ind, h3, h4⟩ := rotate_x_ok V1 V2 Y Z
    rw [h3, PyM.run_bind_ok (PyM.run_lift _ _)] at h2
    obtain ⟨h5, rfl⟩ := pure_inv h2
    exact ⟨Z, X, ind, h1, (Option.some.inj h5).symm, h4⟩

/-- C44: bad arguments: a rank other than two, an `N` that is not an int. -/
theorem C44_bad (reg : NpMat → ℕ → PyM (S × Files × E) (Option Arr3)) (Y : Arr) (N : IntArg) (w : S × Files × E) :
    (Y.ndim ≠ 2 → (inverse reg s Y N).run w = (.error .valueError, w) ∧ forward s Y = .error .valueError) ∧
    (Y.ndim = 2 → (inverse reg s Y .other).run w = (.error .typeError, w)) := by
  refine ⟨fun h => ⟨?_, ?_⟩, fun h => ?_⟩
  · unfold inverse
    rw [Proofs.Misc.process_inputs_error h]
    rfl
  · unfold forward
    rw [Proofs.Misc.process_inputs_error h]
    rfl
  · rcases Proofs.Misc.arr_cases_mat Y with ⟨A, rfl⟩ | h1
    · rfl
    · exact absurd h h1

/-! ## C48 -/

/-- A point is in the cube iff its inactive variables are feasible. -/
theorem mem_cube_iff (V1 : Matrix (Fin (n + k)) (Fin n) ℝ) (V2 : Matrix (Fin (n + k)) (Fin k) ℝ) (y : Fin n → ℝ) (z : Fin k → ℝ) :
    (fun i => ∑ j, V1 i j * y j + ∑ j, V2 i j * z j) ∈ cube (n + k) ↔ z ∈ inactive V1 V2 y := Iff.rfl

/-- C48: every run of the bounded inverse that returns points.  For each row of `Y` either the rejection sampler or, after it
returned nothing, hit and run produced the inactive variables, and in the first case all points of the row are in the cube. -/
theorem C48_bounded_inverse (h : Split s V1 V2) (lib : Model.Domains.Lib) (rng : Rng S) (Y : Matrix (Fin NY) (Fin n) ℝ) (N : ℕ)
    (w w' : S × Files × E) (r : NpMat × NpMat) (hr : (boundedInverse lib rng s (.mat (NpMat.of Y)) (.int N)).run w = (.ok (some r), w')) :
    ∃ (Zs : Fin NY → Matrix (Fin N) (Fin k) ℝ) (X : Matrix (Fin (NY * N)) (Fin (n + k)) ℝ) (ind : Matrix (Fin (NY * N)) (Fin 1) ℝ),
      r = (NpMat.of X, NpMat.of ind) ∧ InverseOf V1 V2 Y (fun a j t => Zs a t j) X ind ∧
      ∀ a, ∃ w1 w2 : S × Files × E, ((rejection_sampling_z lib rng N (Y a) V1 V2).run w1 = (.ok (some (Zs a)), w2) ∧
          ∀ (t : Fin N) (q : Fin (NY * N)), (q : ℕ) = a * N + t → X q ∈ cube (n + k)) ∨
        ((rejection_sampling_z lib rng N (Y a) V1 V2).run w1 = (.ok none, w2) ∧
          ∃ w3, (hit_and_run_z lib rng N (Y a) V1 V2).run w2 = (.ok (some (Zs a)), w3)) := by
  classical
  obtain ⟨Z, X, ind, h1, h2, h3⟩ := C44_inverse h (shapeOK_bounded h lib rng) Y N w w' r hr
  unfold boundedZ at h1
  rw [h.w1, h.w2] at h1
  dsimp only at h1
  split_ifs at h1 with h4
  swap
  · exact absurd (Prod.mk.inj h1).1 (by simp)
  obtain ⟨Zlist, w1, h5, h6⟩ := bind_inv h1
  split_ifs at h6 with h7
  swap
  · exact absurd (pure_inv h6).1 (by simp)
  obtain ⟨h8, rfl⟩ := pure_inv h6
  have h9 := Option.some.inj h8
  have hZ : Z = fun a j t => (Zlist a).get (h7 a) t j := by
    injection h9 with _ _ _ e
    exact e.symm
  subst hZ
  refine ⟨fun a => (Zlist a).get (h7 a), X, ind, h2, h3, fun a => ?_⟩
  obtain ⟨w2, w3, h10⟩ := mapFin_inv h5 a
  have h10' : (sample_z lib rng N (Y a) V1 V2).run w2 = (.ok (Zlist a), w3) := h10
  have hget : Zlist a = some ((Zlist a).get (h7 a)) := (Option.some_get _).symm
  obtain ⟨o, w4, h11, h12⟩ := bind_inv h10'
  cases o with
  | some Zr =>
    obtain ⟨h13, -⟩ := pure_inv h12
    refine ⟨w2, w4, .inl ⟨h11.trans (congrArg (fun o => (Except.ok o, w4)) (h13.trans hget)), fun t q hq => ?_⟩⟩
    obtain ⟨B, U, cand, -, -, -, -, hsome⟩ := C45_rejection lib rng N (Y a) V1 V2 w2 w4 _ h11
    obtain ⟨f, -, -, hfeas, -⟩ := hsome Zr rfl
    have hp := h3.point a t q hq
    intro i
    rw [hp]
    have h14 : (Zlist a).get (h7 a) = Zr := by
      have := hget.symm.trans h13.symm
      exact Option.some.inj this
    have := hfeas t i
    rw [← h14] at this
    exact this
  | none =>
    exact ⟨w2, w4, .inr ⟨h11, w3, (h12 : (hit_and_run_z lib rng N (Y a) V1 V2).run w4 = _).trans (congrArg (fun o => (Except.ok o, w3)) hget)⟩⟩

/-- C48: when the rejection sampler finds enough points for every row, all points are in the cube and `forward` returns the
requested active variables. -/
theorem C48_cube (h : Split s V1 V2) (lib : Model.Domains.Lib) (rng : Rng S) (Y : Matrix (Fin NY) (Fin n) ℝ) (N : ℕ)
    (w w' : S × Files × E) (r : NpMat × NpMat) (hr : (boundedInverse lib rng s (.mat (NpMat.of Y)) (.int N)).run w = (.ok (some r), w'))
    (hrej : ∀ a (w1 w2 : S × Files × E), (rejection_sampling_z lib rng N (Y a) V1 V2).run w1 ≠ (.ok none, w2)) :
    ∃ (X : Matrix (Fin (NY * N)) (Fin (n + k)) ℝ) (Y' : Matrix (Fin (NY * N)) (Fin n) ℝ) (Z' : Matrix (Fin (NY * N)) (Fin k) ℝ),
      r.1 = NpMat.of X ∧ (∀ q, X q ∈ cube (n + k)) ∧ forward s (.mat r.1) = .ok (NpMat.of Y', NpMat.of Z') ∧
      ∀ (a : Fin NY) (t : Fin N) (q : Fin (NY * N)), (q : ℕ) = a * N + t → Y' q = Y a := by
  obtain ⟨Zs, X, ind, rfl, h2, h3⟩ := C48_bounded_inverse h lib rng Y N w w' r hr
  obtain ⟨Y', Z', h4, h5⟩ := C44_forward h h2
  refine ⟨X, Y', Z', rfl, fun q => ?_, h4, fun a t q hq => funext (h5 a t q hq).1⟩
  obtain ⟨w1, w2, h6 | ⟨h6, -⟩⟩ := h3 q.divNat
  · refine h6.2 q.modNat q ?_
    change (q : ℕ) = (q : ℕ) / N * N + (q : ℕ) % N
    exact (Nat.div_add_mod' _ _).symm
  · exact absurd h6 (hrej _ _ _)

open Classical in
theorem boundedZ_of (h : Split s V1 V2) (lib : Model.Domains.Lib) (rng : Rng S) (Y : Matrix (Fin NY) (Fin n) ℝ) (N : ℕ) (hNY : NY ≠ 0) :
    (boundedZ lib rng s (NpMat.of Y) N : PyM (S × Files × E) _) = ((PyM.mapFin NY fun i => sample_z lib rng N (Y i) V1 V2) >>= fun Zlist =>
      if hs : ∀ i, (Zlist i).isSome then pure (some ⟨NY, k, N, fun i j t => (Zlist i).get (hs i) t j⟩) else pure none) := by
  unfold boundedZ
  rw [h.w1, h.w2]
  exact dif_pos ⟨hNY, rfl, rfl⟩

/-- The hypotheses of C44 and C48 are met: two eigenvectors in the plane, two active variables, three points for each. -/
example : ∃ (s : Subspaces) (lib : Model.Domains.Lib) (rng : Rng Unit) (V1 V2 : Matrix (Fin (1 + 1)) (Fin 1) ℝ) (Y : Matrix (Fin 2) (Fin 1) ℝ)
    (r : NpMat × NpMat) (w' : Unit × Files × Unit), Split s V1 V2 ∧ QPLibOK lib.qp ∧
    (boundedInverse lib rng s (.mat (NpMat.of Y)) (.int (3 : ℕ))).run ((), [], ()) = (.ok (some r), w') ∧
    ∀ a (w1 w2 : Unit × Files × Unit), (rejection_sampling_z lib rng 3 (Y a) V1 V2).run w1 ≠ (.ok none, w2) := by
  classical
  obtain ⟨lib, rng, h1, -, h2⟩ := interval_samples
  let V1 : Matrix (Fin (1 + 1)) (Fin 1) ℝ := Matrix.of ![![3 / 5], ![4 / 5]]
  let V2 : Matrix (Fin (1 + 1)) (Fin 1) ℝ := Matrix.of ![![4 / 5], ![-3 / 5]]
  let s : Subspaces := { eigenvecs := some (NpMat.of (Np.hstack V1 V2)), W1 := some (NpMat.of V1), W2 := some (NpMat.of V2) }
  have hs : Split s V1 V2 := by
    refine ⟨rfl, rfl, rfl, ?_⟩
    ext i j
    rw [Matrix.mul_apply]
    change ∑ i', Np.hstack V1 V2 i' i * Np.hstack V1 V2 i' j = _
    rw [show (∑ i', Np.hstack V1 V2 i' i * Np.hstack V1 V2 i' j) = Np.hstack V1 V2 0 i * Np.hstack V1 V2 0 j + Np.hstack V1 V2 1 i * Np.hstack V1 V2 1 j
      from Fin.sum_univ_two _]
    refine Fin.addCases (fun i => ?_) (fun i => ?_) i <;> refine Fin.addCases (fun j => ?_) (fun j => ?_) j <;>
      fin_cases i <;> fin_cases j <;> simp only [Np.hstack_castAdd, Np.hstack_natAdd, V1, V2] <;>
      norm_num [Matrix.one_apply, Fin.ext_iff]
  choose Zf wf hZf using h2
  have hrow : ∀ (a : Fin 2) (w : Unit × Files × Unit), (sample_z lib rng 3 (fun _ => 0) V1 V2).run w = (.ok (some (Zf 3 w)), wf 3 w) := by
    intro a w
    unfold sample_z
    rw [PyM.run_bind_ok (hZf 3 w)]
    rfl
  have hZ : ∃ Zlist w', (PyM.mapFin 2 fun _ => sample_z lib rng 3 (fun _ => 0) V1 V2 : PyM (Unit × Files × Unit) _).run ((), [], ()) = (.ok Zlist, w') ∧
      ∀ i, (Zlist i).isSome := by
    refine ⟨_, _, (PyM.run_bind_ok (hrow 0 _)).trans ((PyM.run_bind_ok ((PyM.run_bind_ok (hrow 1 _)).trans
      (PyM.run_bind_ok (PyM.run_pure _ _)))).trans (PyM.run_pure _ _)), fun i => ?_⟩
    refine Fin.cases rfl (fun i => Fin.cases rfl (fun i => i.elim0) i) i
  obtain ⟨Zlist, w', hl, hsome⟩ := hZ
  have hb : (boundedZ lib rng s (NpMat.of (0 : Matrix (Fin 2) (Fin 1) ℝ)) 3).run ((), [], ())
      = (.ok (some ⟨2, 1, 3, fun i j t => (Zlist i).get (hsome i) t j⟩), w') := by
    rw [boundedZ_of hs lib rng _ _ (by norm_num)]
    refine (PyM.run_bind_ok hl).trans ?_
    rw [dif_pos hsome]
    rfl
  obtain ⟨X, ind, h3, -⟩ := rotate_x_ok V1 V2 (0 : Matrix (Fin 2) (Fin 1) ℝ) fun i j t => (Zlist i).get (hsome i) t j
  refine ⟨s, lib, rng, V1, V2, 0, (NpMat.of X, NpMat.of ind), w', hs, h1, ?_, fun a w1 w2 h4 => ?_⟩
  · unfold boundedInverse inverse
    refine (PyM.run_bind_ok (PyM.run_lift (.ok (NpMat.of (0 : Matrix (Fin 2) (Fin 1) ℝ))) _)).trans ?_
    dsimp only
    rw [if_neg (by omega), Int.toNat_natCast, PyM.run_bind_ok hb]
    dsimp only
    refine (PyM.run_bind_ok (a := (NpMat.of X, NpMat.of ind)) (w' := w') ?_).trans ?_
    · exact congrArg (fun x => (x, w')) h3
    · rfl
  · have h5 := hZf 3 w1
    have h6 : (rejection_sampling_z lib rng 3 (fun _ => 0) V1 V2).run w1 = (.ok none, w2) := h4
    rw [h5] at h6
    exact absurd (Prod.mk.inj h6).1 (by simp)

end Props
