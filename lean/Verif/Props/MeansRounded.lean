import Verif.Model.RoundedMeans
import Verif.Proofs.Groups
import Verif.Proofs.Near

/-!
# Property C146: means over groups and the estimate of `integrate` in double precision
-/

open Py Model.Misc Model.ResponseSurfaces Model.ActiveSurfaces Spec Proofs.Rounding Proofs.FloatSum Proofs.Near

namespace Props

variable {M K : ℕ} {rd : ℝ → ℝ} {sm : Model.Rounded.Summation} {d : Model.Rounded.Dot}

theorem floatSum_nonneg (hr : Rounding rd) {l : List (ℝ × ℝ)} {s : ℝ} (hs : FloatSum rd l s) (h : ∀ p ∈ l, 0 ≤ p.1 * p.2) : 0 ≤ s := by
  induction hs with
  | nil => exact le_rfl
  | mul a b => exact nonneg hr (h (a, b) (by simp))
  | fma a b _ ih => exact nonneg hr (add_nonneg (h (a, b) (by simp)) (ih fun p hp => h p (by simp [hp])))
  | add _ _ ih ih' => exact nonneg hr (add_nonneg (ih fun p hp => h p (by simp [hp])) (ih' fun p hp => h p (by simp [hp])))
  | perm hp _ ih => exact ih fun p hq => h p (hp.subset hq)

theorem sum_near (hr : Rounding rd) (hs : ∀ l : List ℝ, FloatSum rd (l.map fun x => (x, 1)) (sm l)) (l : List ℝ) :
    Near l.length (sm l) l.sum (l.map fun x => |x|).sum := by
  have h1 := (bound hr (hs l)).2
  have ev : val (l.map fun x => (x, 1)) = l.sum := by
    rw [val, List.map_map]
    simp [Function.comp_def]
  have em : mag (l.map fun x => (x, 1)) = (l.map fun x => |x|).sum := by
    rw [mag, List.map_map]
    simp [Function.comp_def]
  have h2 := val_le_mag (l.map fun x => (x, (1 : ℝ)))
  rw [ev, em] at h1 h2
  rw [List.length_map] at h1
  exact ⟨h1, h2⟩

theorem mean_near (hr : Rounding rd) (hs : ∀ l : List ℝ, FloatSum rd (l.map fun x => (x, 1)) (sm l)) {l : List ℝ} (hl : l.length ≠ 0) :
    ∃ E, Model.Rounded.mean rd sm l = some E ∧ IsDouble E ∧ Near (l.length + 1) E (l.sum / l.length) ((l.map fun x => |x|).sum / l.length) := by
  refine ⟨_, if_neg hl, isDouble hr _, ?_⟩
  exact ((sum_near hr hs l).div (Nat.cast_pos.mpr (Nat.pos_of_ne_zero hl))).round hr

theorem varOn_shift {ι : Type*} (s : Finset ι) (f : ι → ℝ) (hs : s.card ≠ 0) (E : ℝ) :
    (∑ i ∈ s, (f i - E) ^ 2) / s.card = varOn s f + (E - meanOn s f) ^ 2 := by
  have hc : (s.card : ℝ) ≠ 0 := Nat.cast_ne_zero.mpr hs
  have h1 : ∑ i ∈ s, f i = s.card * meanOn s f := by
    unfold meanOn
    field_simp
  have h2 : ∀ i, (f i - E) ^ 2 = (f i - meanOn s f) ^ 2 + 2 * (meanOn s f - E) * f i - (meanOn s f - E) * (meanOn s f + E) := fun i => by ring
  unfold varOn
  simp only [h2]
  rw [Finset.sum_sub_distrib, Finset.sum_add_distrib, ← Finset.mul_sum, h1, Finset.sum_const, nsmul_eq_mul]
  field_simp
  ring

theorem group_near (hr : Rounding rd) (hs : ∀ l : List ℝ, FloatSum rd (l.map fun x => (x, 1)) (sm l)) (f : Fin M → ℝ) (ind : Fin M → ℤ) (i : ℤ)
    (h : ∃ j, ind j = i) {S : Finset (Fin M)} (hS : S = Finset.univ.filter fun j => ind j = i) :
    ∃ E V, Model.Rounded.mean rd sm (select f ind i) = some E ∧ Model.Rounded.var rd sm (select f ind i) = some V ∧ 0 ≤ V ∧
      Near (S.card + 1) E (meanOn S f) (meanOn S fun j => |f j|) ∧
      Near (S.card + 4) V (varOn S f + (E - meanOn S f) ^ 2) (varOn S f + (E - meanOn S f) ^ 2) := by
  obtain ⟨hl, hg⟩ := select_eq f ind i
  rw [← hS] at hl
  simp only [← hS] at hg
  have hc : S.card ≠ 0 := by
    obtain ⟨j, hj⟩ := h
    exact Finset.card_ne_zero_of_mem (hS ▸ Finset.mem_filter.mpr ⟨Finset.mem_univ j, hj⟩)
  have hcp : (0 : ℝ) < S.card := Nat.cast_pos.mpr (Nat.pos_of_ne_zero hc)
  obtain ⟨E, h1, -, h2⟩ := mean_near hr hs (l := select f ind i) (by rw [hl]; exact hc)
  have e0 := hg id
  simp only [List.map_id, id] at e0
  rw [hl, hg, e0] at h2
  let y : ℝ → ℝ := fun x => rd (rd (x - E) * rd (x - E))
  have hy0 : ∀ x, 0 ≤ y x := fun x => nonneg hr (mul_self_nonneg _)
  obtain ⟨V, h3, -, h4⟩ := mean_near hr hs (l := (select f ind i).map y) (by rw [List.length_map, hl]; exact hc)
  rw [List.length_map, hl, hg y, List.map_map, hg] at h4
  have h5 : ∀ j, Near 3 (y (f j)) ((f j - E) ^ 2) ((f j - E) ^ 2) := fun j => by
    have a1 : Near 1 (rd (f j - E)) (f j - E) |f j - E| := (refl le_rfl).round hr
    have a2 := (a1.mul a1).round hr
    rw [abs_mul_abs_self, ← pow_two (f j - E)] at a2
    exact a2
  have h6 := (near_sum S fun j _ => h5 j).div hcp
  rw [varOn_shift S f hc E] at h6
  have h7 : Near (S.card + 1 + 3) V (varOn S f + (E - meanOn S f) ^ 2) (varOn S f + (E - meanOn S f) ^ 2) := by
    refine h4.trans ?_ h6
    have : ∀ j, ((fun x => |x|) ∘ y) (f j) = y (f j) := fun j => abs_of_nonneg (hy0 _)
    simp only [this]
    exact (le_abs_self _).trans h6.abs_le
  refine ⟨E, V, h1, ?_, ?_, h2, h7⟩
  · unfold Model.Rounded.var
    rw [h1]
    exact h3
  · have h8 : Model.Rounded.mean rd sm ((select f ind i).map y) = some (rd (sm ((select f ind i).map y) / ((select f ind i).map y).length)) :=
      if_neg (by rw [List.length_map, hl]; exact hc)
    rw [h8] at h3
    rw [← Option.some.inj h3]
    refine nonneg hr (div_nonneg (floatSum_nonneg hr (hs _) fun p hp => ?_) (Nat.cast_nonneg _))
    simp only [List.map_map, List.mem_map, Function.comp_apply] at hp
    obtain ⟨x, -, rfl⟩ := hp
    rw [mul_one]
    exact hy0 x

/-- C146: the means and variances of the groups in double precision. -/
theorem C146_groups (hr : Rounding rd) (hs : ∀ l : List ℝ, FloatSum rd (l.map fun x => (x, 1)) (sm l)) (hM : 0 < M) (f : Fin M → ℝ) (ind : Fin M → ℤ)
    (h0 : ∀ j, 0 ≤ ind j) :
    ∃ r, Model.Rounded.conditional_expectations rd sm f ind = .ok r ∧ (∀ j, ind j < r.n) ∧ (∃ j, ind j + 1 = r.n) ∧
      ∀ (i : Fin r.n) (S : Finset (Fin M)), (∀ j, j ∈ S ↔ ind j = (i : ℕ)) →
        (S.Nonempty → ∃ E V, r.Ef i = some E ∧ r.Vf i = some V ∧ 0 ≤ V ∧
          |E - meanOn S f| ≤ ((1 + 1 / 2 ^ 53) ^ (S.card + 1) - 1) * meanOn S (fun j => |f j|) ∧
          |V - (varOn S f + (E - meanOn S f) ^ 2)| ≤ ((1 + 1 / 2 ^ 53) ^ (S.card + 4) - 1) * (varOn S f + (E - meanOn S f) ^ 2)) ∧
        (S = ∅ → r.Ef i = none ∧ r.Vf i = none) := by
  have hne : (Finset.univ : Finset (Fin M)).Nonempty := ⟨⟨0, hM⟩, Finset.mem_univ _⟩
  have hle : ∀ j, ind j ≤ Finset.univ.sup' hne ind := fun j => Finset.le_sup' _ (Finset.mem_univ j)
  have h00 : 0 ≤ Finset.univ.sup' hne ind := (h0 ⟨0, hM⟩).trans (hle _)
  obtain ⟨jm, -, hjm⟩ := Finset.exists_mem_eq_sup' hne ind
  refine ⟨_, (dif_pos hM).trans (if_neg (by omega)), fun j => ?_, ⟨jm, ?_⟩, fun i S hS => ?_⟩
  · have := hle j
    change ind j < ((Finset.univ.sup' hne ind + 1).toNat : ℤ)
    omega
  · change ind jm + 1 = ((Finset.univ.sup' hne ind + 1).toNat : ℤ)
    omega
  have hS' : S = Finset.univ.filter fun j => ind j = (i : ℕ) := by
    ext j
    rw [hS, Finset.mem_filter]
    simp
  refine ⟨fun ⟨j, hj⟩ => ?_, fun hE => ?_⟩
  · obtain ⟨E, V, h1, h2, h3, h4, h5⟩ := group_near hr hs f ind (i : ℕ) ⟨j, (hS j).mp hj⟩ hS'
    exact ⟨E, V, h1, h2, h3, h4.err, h5.err⟩
  · have hl : (select f ind (i : ℕ)).length = 0 := by
      rw [(select_eq f ind (i : ℕ)).1, ← hS', hE, Finset.card_empty]
    have h1 : Model.Rounded.mean rd sm (select f ind (i : ℕ)) = none := if_pos hl
    refine ⟨h1, ?_⟩
    change Model.Rounded.var rd sm (select f ind (i : ℕ)) = none
    unfold Model.Rounded.var
    rw [h1]

/-- `condExp` in double precision when every index from 0 to `K-1` occurs. -/
theorem rounded_condExp_of (hr : Rounding rd) (hs : ∀ l : List ℝ, FloatSum rd (l.map fun x => (x, 1)) (sm l)) (hK : 0 < K)
    (F ind : Matrix (Fin M) (Fin 1) ℝ) (idx : Fin M → Fin K) (hind : ∀ r, ind r 0 = ((idx r : ℕ) : ℝ)) (hsj : Function.Surjective idx) :
    ∃ E V : Fin K → ℝ, Model.Rounded.condExp rd sm (NpMat.of F) (NpMat.of ind) = .ok ⟨K, fun i => some (E i), fun i => some (V i)⟩ ∧
      ∀ i, 0 ≤ V i ∧ Near ((Finset.univ.filter fun r => idx r = i).card + 1) (E i) (meanOn (Finset.univ.filter fun r => idx r = i) fun r => F r 0)
          (meanOn (Finset.univ.filter fun r => idx r = i) fun r => |F r 0|) ∧
        Near ((Finset.univ.filter fun r => idx r = i).card + 4) (V i)
          (varOn (Finset.univ.filter fun r => idx r = i) (fun r => F r 0) + (E i - meanOn (Finset.univ.filter fun r => idx r = i) fun r => F r 0) ^ 2)
          (varOn (Finset.univ.filter fun r => idx r = i) (fun r => F r 0) + (E i - meanOn (Finset.univ.filter fun r => idx r = i) fun r => F r 0) ^ 2) := by
  have hM : 0 < M := by
    obtain ⟨r, -⟩ := hsj ⟨0, hK⟩
    exact r.pos
  have e1 : (fun i : Fin M => (NpMat.of F).get i 0) = fun r => F r 0 := funext fun r => NpMat.get_of F r 0
  have e2 : (fun i : Fin M => ⌊(NpMat.of ind).get i 0⌋) = fun r => ((idx r : ℕ) : ℤ) := by
    funext r
    have : (NpMat.of ind).get r 0 = ind r 0 := NpMat.get_of ind r 0
    rw [this, hind, Int.floor_natCast]
  have e3 : Model.Rounded.condExp rd sm (NpMat.of F) (NpMat.of ind)
      = Model.Rounded.conditional_expectations rd sm (fun r => F r 0) fun r => ((idx r : ℕ) : ℤ) := by
    unfold Model.Rounded.condExp
    refine (if_pos rfl).trans ?_
    change Model.Rounded.conditional_expectations rd sm (fun i : Fin M => (NpMat.of F).get i 0) (fun i : Fin M => ⌊(NpMat.of ind).get i 0⌋) = _
    rw [e1, e2]
  have hne : (Finset.univ : Finset (Fin M)).Nonempty := ⟨⟨0, hM⟩, Finset.mem_univ _⟩
  have hsup : Finset.univ.sup' hne (fun r => ((idx r : ℕ) : ℤ)) + 1 = K := by
    refine le_antisymm ?_ ?_
    · have : Finset.univ.sup' hne (fun r => ((idx r : ℕ) : ℤ)) ≤ K - 1 := Finset.sup'_le _ _ fun r _ => by
        have := (idx r).2
        omega
      omega
    · obtain ⟨r, h4⟩ := hsj ⟨K - 1, by omega⟩
      have := Finset.le_sup' (f := fun r => ((idx r : ℕ) : ℤ)) (Finset.mem_univ r)
      rw [h4] at this
      dsimp only at this
      omega
  have hS : ∀ i : Fin K, (Finset.univ.filter fun r => idx r = i) = Finset.univ.filter fun r => ((idx r : ℕ) : ℤ) = ((i : ℕ) : ℤ) := fun i => by
    ext r
    simp [Fin.ext_iff]
  choose E V h1 h2 h3 h4 h5 using fun i : Fin K => group_near hr hs (fun r => F r 0) (fun r => ((idx r : ℕ) : ℤ)) ((i : ℕ) : ℤ) (by
    obtain ⟨r, hr⟩ := hsj i
    exact ⟨r, by rw [hr]⟩) (hS i)
  refine ⟨E, V, ?_, fun i => ⟨h3 i, h4 i, h5 i⟩⟩
  rw [e3]
  unfold Model.Rounded.conditional_expectations
  rw [dif_pos hM]
  have hn : (Finset.univ.sup' hne (fun r => ((idx r : ℕ) : ℤ)) + 1).toNat = K := by
    rw [hsup, Int.toNat_natCast]
  dsimp only
  rw [if_neg (by rw [hsup]; omega)]
  congr 1
  generalize (Finset.univ.sup' hne (fun r => ((idx r : ℕ) : ℤ)) + 1).toNat = n at hn
  subst hn
  congr 1
  · funext i
    exact h1 i
  · funext i
    exact h2 i

theorem rounded_dot_of {p n q : ℕ} (d : Model.Rounded.Dot) (A : Matrix (Fin p) (Fin n) ℝ) (B : Matrix (Fin n) (Fin q) ℝ) :
    Model.Rounded.dot d (NpMat.of A) (NpMat.of B) = .ok (NpMat.of (d p n q A B)) := dif_pos rfl

/-- C146: the estimate and the bounds of `integrate` in double precision. -/
theorem C146_estimate (hr : Rounding rd) (hd : ∀ p n q A B, FloatDot rd A B (d p n q A B))
    (hs : ∀ l : List ℝ, FloatSum rd (l.map fun x => (x, 1)) (sm l)) (hK : 0 < K) (F Xw ind : Matrix (Fin M) (Fin 1) ℝ) (idx : Fin M → Fin K)
    (hind : ∀ r, ind r 0 = ((idx r : ℕ) : ℝ)) (hsj : Function.Surjective idx) {c : ℕ} (hc : ∀ i, (Finset.univ.filter fun r => idx r = i).card ≤ c)
    (hw : ∀ r, 0 ≤ Xw r 0) {T : ℤ} (hT : 0 < T) {m A v w : Fin K → ℝ} (hm : ∀ i, m i = meanOn (Finset.univ.filter fun r => idx r = i) fun r => F r 0)
    (hA : ∀ i, A i = meanOn (Finset.univ.filter fun r => idx r = i) fun r => |F r 0|)
    (hv : ∀ i, v i = varOn (Finset.univ.filter fun r => idx r = i) fun r => F r 0)
    (hwi : ∀ i, w i = meanOn (Finset.univ.filter fun r => idx r = i) fun r => Xw r 0 * T) :
    ∃ mu lb ub, Model.Rounded.estimate rd d sm (NpMat.of F) (NpMat.of Xw) (NpMat.of ind) T = .ok (mu, lb, ub) ∧ lb ≤ mu ∧ mu ≤ ub ∧
      |mu - ∑ i, m i * w i| ≤ ((1 + 1 / 2 ^ 53) ^ (K + 2 * c + 3) - 1) * ∑ i, A i * w i ∧
      ∃ (δ : Fin K → ℝ) (h : ℝ), (∀ i, |δ i| ≤ ((1 + 1 / 2 ^ 53) ^ (c + 1) - 1) * A i) ∧
        |h - 1.96 * Real.sqrt ((∑ i, (v i + δ i ^ 2) * (w i * w i)) / T)|
          ≤ ((1 + 1 / 2 ^ 53) ^ (K + 3 * c + 13) - 1) * (1.96 * Real.sqrt ((∑ i, (v i + δ i ^ 2) * (w i * w i)) / T)) ∧
        Nearest (mu - h) lb ∧ Nearest (mu + h) ub := by
  have hTr : (0 : ℝ) < T := Int.cast_pos.mpr hT
  obtain ⟨E, V, h1, h2⟩ := rounded_condExp_of hr hs hK F ind idx hind hsj
  obtain ⟨W, V', h3, h4⟩ := rounded_condExp_of hr hs hK (Matrix.of fun r c => rd (Xw r c * T)) ind idx hind hsj
  have hE : ∀ i, Near (c + 1) (E i) (m i) (A i) := fun i => by
    rw [hm, hA]
    exact (h2 i).2.1.mono (by have := hc i; omega)
  have hV : ∀ i, Near (c + 4) (V i) (v i + (E i - m i) ^ 2) (v i + (E i - m i) ^ 2) := fun i => by
    rw [hm, hv]
    exact (h2 i).2.2.mono (by have := hc i; omega)
  have hW : ∀ i, Near (c + 2) (W i) (w i) (w i) := fun i => by
    set S := Finset.univ.filter fun r => idx r = i with hS
    have hcard : (0 : ℝ) < S.card := by
      obtain ⟨r, hr⟩ := hsj i
      exact Nat.cast_pos.mpr (Finset.card_pos.mpr ⟨r, Finset.mem_filter.mpr ⟨Finset.mem_univ r, hr⟩⟩)
    have a1 : ∀ r, Near 1 (rd (Xw r 0 * T)) (Xw r 0 * T) (Xw r 0 * T) := fun r =>
      (refl (by rw [abs_of_nonneg (mul_nonneg (hw r) hTr.le)])).round hr
    have a2 := (near_sum S fun r _ => a1 r).div hcard
    have a3 := (h4 i).2.1
    rw [← hS] at a3
    have a4 : (fun r => |(Matrix.of fun r c => rd (Xw r c * T) : Matrix (Fin M) (Fin 1) ℝ) r 0|) = fun r => rd (Xw r 0 * T) := funext fun r =>
      abs_of_nonneg (nonneg hr (mul_nonneg (hw r) hTr.le))
    rw [a4] at a3
    rw [hwi i, ← hS]
    refine (Near.trans a3 ?_ a2).mono (by have := hc i; rw [← hS] at this; omega)
    exact (le_abs_self _).trans a2.abs_le
  have hmu := hd 1 K 1 (colMat E).transpose (colMat W) 0 0
  have hsg := hd 1 K 1 (colMat V).transpose ((colMat W).map fun t => rd (t * t)) 0 0
  set mu := d 1 K 1 (colMat E).transpose (colMat W) 0 0 with emu
  set sg := d 1 K 1 (colMat V).transpose ((colMat W).map fun t => rd (t * t)) 0 0 with esg
  have n1 : Near (K + 2 * c + 3) mu (∑ i, m i * w i) (∑ i, A i * w i) :=
    (near_dot hr hmu fun i => (hE i).mul (hW i)).mono (by omega)
  let D := (∑ i, (v i + (E i - m i) ^ 2) * (w i * w i)) / (T : ℝ)
  have n2 : Near (K + 3 * c + 10) (rd (sg / T)) D D := by
    have b1 : ∀ i, Near (c + 4 + (c + 2 + (c + 2) + 1)) (V i * rd (W i * W i)) ((v i + (E i - m i) ^ 2) * (w i * w i)) ((v i + (E i - m i) ^ 2) * (w i * w i)) :=
      fun i => (hV i).mul (((hW i).mul (hW i)).round hr)
    exact (((near_dot hr hsg b1).div hTr).round hr).mono (by omega)
  have hsg0 : 0 ≤ sg := by
    refine floatSum_nonneg hr hsg fun p hp => ?_
    obtain ⟨i, rfl⟩ := (List.mem_ofFn' _ _).mp hp
    exact mul_nonneg (h2 i).1 (nonneg hr (mul_self_nonneg _))
  have hD0 : 0 ≤ D := n2.nonneg
  let h := rd (rd 1.96 * rd (Real.sqrt (rd (sg / T))))
  have n3 : Near (K + 3 * c + 13) h (1.96 * Real.sqrt D) (1.96 * Real.sqrt D) := by
    have b1 : Near 1 (rd 1.96) 1.96 1.96 := (refl (by rw [abs_of_pos (by norm_num)])).round hr
    have b2 := (n2.sqrt (nonneg hr (div_nonneg hsg0 hTr.le)) hD0).round hr
    exact ((b1.mul b2).round hr).mono (by omega)
  have hh : 0 ≤ h := nonneg hr (mul_nonneg (nonneg hr (by norm_num)) (nonneg hr (Real.sqrt_nonneg _)))
  have hmd : IsDouble mu := (bound hr hmu).1
  refine ⟨mu, rd (mu - h), rd (mu + h), ?_, le_of_double hr hmd (by linarith), ge_of_double hr hmd (by linarith), n1.err, fun i => E i - m i, h,
    fun i => (hE i).err, n3.err, hr _, hr _⟩
  have hg : ∀ A : Matrix (Fin 1) (Fin 1) ℝ, (NpMat.of A).get 0 0 = A 0 0 := fun A => NpMat.get_of A 0 0
  unfold Model.Rounded.estimate
  have e5 : (NpMat.of Xw).map (fun t => rd (t * (T : ℝ))) = NpMat.of (Matrix.of fun r c => rd (Xw r c * T)) := NpMat.map_of _ _
  rw [e5, h1, h3]
  simp only [bind, Except.bind, NpMat.transpose_of, NpMat.map_of, rounded_dot_of, NpMat.zipB_same]
  rw [hg, hg, hg]
  rfl

/-! ## The hypotheses can be met -/

theorem summation_exists (rd : ℝ → ℝ) : ∃ sm : Model.Rounded.Summation, ∀ l : List ℝ, FloatSum rd (l.map fun x => (x, 1)) (sm l) :=
  ⟨fun l => (exists_floatSum rd (l.map fun x => (x, 1))).choose, fun l => (exists_floatSum rd (l.map fun x => (x, 1))).choose_spec⟩

/-- C146: two groups of two values with means 2, weights 1/4: the estimate is 2 to twelve digits. -/
example : ∃ (rd : ℝ → ℝ) (d : Model.Rounded.Dot) (sm : Model.Rounded.Summation) (mu lb ub : ℝ), Rounding rd ∧
    Model.Rounded.estimate rd d sm (NpMat.of (Matrix.of fun r _ => if r = 0 then 1 else if r = 1 then 3 else 2 : Matrix (Fin 4) (Fin 1) ℝ))
      (NpMat.of (Matrix.of fun (_ : Fin 4) (_ : Fin 1) => 1 / 4)) (NpMat.of (Matrix.of ![![0], ![0], ![1], ![1]] : Matrix (Fin 4) (Fin 1) ℝ)) 2 = .ok (mu, lb, ub) ∧
    lb ≤ mu ∧ mu ≤ ub ∧ |mu - 2| ≤ 1 / 10 ^ 12 := by
  obtain ⟨rd, hr⟩ := exists_rounding
  obtain ⟨sm, hs⟩ := summation_exists rd
  let d : Model.Rounded.Dot := fun p n q A B => Matrix.of fun i j => (exists_floatSum rd (List.ofFn fun k => (A i k, B k j))).choose
  have hS : ∀ i : Fin 2, (Finset.univ.filter fun r => (![0, 0, 1, 1] : Fin 4 → Fin 2) r = i) = if i = 0 then {0, 1} else {2, 3} := by decide
  obtain ⟨mu, lb, ub, h1, h2, h3, h4, -⟩ := C146_estimate (d := d) hr
    (fun p n q A B i j => (exists_floatSum rd (List.ofFn fun k => (A i k, B k j))).choose_spec) hs two_pos
    (Matrix.of fun r _ => if r = 0 then 1 else if r = 1 then 3 else 2 : Matrix (Fin 4) (Fin 1) ℝ) (Matrix.of fun (_ : Fin 4) (_ : Fin 1) => 1 / 4)
    (Matrix.of ![![0], ![0], ![1], ![1]] : Matrix (Fin 4) (Fin 1) ℝ) ![0, 0, 1, 1]
    (fun r => by fin_cases r <;> simp) (by decide) (c := 2) (by decide) (fun r => by norm_num) (T := 2) (by norm_num)
    (fun _ => rfl) (fun _ => rfl) (fun _ => rfl) (fun _ => rfl)
  refine ⟨rd, d, sm, mu, lb, ub, hr, h1, h2, h3, ?_⟩
  have p01 : ∀ g : Fin 4 → ℝ, ∑ x ∈ ({0, 1} : Finset (Fin 4)), g x = g 0 + g 1 := fun g => Finset.sum_pair (by decide)
  have p23 : ∀ g : Fin 4 → ℝ, ∑ x ∈ ({2, 3} : Finset (Fin 4)), g x = g 2 + g 3 := fun g => Finset.sum_pair (by decide)
  have c01 : ({0, 1} : Finset (Fin 4)).card = 2 := by decide
  have c23 : ({2, 3} : Finset (Fin 4)).card = 2 := by decide
  simp only [hS, meanOn, Fin.sum_univ_two, if_true, if_neg (by decide : ¬ (1 : Fin 2) = 0), p01, p23, c01, c23, Matrix.of_apply,
    if_neg (by decide : ¬ (1 : Fin 4) = 0), if_neg (by decide : ¬ (2 : Fin 4) = 0), if_neg (by decide : ¬ (2 : Fin 4) = 1),
    if_neg (by decide : ¬ (3 : Fin 4) = 0), if_neg (by decide : ¬ (3 : Fin 4) = 1)] at h4
  norm_num at h4
  refine h4.trans ?_
  norm_num

end Props
