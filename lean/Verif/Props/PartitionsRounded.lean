import Verif.Model.RoundedPartitions
import Verif.Props.MeansRounded
import Verif.Props.Partition

/-!
# Property C162: `errbnd_partition` and `ladle_partition` in double precision
-/

open Py Model.ResponseSurfaces Spec Proofs.Rounding Proofs.FloatSum Proofs.Near

namespace Props

variable {m : ℕ} {rd : ℝ → ℝ} {sm : Model.Rounded.Summation}

theorem sum_take_eq (e : Fin m → ℝ) (n : ℕ) : ((List.ofFn e).take n).sum = ∑ k : Fin m, if (k : ℕ) < n then e k else 0 := by
  rw [List.sum_take_ofFn, Finset.sum_filter]

theorem sum_drop_eq (e : Fin m → ℝ) (n : ℕ) : ((List.ofFn e).drop n).sum = ∑ k : Fin m, if (k : ℕ) < n then 0 else e k := by
  have h1 := List.sum_take_add_sum_drop (List.ofFn e) n
  rw [sum_take_eq, List.sum_ofFn] at h1
  have h2 : ∑ k : Fin m, e k = (∑ k : Fin m, if (k : ℕ) < n then e k else 0) + ∑ k : Fin m, if (k : ℕ) < n then 0 else e k := by
    rw [← Finset.sum_add_distrib]
    exact Finset.sum_congr rfl fun k _ => by split_ifs <;> simp
  linarith

/-- C162: with nothing rounded the definition is that of C39. -/
theorem C162_exact (e : Fin m → ℝ) (sub_err : NpVec) :
    Model.Rounded.errbnd_partition id List.sum e sub_err = Model.Subspaces.errbnd_partition e sub_err := by
  unfold Model.Rounded.errbnd_partition Model.Subspaces.errbnd_partition
  have h : ∀ i : ℕ, (∑ k ∈ Finset.univ.filter (fun k : Fin m => i + 1 ≤ (k : ℕ)), e k) = ∑ k : Fin m, if (k : ℕ) < i + 1 then 0 else e k := by
    intro i
    rw [Finset.sum_filter]
    refine Finset.sum_congr rfl fun k _ => ?_
    by_cases hk : (k : ℕ) < i + 1
    · rw [if_pos hk, if_neg (by omega)]
    · rw [if_neg hk, if_pos (by omega)]
  simp only [id, sum_take_eq, sum_drop_eq, h, Finset.sum_filter]

theorem root_near (hr : Rounding rd) (hs : ∀ l : List ℝ, FloatSum rd (l.map fun x => (x, 1)) (sm l)) {l : List ℝ} (hl : ∀ x ∈ l, 0 ≤ x) :
    Near (l.length + 1) (rd (Real.sqrt (sm l))) (Real.sqrt l.sum) (Real.sqrt l.sum) := by
  have h1 := sum_near hr hs l
  have h2 : (l.map fun x => |x|).sum = l.sum := by
    congr 1
    exact (List.map_congr_left fun x hx => abs_of_nonneg (hl x hx)).trans (List.map_id _)
  rw [h2] at h1
  have h3 : 0 ≤ sm l := floatSum_nonneg hr (hs l) fun p hp => by
    obtain ⟨x, hx, rfl⟩ := List.mem_map.mp hp
    simpa using hl x hx
  exact (h1.sqrt h3 (List.sum_nonneg hl)).round hr

/-- C162: every bound that `errbnd_partition` computes is within `γ = (1 + 2^-53)^(m+2) - 1` of the exact one, relatively, and the dimension
it selects has an exact bound that no other dimension improves by a factor below `(1 - γ) / (1 + γ)`. -/
theorem C162_errbnd (hr : Rounding rd) (hs : ∀ l : List ℝ, FloatSum rd (l.map fun x => (x, 1)) (sm l)) (hm : 2 ≤ m) (e : Fin m → ℝ) (he : ∀ k, 0 ≤ e k)
    (err : Fin (m - 1) → ℝ) (herr : ∀ i, 0 ≤ err i) {γ : ℝ} (hγ : γ = (1 + 1 / 2 ^ 53) ^ (m + 2) - 1) :
    ∃ (n : ℕ) (_ : 1 ≤ n) (h2 : n < m) (d : Fin (m - 1) → ℝ), Model.Rounded.errbnd_partition rd sm e (NpVec.of err) = .ok (n, d) ∧
      (∀ i : Fin (m - 1), |d i - bound e (i + 1) (err i)| ≤ γ * bound e (i + 1) (err i)) ∧
      ∀ k (_ : 1 ≤ k) (hk : k < m), (1 - γ) * bound e n (err ⟨n - 1, by omega⟩) ≤ (1 + γ) * bound e k (err ⟨k - 1, by omega⟩) := by
  set v : Fin (m - 1) → ℝ := fun i =>
    rd (rd (rd (Real.sqrt (sm ((List.ofFn e).take (i + 1)))) * err i) + rd (Real.sqrt (sm ((List.ofFn e).drop (i + 1))))) with hv
  have hmem : ∀ x ∈ List.ofFn e, 0 ≤ x := fun x hx => by
    obtain ⟨k, rfl⟩ := List.mem_ofFn.mp hx
    exact he k
  have hb : ∀ i : Fin (m - 1), |v i - bound e (i + 1) (err i)| ≤ γ * bound e (i + 1) (err i) := by
    intro i
    have a1 := root_near hr hs (l := (List.ofFn e).take (i + 1)) fun x hx => hmem x (List.mem_of_mem_take hx)
    have a2 := root_near hr hs (l := (List.ofFn e).drop (i + 1)) fun x hx => hmem x (List.mem_of_mem_drop hx)
    rw [sum_take_eq] at a1
    rw [sum_drop_eq] at a2
    have a3 := ((a1.mono (p := m) (by simp <;> omega)).mul (refl (b := err i) (m := err i) (abs_of_nonneg (herr i)).le)).round hr
    have a4 := a2.mono (p := m + 1) (by simp <;> omega)
    have a5 : Near (m + 1) (rd (rd (Real.sqrt (sm ((List.ofFn e).take (i + 1)))) * err i) + rd (Real.sqrt (sm ((List.ofFn e).drop (i + 1)))))
        (bound e (i + 1) (err i)) (bound e (i + 1) (err i)) := by
      have b := near_sum (Finset.univ : Finset (Fin 2)) (n := m + 1)
        (a := ![_, _]) (b := ![_, _]) (m := ![_, _]) fun j _ => by
          fin_cases j
          · exact a3
          · exact a4
      simpa [Fin.sum_univ_two, bound] using b
    have a6 := (a5.round hr).err
    rw [hγ]
    exact a6
  obtain ⟨i, hi, hmin, -⟩ := Np.argmin_ok v (by omega)
  refine ⟨i + 1, by omega, by omega, v, ?_, hb, fun k hk1 hk => ?_⟩
  · unfold Model.Rounded.errbnd_partition
    rw [if_neg (by omega)]
    refine (dif_pos le_rfl).trans ?_
    change (do
      let n ← Np.argmin v
      return ((n : ℕ) + 1, v)) = _
    rw [hi]
    rfl
  · have c1 := (abs_le.mp (hb i)).1
    have c2 := (abs_le.mp (hb ⟨k - 1, by omega⟩)).2
    have c3 := hmin ⟨k - 1, by omega⟩
    simp only [Nat.sub_add_cancel hk1] at c2
    have c4 : bound e (i + 1) (err ⟨(i : ℕ) + 1 - 1, by omega⟩) = bound e (i + 1) (err i) := rfl
    rw [c4]
    linarith

/-- C162: with nothing rounded the definition is that of C39. -/
theorem C162_exact_ladle (e : Fin m → ℝ) (F : Fin m → ℝ) :
    Model.Rounded.ladle_partition id List.sum e F = Model.Subspaces.ladle_partition e fun i => some (F i) := by
  unfold Model.Rounded.ladle_partition Model.Subspaces.ladle_partition
  have h : ∀ i, (Np.divNan (e i) (List.ofFn e).sum).map (fun b => id (F i + id b)) = (do
      let a ← some (F i)
      let b ← Np.divNan (e i) (∑ k, e k)
      return a + b : Option ℝ) := by
    intro i
    rw [List.sum_ofFn]
    cases Np.divNan (e i) (∑ k, e k) <;> rfl
  simp only [h]

theorem round_rel (hr : Rounding rd) {x y Q : ℝ} (hy : 0 ≤ y) (h : |x - y| ≤ (Q - 1) * y) : |rd x - y| ≤ (Q * (1 + u) - 1) * y := by
  have h1 := error hr x
  have h2 : |x| ≤ Q * y := by
    have := abs_add_le (x - y) y
    rw [sub_add_cancel, abs_of_nonneg hy] at this
    linarith
  have h3 : |x| / 2 ^ 53 = u * |x| := by unfold u; ring
  have h4 := mul_le_mul_of_nonneg_left h2 u_pos.le
  have h5 : rd x - y = (rd x - x) + (x - y) := by ring
  rw [h5]
  refine (abs_add_le _ _).trans ?_
  nlinarith

/-- C162: every term that `ladle_partition` computes is within `K` of the exact one, relatively, where `1 + K = (1 + 2^-53)² / (2 - (1 + 2^-53)^m)`,
and no other dimension improves on the selected one by a factor below `(1 - K) / (1 + K)`. -/
theorem C162_ladle (hr : Rounding rd) (hs : ∀ l : List ℝ, FloatSum rd (l.map fun x => (x, 1)) (sm l)) (hm : 1 ≤ m) (e : Fin m → ℝ) (he : ∀ k, 0 ≤ e k)
    (hsum : 0 < ∑ k, e k) (F : Fin m → ℝ) (hF : ∀ i, 0 ≤ F i) (hP : (1 + 1 / 2 ^ 53 : ℝ) ^ m < 2) {K : ℝ}
    (hK : K = (1 + 1 / 2 ^ 53) ^ 2 / (2 - (1 + 1 / 2 ^ 53) ^ m) - 1) :
    ∃ (n : ℕ) (_ : 1 ≤ n) (h2 : n ≤ m) (G : Fin m → ℝ), Model.Rounded.ladle_partition rd sm e F = .ok (n, fun i => some (G i)) ∧
      (∀ i, |G i - (F i + e i / ∑ k, e k)| ≤ K * (F i + e i / ∑ k, e k)) ∧
      ∀ k, (1 - K) * (F ⟨n - 1, by omega⟩ + e ⟨n - 1, by omega⟩ / ∑ k, e k) ≤ (1 + K) * (F k + e k / ∑ k, e k) := by
  set S := ∑ k, e k with hS
  set T := sm (List.ofFn e) with hT
  have hu : (1 + u : ℝ) = 1 + 1 / 2 ^ 53 := rfl
  set P : ℝ := (1 + 1 / 2 ^ 53) ^ m with hPdef
  have hP1 : 1 ≤ P := one_le_pow m
  have hTS : |T - S| ≤ (P - 1) * S := by
    have h1 := sum_near hr hs (List.ofFn e)
    have h2 : ((List.ofFn e).map fun x => |x|).sum = S := by
      rw [List.map_ofFn, List.sum_ofFn]
      exact Finset.sum_congr rfl fun k _ => abs_of_nonneg (he k)
    rw [h2, List.length_ofFn, List.sum_ofFn] at h1
    exact h1.err
  obtain ⟨t1, t2⟩ := abs_le.mp hTS
  have hR : 0 < 2 - P := by linarith
  have hT1 : (2 - P) * S ≤ T := by linarith
  have hTpos : 0 < T := (mul_pos hR hsum).trans_le hT1
  set G : Fin m → ℝ := fun i => rd (F i + rd (e i / T)) with hG
  have hQ : 1 ≤ 1 / (2 - P) := by
    rw [le_div_iff₀ hR]
    linarith
  have hq : ∀ i, |e i / T - e i / S| ≤ (1 / (2 - P) - 1) * (e i / S) := by
    intro i
    have a0 : 0 ≤ e i / S := div_nonneg (he i) hsum.le
    have a1 : e i / T = e i / S * (S / T) := by
      field_simp
    have a2 : S / T ≤ 1 / (2 - P) := by
      rw [div_le_div_iff₀ hTpos hR]
      linarith
    have a3 : 2 - 1 / (2 - P) ≤ S / T := by
      have c1 : T ≤ P * S := by linarith
      have c2 : 1 / P ≤ S / T := by
        rw [div_le_div_iff₀ (by linarith) hTpos]
        linarith
      have c3 : 2 - 1 / (2 - P) ≤ 1 / P := by
        have hPp : 0 < P := by linarith
        have c4 : 0 ≤ 1 / P + 1 / (2 - P) - 2 := by
          have : 1 / P + 1 / (2 - P) - 2 = 2 * (P - 1) ^ 2 / (P * (2 - P)) := by
            have := hPp.ne'
            have := hR.ne'
            field_simp
            ring
          rw [this]
          positivity
        linarith
      linarith
    have a4 : |S / T - 1| ≤ 1 / (2 - P) - 1 := abs_le.mpr ⟨by linarith, by linarith⟩
    have a5 : e i / T - e i / S = (S / T - 1) * (e i / S) := by rw [a1]; ring
    rw [a5, abs_mul, abs_of_nonneg a0]
    exact mul_le_mul_of_nonneg_right a4 a0
  have hb : ∀ i, |G i - (F i + e i / S)| ≤ K * (F i + e i / S) := by
    intro i
    have a0 : 0 ≤ e i / S := div_nonneg (he i) hsum.le
    have b1 := round_rel hr a0 (hq i)
    have b2 : |F i + rd (e i / T) - (F i + e i / S)| ≤ (1 / (2 - P) * (1 + u) - 1) * (F i + e i / S) := by
      rw [add_sub_add_left_eq_sub]
      refine b1.trans (mul_le_mul_of_nonneg_left (by linarith [hF i]) ?_)
      nlinarith [u_pos]
    have b3 := round_rel hr (add_nonneg (hF i) a0) b2
    have b4 : K = 1 / (2 - P) * (1 + u) * (1 + u) - 1 := by
      rw [hK, hu]
      ring
    rw [b4]
    exact b3
  obtain ⟨i, hi, hmin, -⟩ := Np.argmin_ok G (by omega)
  refine ⟨i + 1, by omega, by omega, G, ?_, hb, fun k => ?_⟩
  · unfold Model.Rounded.ladle_partition
    have h1 : ∀ j, (Np.divNan (e j) (sm (List.ofFn e))).map (fun b => rd (F j + rd b)) = some (G j) := by
      intro j
      rw [Np.divNan, if_neg hTpos.ne']
      rfl
    simp only [h1]
    have : Np.argminNan (fun j => some (G j)) = .ok i := by
      unfold Np.argminNan
      rw [List.find?_eq_none.mpr (by simp)]
      exact hi
    rw [this]
    rfl
  · have c1 := (abs_le.mp (hb i)).1
    have c2 := (abs_le.mp (hb k)).2
    have c3 := hmin k
    change (1 - K) * (F i + e i / S) ≤ _
    linarith

/-- Three eigenvalues and two subspace errors. -/
example (hr : Rounding rd) (hs : ∀ l : List ℝ, FloatSum rd (l.map fun x => (x, 1)) (sm l)) :=
  C162_errbnd hr hs (m := 3) (by norm_num) ![4, 2, 1] (by intro k; fin_cases k <;> simp) ![1 / 8, 1 / 2] (by intro k; fin_cases k <;> simp) rfl

/-- Three eigenvalues and three measures of the subspace. -/
example (hr : Rounding rd) (hs : ∀ l : List ℝ, FloatSum rd (l.map fun x => (x, 1)) (sm l)) :=
  C162_ladle hr hs (m := 3) (by norm_num) ![4, 2, 1] (by intro k; fin_cases k <;> simp) (by simp [Fin.sum_univ_three]; norm_num) ![0, 1 / 3, 2 / 3]
    (by intro k; fin_cases k <;> simp <;> norm_num) (by norm_num) rfl

end Props
