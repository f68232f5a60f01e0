import Verif.Props.TestFunctions
import Verif.Props.ActiveSubspace
import Verif.Spec.Notebook

/-!
# C105: the data of the notebooks are values and gradients with respect to normalised inputs
-/

open Py Model.Misc Model.TestFunctions Model.Notebooks Proofs.Partials Proofs.TestFunctions Spec Filter Topology

namespace Props

variable {m M : ℕ}

theorem ofTable_continuous (T : Fin m → ℝ × ℝ) : Continuous (ofTable T) := by
  unfold ofTable
  fun_prop

theorem boxData_ok {xl xu : Fin m → ℝ} {T : Fin m → ℝ × ℝ} {f law : (Fin m → ℝ) → ℝ} {g : (Fin m → ℝ) → Fin m → ℝ}
    {P0 : (Fin m → ℝ) → ℝ → Prop} {P : ℝ → Prop} (hT : ∀ j, T j = (xl j, xu j)) (hU : ∀ j, xl j < xu j)
    (hR : RowGradient m (onBox xl xu fun x (_ : Fin 1) => f x) (onBox xl xu g) P0) (hP : ∀ z ∈ cube m, ∀ y, P y → P0 z y)
    (hlaw : ∀ x, inTable T x → ∀ᶠ y in 𝓝 x, law y = f y) :
    DataOK m (inTable T) (· ∈ cube m) (ofTable T) law P
      fun _ x => boxData xl xu (onBox xl xu fun x (_ : Fin 1) => f x) (onBox xl xu g) (.of x) := by
  intro M x hx
  obtain ⟨φ, hφ⟩ := hR
  have eun : ∀ z, ofTable T z = fun j => (xu j - xl j) * (z j + 1) / 2 + xl j := fun z => by
    funext j
    unfold ofTable
    rw [hT j]
    ring
  have e : φ = fun z => f (ofTable T z) := by
    funext z
    have h1 := (hφ 1 (Matrix.of fun _ => z)).1
    rw [onBox_of] at h1
    have h2 := NpMat.of_injective (Except.ok.inj h1)
    have h3 := (congrFun (congrFun h2 0) 0).symm
    rw [eun]
    exact h3
  subst e
  let XX : Matrix (Fin M) (Fin m) ℝ := Matrix.of fun i j => 2 * (x i j - xl j) / (xu j - xl j) - 1
  obtain ⟨h1, G, h2, h3⟩ := hφ M XX
  have hb : ∀ i j, xl j ≤ x i j ∧ x i j ≤ xu j := fun i j => by
    have := hx i j
    rw [hT j] at this
    exact this
  have hc : ∀ i, XX i ∈ cube m := fun i j => by
    have := hU j
    have hd : 0 < xu j - xl j := by linarith
    obtain ⟨ha, hb⟩ := hb i j
    change -1 ≤ 2 * (x i j - xl j) / (xu j - xl j) - 1 ∧ 2 * (x i j - xl j) / (xu j - xl j) - 1 ≤ 1
    have h0 : 0 ≤ 2 * (x i j - xl j) / (xu j - xl j) := div_nonneg (by linarith) hd.le
    have h1 : 2 * (x i j - xl j) / (xu j - xl j) ≤ 2 := by rw [div_le_iff₀ hd]; linarith
    constructor <;> linarith
  have hun : ∀ i, ofTable T (XX i) = x i := fun i => by
    rw [eun]
    funext j
    have hd : xu j - xl j ≠ 0 := by have := hU j; linarith
    change (xu j - xl j) * (2 * (x i j - xl j) / (xu j - xl j) - 1 + 1) / 2 + xl j = x i j
    field_simp
    ring
  refine ⟨XX, Matrix.of fun i (_ : Fin 1) => f (ofTable T (XX i)), G, ?_, fun i => ⟨hc i, hun i, ?_, fun hp => ?_⟩⟩
  · unfold boxData
    rw [Proofs.Misc.init_ofFn]
    change (do
      let XX ← BoundedNormalizer.normalize ⟨_, _⟩ (.mat (.of x))
      _) = _
    rw [Proofs.Misc.normalize_of]
    change (do
      let f ← onBox xl xu _ (.mat (.of XX))
      _) = _
    rw [h1]
    change (do
      let df ← onBox xl xu _ (.mat (.of XX))
      _) = _
    rw [h2]
    rfl
  · change f (ofTable T (XX i)) = law (x i)
    rw [hun i]
    exact (hlaw _ (hx i)).self_of_nhds.symm
  · refine (h3 i (hP _ (hc i) _ hp)).congr_of_eventuallyEq ?_
    have ht : Tendsto (ofTable T) (𝓝 (XX i)) (𝓝 (x i)) := by
      have := (ofTable_continuous T).tendsto (XX i)
      rwa [hun i] at this
    exact ht.eventually (hlaw _ (hx i))

/-- The circuit notebook. -/
theorem C105_circuit : DataOK 6 (inTable circuitTable) (· ∈ cube 6) (ofTable circuitTable) circuitFormula (fun _ => True)
    fun _ x => circuitData (.of x) :=
  boxData_ok (fun j => by fin_cases j <;> simp [circuitTable, circuitL, circuitU] <;> norm_num) (fun j => (circuit_box j).2) C74_circuit
    (fun _ hz _ _ => hz) fun _ _ => Eventually.of_forall fun _ => rfl

theorem pistonFormula_eq (x : Fin 7 → ℝ) : pistonFormula x = pistonAt x := by
  simp only [pistonFormula, pistonAt]
  generalize x 4 * x 1 + 19.62 * x 0 - x 3 * x 2 / x 1 = A
  have e1 : A ^ 2 + 4 * x 3 * (x 4 * x 2 / x 6) * x 5 = A ^ 2 + 4 * x 3 * x 4 * x 2 * x 5 / x 6 := by ring
  rw [e1, show ∀ s : ℝ, s - A = -A + s from fun s => by ring]
  generalize x 1 / (2 * x 3) * (-A + √(A ^ 2 + 4 * x 3 * x 4 * x 2 * x 5 / x 6)) = V
  have e2 : x 1 ^ 2 * (x 4 * x 2 / x 6) * (x 5 / V ^ 2) = x 1 ^ 2 * x 4 * x 2 * x 5 / (x 6 * V ^ 2) := by
    rw [div_eq_mul_inv (x 1 ^ 2 * x 4 * x 2 * x 5), mul_inv]
    ring
  rw [e2]

/-- The piston notebook. -/
theorem C105_piston : DataOK 7 (inTable pistonTable) (· ∈ cube 7) (ofTable pistonTable) pistonFormula (fun _ => True)
    fun _ x => pistonData (.of x) :=
  boxData_ok (fun j => by fin_cases j <;> simp [pistonTable, pistonL, pistonU] <;> norm_num) (fun j => (piston_box j).2) C74_piston
    (fun _ hz _ _ => hz) fun _ _ => Eventually.of_forall fun x => pistonFormula_eq x

theorem robotFormula_eq (x : Fin 8 → ℝ) : robotFormula x = robotAt x := by
  have h1 : ∀ (θ : Fin 4 → ℝ), (∑ j with j ≤ (0 : Fin 4), θ j) = θ 0 ∧ (∑ j with j ≤ (1 : Fin 4), θ j) = θ 0 + θ 1 ∧
      (∑ j with j ≤ (2 : Fin 4), θ j) = θ 0 + θ 1 + θ 2 ∧ (∑ j with j ≤ (3 : Fin 4), θ j) = θ 0 + θ 1 + θ 2 + θ 3 := fun θ => by
    simp only [Finset.sum_filter, Fin.sum_univ_four]
    refine ⟨?_, ?_, ?_, ?_⟩ <;> simp
  unfold robotFormula robotAt
  dsimp only
  rw [show ((0.5 : ℝ)) = 1 / 2 by norm_num, ← Real.sqrt_eq_rpow]
  simp only [Fin.sum_univ_four, (h1 _).1, (h1 _).2.1, (h1 _).2.2.1, (h1 _).2.2.2]
  rfl

/-- The robot notebook; the function has no gradient where it vanishes. -/
theorem C105_robot : DataOK 8 (inTable robotTable) (· ∈ cube 8) (ofTable robotTable) robotFormula (· ≠ 0) fun _ x => robotData (.of x) :=
  boxData_ok (fun j => by fin_cases j <;> simp [robotTable, robotL, robotU]) robot_box C75_robot (fun _ _ _ hy => hy)
    fun _ _ => Eventually.of_forall fun x => robotFormula_eq x

theorem wingFormula_eq (x : Fin 10 → ℝ) (h : ∀ j, j ≠ 3 → 0 < x j) (hc : 0 < Real.cos (x 3 * Real.pi / 180)) : wingFormula x = wingAt x := by
  have h0 := h 0 (by decide); have h1 := h 1 (by decide); have h2 := h 2 (by decide); have h4 := h 4 (by decide)
  have h5 := h 5 (by decide); have h6 := h 6 (by decide); have h7 := h 7 (by decide); have h8 := h 8 (by decide)
  unfold wingFormula wingAt
  dsimp only
  rw [show x 3 * (Real.pi / 180) = x 3 * Real.pi / 180 by ring]
  generalize Real.cos (x 3 * Real.pi / 180) = c at *
  rw [Real.div_rpow h2.le (by positivity), Real.div_rpow (by positivity) hc.le, Real.mul_rpow (by norm_num) h6.le, Real.mul_rpow h7.le h8.le]
  have e : c ^ (-0.9 : ℝ) = (c ^ (-0.3 : ℝ))⁻¹ * ((c ^ 2) ^ (0.6 : ℝ))⁻¹ := by
    rw [← Real.rpow_natCast c 2, ← Real.rpow_mul hc.le, ← Real.rpow_neg hc.le, ← Real.rpow_neg hc.le, ← Real.rpow_add hc]
    norm_num
  rw [e]
  ring

theorem wing_table (j : Fin 10) : wingTable j = (wingL j, wingU j) := by
  fin_cases j <;> simp [wingTable, wingL, wingU] <;> norm_num

theorem wing_inTable {x : Fin 10 → ℝ} (h : inTable wingTable x) : WingDomain x := fun j => by
  have := h j
  rw [wing_table] at this
  exact this

theorem wing_eventually {x : Fin 10 → ℝ} (h : inTable wingTable x) : ∀ᶠ y in 𝓝 x, wingFormula y = wingAt y := by
  obtain ⟨h1, h2⟩ := wing_domain (wing_inTable h)
  have e1 : ∀ᶠ y : Fin 10 → ℝ in 𝓝 x, ∀ j, j ≠ 3 → 0 < y j := eventually_all.2 fun j => by
    by_cases hj : j = 3
    · exact Eventually.of_forall fun _ hn => absurd hj hn
    · exact ((continuous_apply j).tendsto x |>.eventually_const_lt (h1 j hj)).mono fun _ hy _ => hy
  have hc : Continuous fun y : Fin 10 → ℝ => Real.cos (y 3 * Real.pi / 180) := by fun_prop
  filter_upwards [e1, (hc.tendsto x).eventually_const_lt h2] with y hy hy'
  exact wingFormula_eq y hy hy'

/-- The notebook of the wing weight function. -/
theorem C105_wing : DataOK 10 (inTable wingTable) (· ∈ cube 10) (ofTable wingTable) wingFormula (fun _ => True) fun _ x => wingData (.of x) :=
  boxData_ok wing_table (fun j => (wing_box j).2) C74_wing (fun _ hz _ _ => hz) fun _ hx => wing_eventually hx

theorem ofBorehole_eq (z : Fin 8 → ℝ) : ofBorehole z =
    ![0.0161812 * z 0 + 0.1, Real.exp (1.0056 * z 1 + 7.71), (115600 - 63070) * (z 2 + 1) / 2 + 63070, (1110 - 990) * (z 3 + 1) / 2 + 990,
      (116 - 63.1) * (z 4 + 1) / 2 + 63.1, (820 - 700) * (z 5 + 1) / 2 + 700, (1680 - 1120) * (z 6 + 1) / 2 + 1120,
      (12045 - 9855) * (z 7 + 1) / 2 + 9855] := by
  have hl : ∀ j : Fin 2, ofBorehole z (Fin.castAdd 6 j) = (![1 / 10 + 161812 / 10000000 * z 0, Real.exp (771 / 100 + 10056 / 10000 * z 1)] : Fin 2 → ℝ) j :=
    fun j => Fin.append_left _ _ j
  have hr : ∀ j : Fin 6, ofBorehole z (Fin.natAdd 2 j) = ofTable boreholeTable (fun j => z (Fin.natAdd 2 j)) j := fun j => Fin.append_right _ _ j
  have h0 := hl 0; have h1 := hl 1
  have h2 := hr 0; have h3 := hr 1; have h4 := hr 2; have h5 := hr 3; have h6 := hr 4; have h7 := hr 5
  funext j
  fin_cases j
  · refine h0.trans ?_
    change 1 / 10 + 161812 / 10000000 * z 0 = 0.0161812 * z 0 + 0.1
    norm_num
    ring
  · refine h1.trans ?_
    change Real.exp (771 / 100 + 10056 / 10000 * z 1) = Real.exp (1.0056 * z 1 + 7.71)
    congr 1
    norm_num
    ring
  · refine h2.trans ?_
    change 63070 + (115600 - 63070) * ((z 2 + 1) / 2) = (115600 - 63070) * (z 2 + 1) / 2 + 63070
    ring
  · refine h3.trans ?_
    change 990 + (1110 - 990) * ((z 3 + 1) / 2) = (1110 - 990) * (z 3 + 1) / 2 + 990
    ring
  · refine h4.trans ?_
    change 631 / 10 + (116 - 631 / 10) * ((z 4 + 1) / 2) = (116 - 63.1) * (z 4 + 1) / 2 + 63.1
    norm_num
    ring
  · refine h5.trans ?_
    change 700 + (820 - 700) * ((z 5 + 1) / 2) = (820 - 700) * (z 5 + 1) / 2 + 700
    ring
  · refine h6.trans ?_
    change 1120 + (1680 - 1120) * ((z 6 + 1) / 2) = (1680 - 1120) * (z 6 + 1) / 2 + 1120
    ring
  · refine h7.trans ?_
    change 9855 + (12045 - 9855) * ((z 7 + 1) / 2) = (12045 - 9855) * (z 7 + 1) / 2 + 9855
    ring

/-- The borehole notebook. -/
theorem C105_borehole : DataOK 8 boreholeInputs (fun z => ∀ j : Fin 6, -1 ≤ z (Fin.natAdd 2 j) ∧ z (Fin.natAdd 2 j) ≤ 1) ofBorehole boreholeFormula
    (fun _ => True) fun _ x => boreholeData x := by
  intro M x hx
  obtain ⟨φ, hφ⟩ := C76_borehole
  have e : φ = fun z => boreholeFormula (ofBorehole z) := by
    funext z
    have h1 := (hφ 1 (Matrix.of fun _ => z)).1
    unfold borehole at h1
    rw [boreholeRows_of] at h1
    have h2 := NpMat.of_injective (Except.ok.inj h1)
    have h3 := (congrFun (congrFun h2 0) 0).symm
    rw [ofBorehole_eq]
    exact h3
  subst e
  let T : Matrix (Fin M) (Fin 6) ℝ := Matrix.of fun i j => 2 * (x i (Fin.natAdd 2 j) - boreholeL j) / (boreholeU j - boreholeL j) - 1
  let XX : Matrix (Fin M) (Fin 8) ℝ := Matrix.of fun i j =>
    if j = 0 then (x i 0 - 0.1) / 0.0161812 else if j = 1 then (Real.log (x i 1) - 7.71) / 1.0056 else (NpMat.of T).get i (j - 2)
  have hT : ∀ j, boreholeTable j = (boreholeL j, boreholeU j) := fun j => by
    fin_cases j <;> simp [boreholeTable, boreholeL, boreholeU] <;> norm_num
  have hU : ∀ j, boreholeL j < boreholeU j := fun j => by
    fin_cases j <;> simp [boreholeL, boreholeU] <;> norm_num
  have hX : ∀ i (j : Fin 6), XX i (Fin.natAdd 2 j) = T i j := fun i j => by
    change (if Fin.natAdd 2 j = 0 then _ else if Fin.natAdd 2 j = 1 then _ else (NpMat.of T).get i (2 + j - 2)) = T i j
    rw [if_neg (by fin_cases j <;> decide), if_neg (by fin_cases j <;> decide), Nat.add_sub_cancel_left]
    exact NpMat.get_of T i j
  have hb : ∀ i j, boreholeL j ≤ x i (Fin.natAdd 2 j) ∧ x i (Fin.natAdd 2 j) ≤ boreholeU j := fun i j => by
    have := (hx i).2.2 j
    rw [hT j] at this
    exact this
  have hc : ∀ i (j : Fin 6), -1 ≤ XX i (Fin.natAdd 2 j) ∧ XX i (Fin.natAdd 2 j) ≤ 1 := fun i j => by
    rw [hX]
    have := hU j
    have hd : 0 < boreholeU j - boreholeL j := by linarith
    obtain ⟨ha, hb⟩ := hb i j
    change -1 ≤ 2 * (x i (Fin.natAdd 2 j) - boreholeL j) / (boreholeU j - boreholeL j) - 1 ∧
      2 * (x i (Fin.natAdd 2 j) - boreholeL j) / (boreholeU j - boreholeL j) - 1 ≤ 1
    have h0 : 0 ≤ 2 * (x i (Fin.natAdd 2 j) - boreholeL j) / (boreholeU j - boreholeL j) := div_nonneg (by linarith) hd.le
    have h1 : 2 * (x i (Fin.natAdd 2 j) - boreholeL j) / (boreholeU j - boreholeL j) ≤ 2 := by rw [div_le_iff₀ hd]; linarith
    constructor <;> linarith
  have h0 : ∀ i, 0.0161812 * XX i 0 + 0.1 = x i 0 := fun i => by
    change 0.0161812 * ((x i 0 - 0.1) / 0.0161812) + 0.1 = x i 0
    rw [mul_div_cancel₀ _ (by norm_num)]
    ring
  have h1 : ∀ i, Real.exp (1.0056 * XX i 1 + 7.71) = x i 1 := fun i => by
    change Real.exp (1.0056 * ((Real.log (x i 1) - 7.71) / 1.0056) + 7.71) = x i 1
    rw [mul_div_cancel₀ _ (by norm_num), sub_add_cancel, Real.exp_log ((hx i).1.trans (hx i).2.1)]
  have hun : ∀ i, ofBorehole (XX i) = x i := fun i => by
    have hr : ∀ j : Fin 6, ofBorehole (XX i) (Fin.natAdd 2 j) = x i (Fin.natAdd 2 j) := fun j => by
      refine (Fin.append_right _ _ j).trans ?_
      unfold ofTable
      beta_reduce
      rw [hX, hT]
      have hd : boreholeU j - boreholeL j ≠ 0 := by have := hU j; linarith
      change boreholeL j + (boreholeU j - boreholeL j) * ((2 * (x i (Fin.natAdd 2 j) - boreholeL j) / (boreholeU j - boreholeL j) - 1 + 1) / 2) = _
      field_simp
      ring
    have hl0 : ofBorehole (XX i) 0 = x i 0 := by rw [ofBorehole_eq]; exact h0 i
    have hl1 : ofBorehole (XX i) 1 = x i 1 := by rw [ofBorehole_eq]; exact h1 i
    funext j
    fin_cases j
    · exact hl0
    · exact hl1
    · exact hr 0
    · exact hr 1
    · exact hr 2
    · exact hr 3
    · exact hr 4
    · exact hr 5
  obtain ⟨r1, G, r2, r3⟩ := hφ M XX
  refine ⟨XX, Matrix.of fun i (_ : Fin 1) => boreholeFormula (ofBorehole (XX i)), G, ?_, fun i => ⟨hc i, hun i, ?_, fun _ => r3 i ?_⟩⟩
  · change (do
      let s ← BoundedNormalizer.init (List.ofFn boreholeL) (List.ofFn boreholeU)
      _) = _
    rw [Proofs.Misc.init_ofFn]
    change (do
      let t ← BoundedNormalizer.normalize ⟨_, _⟩ (.mat (.of (Matrix.of fun (i : Fin M) (j : Fin 6) => x i (Fin.natAdd 2 j))))
      _) = _
    rw [Proofs.Misc.normalize_of]
    change (do
      let f ← borehole id (.mat (.of XX))
      let df ← borehole_grad id (.mat (.of XX))
      return Data.mk (.of XX) f df) = _
    rw [r1]
    change (do
      let df ← borehole_grad id (.mat (.of XX))
      return Data.mk (.of XX) _ df) = _
    rw [r2]
    rfl
  · change boreholeFormula (ofBorehole (XX i)) = boreholeFormula (x i)
    rw [hun i]
  · refine ⟨?_, ?_, fun j hj => ?_⟩
    · rw [h0]; exact (hx i).1
    · rw [h0, h1]; exact (hx i).2.1
    · have := hc i ⟨j - 2, by omega⟩
      have e : Fin.natAdd 2 (⟨j - 2, by omega⟩ : Fin 6) = j := by
        have : (2 : ℕ) ≤ j := hj
        ext
        change 2 + ((j : ℕ) - 2) = j
        omega
      rwa [e] at this

/-- The first notebook: its bounds are exchanged, so that its normalised inputs are those of the notebook of the wing weight function with the
opposite sign, and its gradients are the gradients with respect to them. -/
theorem C105_basic : DataOK 10 (inTable wingTable) (· ∈ cube 10) (fun z => ofTable wingTable (-z)) wingFormula (fun _ => True)
    fun _ x => basicData x := by
  intro M x hx
  have eL : basicL = wingU := rfl
  have eU : basicU = wingL := rfl
  have hU : ∀ j, wingL j < wingU j := fun j => (wing_box j).2
  let XX : Matrix (Fin M) (Fin 10) ℝ := Matrix.of fun i j => 2 * (x i j - wingU j) / (wingL j - wingU j) - 1
  let G : Matrix (Fin M) (Fin 10) ℝ := Matrix.of fun i j =>
    if j = 3 then wingPartials (x i) j * ((wingL j - wingU j) / 2) * (Real.pi / 180) else wingPartials (x i) j * ((wingL j - wingU j) / 2)
  have hb : ∀ i j, wingL j ≤ x i j ∧ x i j ≤ wingU j := fun i j => wing_inTable (hx i) j
  have hun : ∀ i, ofTable wingTable (-XX i) = x i := fun i => by
    funext j
    unfold ofTable
    rw [wing_table j]
    have hd : wingL j - wingU j ≠ 0 := by have := hU j; linarith
    change wingL j + (wingU j - wingL j) * ((-(2 * (x i j - wingU j) / (wingL j - wingU j) - 1) + 1) / 2) = x i j
    field_simp
    ring
  refine ⟨XX, Matrix.of fun i (_ : Fin 1) => wingAt (x i), G, ?_, fun i => ⟨fun j => ?_, hun i, ?_, fun _ => ?_⟩⟩
  · dsimp only
    unfold basicData tutorialWing tutorialWing_grad
    rw [onRows_of, onRows_of, eL, eU]
    change Except.ok (Data.mk (.of XX) _ (NpMat.of _)) = Except.ok (Data.mk (.of XX) _ (NpMat.of G))
    congr 3
    ext i j
    rw [Matrix.of_apply, NpMat.get_of, Matrix.of_apply, NpMat.get_of]
    rfl
  · obtain ⟨ha, hb⟩ := hb i j
    have := hU j
    have hd : 0 < wingU j - wingL j := by linarith
    have e : 2 * (x i j - wingU j) / (wingL j - wingU j) = 2 * (wingU j - x i j) / (wingU j - wingL j) := by
      rw [← neg_div_neg_eq]
      congr 1 <;> ring
    change -1 ≤ 2 * (x i j - wingU j) / (wingL j - wingU j) - 1 ∧ 2 * (x i j - wingU j) / (wingL j - wingU j) - 1 ≤ 1
    rw [e]
    have h0 : 0 ≤ 2 * (wingU j - x i j) / (wingU j - wingL j) := div_nonneg (by linarith) hd.le
    have h1 : 2 * (wingU j - x i j) / (wingU j - wingL j) ≤ 2 := by rw [div_le_iff₀ hd]; linarith
    constructor <;> linarith
  · exact (wing_eventually (hx i)).self_of_nhds.symm
  · obtain ⟨d1, d2⟩ := wing_domain (wing_inTable (hx i))
    have eφ : ∀ z : Fin 10 → ℝ, ofTable wingTable (-z) = fun j => wingL j + (wingU j - wingL j) * ((-z j + 1) / 2) := fun z => by
      funext j
      unfold ofTable
      rw [wing_table j]
      rfl
    have hw := wing_grad_at (x i) d1 d2
    have hw' : HasFDerivAt wingFormula (lin fun j => if j = 3 then wingPartials (x i) j * (Real.pi / 180) else wingPartials (x i) j)
        fun j => wingL j + (wingU j - wingL j) * ((-XX i j + 1) / 2) := by
      rw [← eφ, hun i]
      exact hw.congr_of_eventuallyEq (wing_eventually (hx i))
    have h1 := comp_coords (φ := fun j t => wingL j + (wingU j - wingL j) * ((-t + 1) / 2)) (c := fun j => (wingL j - wingU j) / 2) hw' fun j => by
      have := ((((hasDerivAt_id (XX i j)).neg.add_const 1).div_const 2).const_mul (wingU j - wingL j)).const_add (wingL j)
      refine this.congr_deriv ?_
      ring
    simp only [eφ]
    refine h1.congr_fderiv ?_
    unfold lin
    refine Finset.sum_congr rfl fun j _ => ?_
    congr 1
    change (if j = 3 then _ else _) * _ = (if j = 3 then _ else _)
    split_ifs <;> ring

/-- The exchanged bounds do not change the eigenvalues and eigenvectors. -/
theorem C105_subspace (lib : Model.Subspaces.Lib) (w : Fin M → ℝ) (x : Matrix (Fin M) (Fin 10) ℝ) (hx : ∀ i, inTable wingTable (x i)) :
    ∃ a b : Data, wingData (.of x) = .ok a ∧ basicData x = .ok b ∧ b.XX = a.XX.map (- ·) ∧ b.f = a.f ∧ b.df = a.df.map (- ·) ∧
      Model.Subspaces.active_subspace lib (.mat b.df) (wcol w) = Model.Subspaces.active_subspace lib (.mat a.df) (wcol w) := by
  obtain ⟨XX, F, G, hr, h⟩ := C105_wing M x hx
  obtain ⟨XX', F', G', hr', h'⟩ := C105_basic M x hx
  have eX : XX' = Matrix.of fun i j => -XX i j := by
    ext i j
    have e := congrFun ((h i).2.1.trans (h' i).2.1.symm) j
    unfold ofTable at e
    beta_reduce at e
    rw [wing_table] at e
    have hd : wingU j - wingL j ≠ 0 := by have := (wing_box j).2; linarith
    have e1 := mul_left_cancel₀ hd (add_left_cancel e)
    have e2 : (-XX' i) j = -XX' i j := rfl
    rw [e2] at e1
    rw [Matrix.of_apply]
    linarith
  have eF : F' = F := by
    ext i j
    fin_cases j
    exact (h' i).2.2.1.trans (h i).2.2.1.symm
  have eG : G' = Matrix.of fun i j => -G i j := by
    ext i j
    have d := (h i).2.2.2 trivial
    have d' := (h' i).2.2.2 trivial
    have hX : XX i = -XX' i := by
      funext j
      rw [eX]
      exact (neg_neg _).symm
    rw [hX] at d
    have d2 := d.comp (XX' i) (hasFDerivAt_id (𝕜 := ℝ) (XX' i)).fun_neg
    have u := d'.unique d2
    have u' := congrArg (fun T : (Fin 10 → ℝ) →L[ℝ] ℝ => T (Pi.single j 1)) u
    have e1 : ∀ g : Fin 10 → ℝ, (∑ j, g j • (ContinuousLinearMap.proj j : (Fin 10 → ℝ) →L[ℝ] ℝ)) (Pi.single j 1) = g j := fun g => by
      rw [show (∑ j, g j • (ContinuousLinearMap.proj j : (Fin 10 → ℝ) →L[ℝ] ℝ)) = lin g from rfl, lin_apply]
      simp [Pi.single_apply]
    simp only [ContinuousLinearMap.comp_neg, ContinuousLinearMap.comp_id, ContinuousLinearMap.neg_apply] at u'
    rw [e1, e1] at u'
    exact u'
  refine ⟨_, _, hr, hr', by rw [eX]; rfl, by rw [eF], by rw [eG]; rfl, ?_⟩
  dsimp only
  rw [active_subspace_eq, active_subspace_eq, eG]
  congr 2
  ext k l
  simp [gradOuter]

/-- Possible inputs. -/
example : inTable circuitTable ![100, 50, 1, 2, 1, 100] ∧ inTable pistonTable ![40, 0.01, 0.005, 2000, 100000, 293, 350] ∧
    inTable robotTable ![1, 2, 3, 4, 0.5, 0.5, 0.25, 1] ∧ inTable wingTable ![170, 250, 8, 5, 20, 0.7, 0.1, 3, 2000, 0.05] ∧
    boreholeInputs ![0.1, 2000, 100000, 1000, 100, 750, 1500, 10000] := by
  have := Real.pi_gt_three
  refine ⟨fun j => ?_, fun j => ?_, fun j => ?_, fun j => ?_, ?_, ?_, fun j => ?_⟩
  · fin_cases j <;> simp [circuitTable] <;> norm_num
  · fin_cases j <;> simp [pistonTable] <;> norm_num
  · fin_cases j <;> simp [robotTable] <;> (try norm_num) <;> (try linarith)
  · fin_cases j <;> simp [wingTable] <;> norm_num
  · simp; norm_num
  · simp; norm_num
  · fin_cases j <;> simp [boreholeTable, Fin.natAdd] <;> norm_num

end Props
