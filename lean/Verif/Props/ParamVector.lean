import Verif.Props.Eddy
import Verif.Model.Calibration
import Verif.Props.TauNetInit
import Verif.Props.OnePoint

/-!
# C37, C38, C42, C48: parameter vector, construction, saving
-/

namespace Verif
open Fl

noncomputable section

/-! ### `vector_to_parameters` -/

theorem fillRows_flatten {α : Type} (ts : List (List α)) (v : List α) (h : v.length = ts.flatten.length) :
    (fillRows ts v).flatten = v := by
  induction ts generalizing v with
  | nil => simp only [List.flatten_nil, List.length_nil] at h; simp [fillRows, List.length_eq_zero_iff.1 h]
  | cons t ts ih =>
    simp only [List.flatten_cons, List.length_append] at h
    simp only [fillRows, List.flatten_cons]
    rw [ih _ (by simp only [List.length_drop]; omega), List.take_append_drop]

theorem fillRows_self {α : Type} (ts : List (List α)) : fillRows ts ts.flatten = ts := by
  induction ts with
  | nil => rfl
  | cons t ts ih => simp [fillRows, ih]

theorem fillRows_congr {α : Type} {ts ts' : List (List α)} (h : ts.map List.length = ts'.map List.length) (v : List α) :
    fillRows ts v = fillRows ts' v := by
  induction ts generalizing ts' v with
  | nil => cases ts' with
    | nil => rfl
    | cons _ _ => simp at h
  | cons t ts ih => cases ts' with
    | nil => simp at h
    | cons t' ts' =>
      simp only [List.map_cons, List.cons.injEq] at h
      simp only [fillRows, h.1, ih h.2]

theorem fillRows_lengths {α : Type} (ts : List (List α)) (v : List α) (h : v.length = ts.flatten.length) :
    (fillRows ts v).map List.length = ts.map List.length := by
  induction ts generalizing v with
  | nil => rfl
  | cons t ts ih =>
    simp only [List.flatten_cons, List.length_append] at h
    simp only [fillRows, List.map_cons, List.length_take]
    rw [ih _ (by simp only [List.length_drop]; omega), min_eq_left (by omega)]

/-- Shapes of a list of matrices. -/
def shapesOf {α : Type} (Ws : List (List (List α))) : List (List ℕ) := Ws.map fun W => W.map List.length

theorem flatten_length_of_shape {α : Type} {W W' : List (List α)} (h : W.map List.length = W'.map List.length) :
    W.flatten.length = W'.flatten.length := by simp only [List.length_flatten, h]

theorem fillMats_flatten {α : Type} (Ws : List (List (List α))) (v : List α)
    (h : v.length = (Ws.map List.flatten).flatten.length) : ((fillMats Ws v).map List.flatten).flatten = v := by
  induction Ws generalizing v with
  | nil => simp only [List.map_nil, List.flatten_nil, List.length_nil] at h; simp [fillMats, List.length_eq_zero_iff.1 h]
  | cons W Ws ih =>
    simp only [List.map_cons, List.flatten_cons, List.length_append] at h
    simp only [fillMats, List.map_cons, List.flatten_cons]
    rw [ih _ (by simp only [List.length_drop]; omega), fillRows_flatten _ _ (by simp only [List.length_take]; omega),
      List.take_append_drop]

theorem fillMats_self {α : Type} (Ws : List (List (List α))) (l : List α) :
    fillMats Ws ((Ws.map List.flatten).flatten ++ l) = Ws := by
  induction Ws with
  | nil => rfl
  | cons W Ws ih => simp [fillMats, List.append_assoc, ih, fillRows_self]

theorem fillMats_congr {α : Type} {Ws Ws' : List (List (List α))} (h : shapesOf Ws = shapesOf Ws') (v : List α) :
    fillMats Ws v = fillMats Ws' v := by
  induction Ws generalizing Ws' v with
  | nil => cases Ws' with
    | nil => rfl
    | cons _ _ => simp [shapesOf] at h
  | cons W Ws ih => cases Ws' with
    | nil => simp [shapesOf] at h
    | cons W' Ws' =>
      simp only [shapesOf, List.map_cons, List.cons.injEq] at h
      simp only [fillMats]
      rw [flatten_length_of_shape h.1, fillRows_congr h.1, ih h.2]

theorem fillMats_prefix {α : Type} (Ws : List (List (List α))) (v : List α) :
    fillMats Ws v = fillMats Ws (v.take (Ws.map List.flatten).flatten.length) := by
  induction Ws generalizing v with
  | nil => rfl
  | cons W Ws ih =>
    simp only [fillMats, List.map_cons, List.flatten_cons, List.length_append, List.take_take]
    rw [min_eq_left (by omega), List.drop_take, ih, Nat.add_sub_cancel_left]

theorem fillMats_shapes {α : Type} (Ws : List (List (List α))) (v : List α)
    (h : (Ws.map List.flatten).flatten.length ≤ v.length) : shapesOf (fillMats Ws v) = shapesOf Ws := by
  induction Ws generalizing v with
  | nil => rfl
  | cons W Ws ih =>
    simp only [List.map_cons, List.flatten_cons, List.length_append] at h
    have := ih (v.drop W.flatten.length) (by simp only [List.length_drop]; omega)
    simp only [shapesOf] at this
    simp only [fillMats, shapesOf, List.map_cons, this]
    rw [fillRows_lengths _ _ (by simp only [List.length_take]; omega)]

theorem total_of_shapes {α : Type} {Ws Ws' : List (List (List α))} (h : shapesOf Ws = shapesOf Ws') :
    (Ws.map List.flatten).flatten.length = (Ws'.map List.flatten).flatten.length := by
  induction Ws generalizing Ws' with
  | nil => cases Ws' with
    | nil => rfl
    | cons _ _ => simp [shapesOf] at h
  | cons W Ws ih => cases Ws' with
    | nil => simp [shapesOf] at h
    | cons W' Ws' =>
      simp only [shapesOf, List.map_cons, List.cons.injEq] at h
      simp only [List.map_cons, List.flatten_cons, List.length_append]
      rw [flatten_length_of_shape h.1, ih h.2]

theorem TauNet.paramVec_setVec (ln : Bool) (net : TauNet) (v : List ℝ) (h : v.length = (net.paramVec ln).length) :
    (net.setVec ln v).paramVec ln = v := by
  set n := (net.linears.map List.flatten).flatten.length with hn
  unfold TauNet.paramVec TauNet.setVec
  simp only
  cases ln with
  | false =>
    simp only [TauNet.paramVec, Bool.false_eq_true, if_false, List.append_nil] at h ⊢
    exact fillMats_flatten _ _ h
  | true =>
    simp only [TauNet.paramVec, if_true, List.length_append, List.length_singleton] at h ⊢
    rw [fillMats_prefix, fillMats_flatten _ _ (by simp only [List.length_take]; omega), ← hn]
    obtain ⟨x, hx⟩ : ∃ x, v.drop n = [x] := List.length_eq_one_iff.1 (by simp only [List.length_drop]; omega)
    rw [hx]
    conv_rhs => rw [← List.take_append_drop n v, hx]
    rfl

theorem TauNet.setVec_paramVec (ln : Bool) (net : TauNet) : net.setVec ln (net.paramVec ln) = net := by
  unfold TauNet.setVec TauNet.paramVec
  rw [fillMats_self]
  cases ln <;> simp

theorem TauNet.setVec_length (ln : Bool) (net : TauNet) (v : List ℝ) (h : (net.paramVec ln).length ≤ v.length) :
    ((net.setVec ln v).paramVec ln).length = (net.paramVec ln).length := by
  have h' : (net.linears.map List.flatten).flatten.length ≤ v.length := by
    unfold TauNet.paramVec at h; simp only [List.length_append] at h; omega
  have := total_of_shapes (fillMats_shapes net.linears v h')
  unfold TauNet.paramVec TauNet.setVec
  simp only [List.length_append, this]
  cases ln <;> simp

theorem getD_of_lt {v : List ℝ} {i : ℕ} (h : i < v.length) (d : ℝ) : v.getD i d = v[i] := by
  simp [List.getD_eq_getElem?_getD, h]

theorem three_split {v : List ℝ} (h : 3 ≤ v.length) : v = [v[0], v[1], v[2]] ++ v.drop 3 := by
  match v, h with
  | a :: b :: c :: t, _ => simp

theorem five_split {v : List ℝ} (h : 5 ≤ v.length) : v = [v[0], v[1], v[2]] ++ [v[3], v[4]] ++ v.drop 5 := by
  match v, h with
  | a :: b :: c :: d :: e :: t, _ => simp

/-- **C37** Set, then get. -/
theorem paramVec_setVec (ln : Bool) (s : OPS) (v : List ℝ) (h : v.length = (s.paramVec ln).length) :
    (s.setVec ln v).paramVec ln = v := by
  obtain ⟨hyp, kind, sp, logL, logT, logM, L0, T0, grid, scales, approx, k1s, beta, E0, cohGrid⟩ := s
  cases sp with
  | vkLike =>
    cases kind with
    | taunet net =>
      simp only [OPS.paramVec, List.append_nil, List.length_append, List.length_cons, List.length_nil] at h
      have h3 : 3 ≤ v.length := by omega
      simp only [OPS.paramVec, OPS.setVec, OPS.headLen, List.append_nil]
      rw [TauNet.paramVec_setVec _ _ _ (by simp only [List.length_drop]; omega), getD_of_lt, getD_of_lt, getD_of_lt]
      exact (three_split h3).symm
    | const => match v, h with | [a, b, c], _ => rfl
    | mann => match v, h with | [a, b, c], _ => rfl
    | mannApprox => match v, h with | [a, b, c], _ => rfl
    | twothird => match v, h with | [a, b, c], _ => rfl
  | learnable p q =>
    cases kind with
    | taunet net =>
      simp only [OPS.paramVec, List.length_append, List.length_cons, List.length_nil] at h
      have h5 : 5 ≤ v.length := by omega
      simp only [OPS.paramVec, OPS.setVec, OPS.headLen]
      rw [TauNet.paramVec_setVec _ _ _ (by simp only [List.length_drop]; omega), getD_of_lt, getD_of_lt, getD_of_lt,
        getD_of_lt, getD_of_lt]
      exact (five_split h5).symm
    | const => match v, h with | [a, b, c, d, e], _ => rfl
    | mann => match v, h with | [a, b, c, d, e], _ => rfl
    | mannApprox => match v, h with | [a, b, c, d, e], _ => rfl
    | twothird => match v, h with | [a, b, c, d, e], _ => rfl

theorem setVec_paramVec (ln : Bool) (s : OPS) : s.setVec ln (s.paramVec ln) = s := by
  obtain ⟨hyp, kind, sp, logL, logT, logM, L0, T0, grid, scales, approx, k1s, beta, E0, cohGrid⟩ := s
  cases sp <;> cases kind <;> simp [OPS.setVec, OPS.paramVec, OPS.headLen, TauNet.setVec_paramVec]

/-- **C37** Round trip of the `parameters` property: a vector of the right length is accepted and read back unchanged;
writing back what was read changes nothing at all. -/
theorem C37_round_trip (ln : Bool) (s : OPS) :
    (∀ v : List ℝ, v.length = (s.paramVec ln).length →
      ∃ s', s.setParameters ln v = (.ok (), s') ∧ s'.paramVec ln = v) ∧
    s.setParameters ln (s.paramVec ln) = (.ok (), s) := by
  refine ⟨fun v h => ⟨s.setVec ln v, by simp [OPS.setParameters, h], paramVec_setVec ln s v h⟩, ?_⟩
  simp [OPS.setParameters, setVec_paramVec]

/-- **C37** A vector of the wrong length raises `ValueError` and changes nothing. -/
theorem C37_wrong_length (ln : Bool) (s : OPS) (v : List ℝ) (h : v.length ≠ (s.paramVec ln).length) :
    s.setParameters ln v = (.error .valueError, s) := by
  simp [OPS.setParameters, h]

/-- **C37** Layout: the scales reported after `parameters = v` are the exponentials of the first three entries; with a
learnable spectrum the next two entries are its exponents. -/
theorem C37_layout (ln : Bool) (s s' : OPS) (v : List ℝ) (h : s.setParameters ln v = (.ok (), s')) :
    ∃ a b c t, v = a :: b :: c :: t ∧ s'.expScalesValue = (Real.exp a, Real.exp b, Real.exp c) ∧
      ((∃ p q, s.sp = .learnable p q) → ∃ p q u, t = p :: q :: u ∧ s'.sp = .learnable p q) ∧
      (s.sp = .vkLike → s'.sp = .vkLike) := by
  by_cases hl : v.length = (s.paramVec ln).length
  swap
  · rw [C37_wrong_length ln s v hl] at h; simp at h
  simp only [OPS.setParameters, hl, ne_eq, not_true_eq_false, if_false, Prod.mk.injEq, true_and] at h
  have h3 : 3 ≤ v.length := by rw [hl]; simp [OPS.paramVec]
  match v, h3 with
  | a :: b :: c :: t, _ =>
    refine ⟨a, b, c, t, rfl, by rw [← h]; rfl, ?_, ?_⟩
    · rintro ⟨p, q, hsp⟩
      have : 2 ≤ t.length := by
        simp only [OPS.paramVec, hsp, List.length_append, List.length_cons, List.length_nil] at hl
        omega
      match t, this with
      | d :: e :: u, _ => exact ⟨d, e, u, rfl, by rw [← h]; simp [OPS.setVec, hsp]⟩
    · intro hsp; rw [← h]; simp [OPS.setVec, hsp]

/-- **C37** Number of entries: three scales, two exponents if learnable, and the network parameters. -/
theorem C37_length (ln : Bool) (s : OPS) : (s.paramVec ln).length =
    3 + (match s.sp with | .learnable _ _ => 2 | .vkLike => 0) +
      (match numTrainableParams ln s with | .ok n => n | .error _ => 0) := by
  obtain ⟨hyp, kind, sp, logL, logT, logM, L0, T0, grid, scales, approx, k1s, beta, E0, cohGrid⟩ := s
  cases sp <;> cases kind <;> simp [OPS.paramVec, numTrainableParams] <;> try omega

/-- A network with learnable `nu`, learnable spectrum: 3 + 2 + 18 + 1 parameters. -/
example : ∃ s : OPS, (s.paramVec true).length = 24 :=
  ⟨{ hyp := fun _ => 1, kind := .taunet ⟨[[[1, 2, 3], [4, 5, 6], [7, 8, 9]], [[1, 2, 3], [4, 5, 6], [7, 8, 9]]], [reluVec], 0⟩,
     sp := .learnable 4 3, logL := 0, logT := 0, logM := 0, L0 := 1, T0 := 1,
     grid := [-1, 0, 1], scales := none, approx := none, k1s := none, beta := none, E0 := none, cohGrid := none }, rfl⟩

/-! ### Construction -/

/-- Specification: arguments with which a `CalibrationProblem` can be built. -/
structure Spec.Constructible (deviceOk : Bool) (nn : Option NNCfg) (prob : ProbCfg) (phys : PhysCfg) : Prop where
  device : deviceOk = true
  components : prob.nc ∈ ({3, 4, 6} : Set Int)
  scales : 0 < phys.L ∧ 0 < phys.Gamma ∧ 0 < phys.sigma
  network : ∃ c, nn = some c ∧ (prob.eddy = .taunet → ∃ n, c.nlayers = some n ∧ Spec.validTauNet n c.hidden .none)

theorem buildKind_ok (nn : NNCfg) (prob : ProbCfg) (seed : NetSeed)
    (h : prob.eddy = .taunet → ∃ n, nn.nlayers = some n ∧ Spec.validTauNet n nn.hidden .none) :
    ∃ k, buildKind nn prob seed = .ok k := by
  unfold buildKind
  cases he : prob.eddy with
  | taunet =>
    obtain ⟨n, hn, hv⟩ := h he
    obtain ⟨shapes, hs, -⟩ := C08_accepts n nn.hidden .none hv true
    simp only [hn, hs]
    exact ⟨_, rfl⟩
  | twothird => exact ⟨_, rfl⟩
  | mann => exact ⟨_, rfl⟩
  | mannApprox => exact ⟨_, rfl⟩
  | const => exact ⟨_, rfl⟩

theorem buildKind_err (nn : NNCfg) (prob : ProbCfg) (seed : NetSeed)
    (h : ¬ (prob.eddy = .taunet → ∃ n, nn.nlayers = some n ∧ Spec.validTauNet n nn.hidden .none)) :
    buildKind nn prob seed = .error .valueError := by
  push Not at h
  obtain ⟨he, h⟩ := h
  unfold buildKind
  simp only [he]
  rcases hn : nn.nlayers with _ | n
  · rw [C08_rejects_nonint]
  · rw [C08_rejects n nn.hidden .none (h n hn)]

theorem initNoise_err (ln : Bool) (noise : List ℝ) (s : OPS) : (initNoise ln noise s).1 = .error .attributeError := by
  unfold initNoise
  simp only
  split <;> rfl

/-- **C38** Construction succeeds exactly for constructible arguments without noise initialisation. -/
theorem C38_outcome (hyp : ℝ → ℝ) (deviceOk : Bool) (nn : Option NNCfg) (prob : ProbCfg) (phys : PhysCfg)
    (integ : IntegCfg) (seed : NetSeed) (noise : List ℝ) :
    (∃ s, calibInit hyp deviceOk nn prob phys integ seed noise = .ok s) ↔
      Spec.Constructible deviceOk nn prob phys ∧ prob.initWithNoise = false := by
  constructor
  · rintro ⟨s, h⟩
    unfold calibInit at h
    cases deviceOk with
    | false => simp at h
    | true =>
      simp only [Bool.not_true, Bool.false_eq_true, if_false] at h
      by_cases hnc : prob.nc = 3 ∨ prob.nc = 4 ∨ prob.nc = 6
      swap
      · rw [if_pos hnc] at h; simp at h
      rw [if_neg (not_not.2 hnc)] at h
      rcases nn with _ | c
      · simp at h
      · simp only at h
        by_cases hs : 0 < phys.L ∧ 0 < phys.Gamma ∧ 0 < phys.sigma
        swap
        · rw [if_pos hs] at h; simp at h
        rw [if_neg (not_not.2 hs)] at h
        by_cases hb : prob.eddy = .taunet → ∃ n, c.nlayers = some n ∧ Spec.validTauNet n c.hidden .none
        · refine ⟨⟨rfl, by simpa using hnc, hs, c, rfl, hb⟩, ?_⟩
          obtain ⟨k, hk⟩ := buildKind_ok c prob seed hb
          simp only [hk, OPS.init, hs, and_self, if_true] at h
          by_contra hn
          rw [Bool.not_eq_false] at hn
          simp only [hn, if_true] at h
          split at h
          · simp at h
          · rename_i heq
            have := initNoise_err prob.learnNu noise _ ▸ congrArg Prod.fst heq
            simp at this
        · rw [buildKind_err c prob seed hb] at h; simp at h
  · rintro ⟨⟨h1, h2, h3, c, rfl, h4⟩, h5⟩
    obtain ⟨k, hk⟩ := buildKind_ok c prob seed h4
    unfold calibInit
    have hnc : prob.nc = 3 ∨ prob.nc = 4 ∨ prob.nc = 6 := by simpa using h2
    simp only [h1, Bool.not_true, Bool.false_eq_true, if_false, hnc, not_true_eq_false, h3, and_self, hk, OPS.init,
      if_true, h5, OPS.logDimensionalScales]
    exact ⟨_, rfl⟩

/-- The object a successful construction yields. -/
theorem calibInit_ok {hyp : ℝ → ℝ} {deviceOk : Bool} {nn : Option NNCfg} {prob : ProbCfg} {phys : PhysCfg}
    {integ : IntegCfg} {seed : NetSeed} {noise : List ℝ} {s : OPS}
    (h : calibInit hyp deviceOk nn prob phys integ seed noise = .ok s) :
    ∃ c k, nn = some c ∧ buildKind c prob seed = .ok k ∧ s =
      { hyp, kind := k, sp := if prob.learnable then .learnable prob.p prob.q else .vkLike
        logL := Real.log phys.L, logT := Real.log phys.Gamma, logM := Real.log phys.sigma
        L0 := phys.L, T0 := phys.Gamma, grid := opsGrid integ.logMin integ.logMax integ.points
        scales := none, approx := none, k1s := none, beta := none, E0 := none, cohGrid := none } := by
  obtain ⟨⟨h1, h2, h3, c, rfl, h4⟩, h5⟩ := (C38_outcome hyp deviceOk nn prob phys integ seed noise).1 ⟨s, h⟩
  obtain ⟨k, hk⟩ := buildKind_ok c prob seed h4
  unfold calibInit at h
  have hnc : prob.nc = 3 ∨ prob.nc = 4 ∨ prob.nc = 6 := by simpa using h2
  simp only [h1, Bool.not_true, Bool.false_eq_true, if_false, hnc, not_true_eq_false, h3, and_self, hk, OPS.init,
    if_true, h5, OPS.logDimensionalScales, Except.ok.injEq, Option.map_none] at h
  exact ⟨c, k, rfl, hk, h.symm⟩

/-- **C38** After a successful construction the reported scales are the physical ones, and the spectrum is learnable
exactly when requested, starting at the requested exponents. -/
theorem C38_scales {hyp : ℝ → ℝ} {deviceOk : Bool} {nn : Option NNCfg} {prob : ProbCfg} {phys : PhysCfg}
    {integ : IntegCfg} {seed : NetSeed} {noise : List ℝ} {s : OPS}
    (h : calibInit hyp deviceOk nn prob phys integ seed noise = .ok s) :
    s.expScalesValue = (phys.L, phys.Gamma, phys.sigma) ∧
    s.sp = (if prob.learnable then .learnable prob.p prob.q else .vkLike) := by
  have hs := ((C38_outcome hyp deviceOk nn prob phys integ seed noise).1 ⟨s, h⟩).1.scales
  obtain ⟨c, k, -, -, rfl⟩ := calibInit_ok h
  simp [OPS.expScalesValue, Real.exp_log hs.1, Real.exp_log hs.2.1, Real.exp_log hs.2.2]

/-- **C25** A constructed calibration problem reports exactly the physical scales it was given. -/
theorem C25_constructed {hyp : ℝ → ℝ} {deviceOk : Bool} {nn : Option NNCfg} {prob : ProbCfg} {phys : PhysCfg}
    {integ : IntegCfg} {seed : NetSeed} {noise : List ℝ} {s : OPS}
    (h : calibInit hyp deviceOk nn prob phys integ seed noise = .ok s) :
    0 < phys.L ∧ 0 < phys.Gamma ∧ 0 < phys.sigma ∧ s.expScalesValue = (phys.L, phys.Gamma, phys.sigma) := by
  have hs := ((C38_outcome hyp deviceOk nn prob phys integ seed noise).1 ⟨s, h⟩).1.scales
  exact ⟨hs.1, hs.2.1, hs.2.2, (C38_scales h).1⟩

/-- **C38** Noise initialisation never succeeds: with otherwise valid arguments it raises `AttributeError`. -/
theorem C38_noise (hyp : ℝ → ℝ) {deviceOk : Bool} {nn : Option NNCfg} {prob : ProbCfg} {phys : PhysCfg}
    (integ : IntegCfg) (seed : NetSeed) (noise : List ℝ) (hc : Spec.Constructible deviceOk nn prob phys)
    (hn : prob.initWithNoise = true) :
    calibInit hyp deviceOk nn prob phys integ seed noise = .error .attributeError := by
  obtain ⟨h1, h2, h3, c, rfl, h4⟩ := hc
  obtain ⟨k, hk⟩ := buildKind_ok c prob seed h4
  have hnc : prob.nc = 3 ∨ prob.nc = 4 ∨ prob.nc = 6 := by simpa using h2
  unfold calibInit
  simp only [h1, Bool.not_true, Bool.false_eq_true, if_false, hnc, not_true_eq_false, h3, and_self, hk, OPS.init,
    if_true, hn]
  split
  · rename_i heq
    have := initNoise_err prob.learnNu noise _ ▸ congrArg Prod.fst heq
    simpa using this.symm
  · rename_i heq
    have := initNoise_err prob.learnNu noise _ ▸ congrArg Prod.fst heq
    simp at this

/-- The default arguments are constructible. -/
example : Spec.Constructible true (some ⟨some 2, .int 10⟩) ⟨4, 1e-3, 10, false, .taunet, false, false, 4, 17 / 6⟩
    ⟨0.59, 3.9, 3.2, 10, 1, 1, 1⟩ :=
  ⟨rfl, by simp, by norm_num, _, rfl, fun _ => ⟨2, rfl, by decide, by decide, trivial⟩⟩

/-! ### Sessions and saving -/

/-- Network of the same architecture: equal shapes and activations (and equal `nu` unless it is learned). -/
def KindShape (ln : Bool) : EddyKind → EddyKind → Prop
  | .taunet a, .taunet b => shapesOf a.linears = shapesOf b.linears ∧ a.activations = b.activations ∧
      (ln = false → a.nu = b.nu)
  | .const, .const => True
  | .mann, .mann => True
  | .mannApprox, .mannApprox => True
  | .twothird, .twothird => True
  | _, _ => False

/-- Spectrum of the same kind. -/
def SpShape : SpectrumChoice → SpectrumChoice → Prop
  | .learnable _ _, .learnable _ _ => True
  | .vkLike, .vkLike => True
  | _, _ => False

/-- Two objects that differ only in parameter values (and caches). -/
structure Arch (ln : Bool) (s t : OPS) : Prop where
  hyp : s.hyp = t.hyp
  L0 : s.L0 = t.L0
  T0 : s.T0 = t.T0
  kind : KindShape ln s.kind t.kind
  sp : SpShape s.sp t.sp
  approx : s.initApprox.approx = t.initApprox.approx

theorem KindShape.refl (ln : Bool) (k : EddyKind) : KindShape ln k k := by cases k <;> simp [KindShape]

theorem SpShape.refl (k : SpectrumChoice) : SpShape k k := by cases k <;> simp [SpShape]

theorem KindShape.trans {ln : Bool} {a b c : EddyKind} (h : KindShape ln a b) (h' : KindShape ln b c) :
    KindShape ln a c := by
  cases a <;> cases b <;> simp only [KindShape] at h <;> cases c <;> simp only [KindShape] at h' ⊢
  exact ⟨h.1.trans h'.1, h.2.1.trans h'.2.1, fun e => (h.2.2 e).trans (h'.2.2 e)⟩

theorem SpShape.trans {a b c : SpectrumChoice} (h : SpShape a b) (h' : SpShape b c) : SpShape a c := by
  cases a <;> cases b <;> simp only [SpShape] at h <;> cases c <;> simp only [SpShape] at h' ⊢

theorem Arch.trans {ln : Bool} {a b c : OPS} (h : Arch ln a b) (h' : Arch ln b c) : Arch ln a c :=
  ⟨h.hyp.trans h'.hyp, h.L0.trans h'.L0, h.T0.trans h'.T0, h.kind.trans h'.kind, h.sp.trans h'.sp,
    h.approx.trans h'.approx⟩

theorem Arch.of_same (ln : Bool) {s t : OPS} (h : s.Same t) : Arch ln t s :=
  ⟨h.hyp.symm, h.L0.symm, h.T0.symm, h.kind ▸ KindShape.refl ln _, h.sp ▸ SpShape.refl _, h.approx.symm⟩

theorem KindShape.setVec {ln : Bool} (net : TauNet) (v : List ℝ) (h : (net.paramVec ln).length ≤ v.length) :
    KindShape ln (.taunet (net.setVec ln v)) (.taunet net) := by
  have h' : (net.linears.map List.flatten).flatten.length ≤ v.length := by
    unfold TauNet.paramVec at h; simp only [List.length_append] at h; omega
  refine ⟨fillMats_shapes _ _ h', rfl, ?_⟩
  rintro rfl
  simp [TauNet.setVec]

theorem headLen_add (ln : Bool) {s : OPS} {net : TauNet} (hk : s.kind = .taunet net) :
    (s.paramVec ln).length = s.headLen + (net.paramVec ln).length := by
  obtain ⟨hyp, kind, sp, logL, logT, logM, L0, T0, grid, scales, approx, k1s, beta, E0, cohGrid⟩ := s
  simp only at hk
  subst hk
  cases sp <;> simp [OPS.paramVec, OPS.headLen] <;> omega

theorem approx_setVec (ln : Bool) (v : List ℝ) (s : OPS) :
    (s.setVec ln v).initApprox.approx = s.initApprox.approx := by
  obtain ⟨hyp, kind, sp, logL, logT, logM, L0, T0, grid, scales, approx, k1s, beta, E0, cohGrid⟩ := s
  cases kind <;> simp [OPS.setVec, OPS.initApprox]

theorem Arch.setVec {ln : Bool} (s : OPS) (v : List ℝ) (h : v.length = (s.paramVec ln).length) :
    Arch ln (s.setVec ln v) s := by
  refine ⟨rfl, rfl, rfl, ?_, ?_, approx_setVec ln v s⟩
  · rcases hk : s.kind with _ | _ | _ | _ | net <;> simp only [OPS.setVec, hk] <;> try trivial
    exact KindShape.setVec net _ (by rw [headLen_add ln hk] at h; simp only [List.length_drop]; omega)
  · rcases hk : s.sp with _ | _ <;> simp only [OPS.setVec, hk] <;> trivial

theorem Arch.length {ln : Bool} {s t : OPS} (h : Arch ln s t) : (s.paramVec ln).length = (t.paramVec ln).length := by
  obtain ⟨-, -, -, hk, hs, -⟩ := h
  unfold OPS.paramVec
  rcases h1 : s.kind with _ | _ | _ | _ | a <;> rcases h2 : t.kind with _ | _ | _ | _ | b <;>
    rw [h1, h2] at hk <;> simp only [KindShape] at hk <;>
    rcases h3 : s.sp with _ | _ <;> rcases h4 : t.sp with _ | _ <;> rw [h3, h4] at hs <;> simp only [SpShape] at hs <;>
    simp only [List.length_append, List.length_cons, List.length_nil] <;>
    rw [TauNet.paramVec, TauNet.paramVec] <;> simp only [List.length_append, total_of_shapes hk.1] <;>
    cases ln <;> simp

theorem Arch.setVec_kind {ln : Bool} {s t : OPS} (h : Arch ln s t) {v : List ℝ}
    (hv : v.length = (s.paramVec ln).length) : (s.setVec ln v).kind = (t.setVec ln v).kind := by
  have hk := h.kind
  have hsp := h.sp
  rcases h1 : s.kind with _ | _ | _ | _ | a <;> rcases h2 : t.kind with _ | _ | _ | _ | b <;>
    rw [h1, h2] at hk <;> simp only [KindShape] at hk <;> simp only [OPS.setVec, h1, h2]
  have hh : s.headLen = t.headLen := by
    unfold OPS.headLen
    rcases h3 : s.sp with _ | _ <;> rcases h4 : t.sp with _ | _ <;> rw [h3, h4] at hsp <;> simp only [SpShape] at hsp
  have hlen := headLen_add ln h1
  congr 1
  simp only [TauNet.setVec, hh, fillMats_congr hk.1, hk.2.1, total_of_shapes hk.1]
  congr 1
  cases ln with
  | false => simpa using hk.2.2 rfl
  | true =>
    simp only [if_true]
    obtain ⟨x, hx⟩ : ∃ x, List.drop ((b.linears.map List.flatten).flatten.length) (List.drop t.headLen v) = [x] := by
      apply List.length_eq_one_iff.1
      simp only [List.length_drop, ← total_of_shapes hk.1]
      rw [hlen] at hv
      simp only [TauNet.paramVec, if_true, List.length_append, List.length_singleton] at hv
      omega
    rw [hx]; rfl

/-- Writing the same full vector into two objects of the same architecture makes them the same model. -/
theorem Arch.setVec_params {ln : Bool} {s t : OPS} (h : Arch ln s t) {v : List ℝ}
    (hv : v.length = (s.paramVec ln).length) : (s.setVec ln v).params = (t.setVec ln v).params := by
  have hv3 : 3 ≤ v.length := by rw [hv]; simp [OPS.paramVec]
  have hl := h.length
  have hkind := h.setVec_kind hv
  have hspv : (s.setVec ln v).sp = (t.setVec ln v).sp := by
    have hsp := h.sp
    rcases h3 : s.sp with _ | ⟨p, q⟩ <;> rcases h4 : t.sp with _ | ⟨p', q'⟩ <;> rw [h3, h4] at hsp <;>
      simp only [SpShape] at hsp <;> simp only [OPS.setVec, h3, h4]
    have h5 : 5 ≤ v.length := by rw [hv]; simp [OPS.paramVec, h3]
    rw [getD_of_lt (by omega), getD_of_lt (by omega), getD_of_lt (by omega), getD_of_lt (by omega)]
  have hap : (s.setVec ln v).initApprox.approx = (t.setVec ln v).initApprox.approx := by
    rw [approx_setVec, approx_setVec, h.approx]
  have hty : (s.setVec ln v).initApprox.ty = (t.setVec ln v).initApprox.ty :=
    ty_congr (by rw [(initApprox_fields _).2.1, (initApprox_fields _).2.1, hkind]) hap
  unfold OPS.params
  rw [hty, hspv]
  have e : ∀ i < 3, ∀ d d' : ℝ, v.getD i d = v.getD i d' := by
    intro i hi d d'
    rw [getD_of_lt (by omega), getD_of_lt (by omega)]
  simp only [OPS.setVec, h.hyp]
  rw [e 0 (by omega) s.logL t.logL, e 1 (by omega) s.logT t.logT, e 2 (by omega) s.logM t.logM]

/-- What a user can do with a fitting object between construction and saving. -/
inductive SessionOp where
  | call (c : OPSCall)
  | setParameters (v : List ℝ)
  | train (cfg : TrainCfg) (opt : ℕ → OptStep)

/-- Effect on the object. -/
def SessionOp.run (ln : Bool) : SessionOp → OPS → OPS
  | .call c, s => c.run s
  | .setParameters v, s => (s.setParameters ln v).2
  | .train cfg opt, s => (calibrate cfg opt s).2.ops

/-- An optimiser never changes the number of parameters. -/
def SessionOp.Legal (ln : Bool) (n : ℕ) : SessionOp → Prop
  | .train cfg opt => cfg.prob.learnNu = ln ∧
      ∀ e, (opt e).final.length = n ∧ ∀ θ ∈ (opt e).queries, θ.length = n
  | _ => True

theorem arch_coherence (ln : Bool) (phys : PhysCfg) (f r : List ℝ) (s : OPS) :
    Arch ln (computeModelCoherence phys f r s).2 s := by
  classical
  unfold computeModelCoherence
  simp only
  have := (coherence_same ((f.filter fun f => decide (1e-6 < f)).map fun f => phys.factor * f / phys.Uref) r s).1
  split <;> rename_i heq <;> rw [heq] at this <;> exact .of_same ln this

theorem arch_closure {cfg : TrainCfg} {ln : Bool} (hln : cfg.prob.learnNu = ln) {θ : List ℝ} {st : TrainState}
    (h : θ.length = (st.ops.paramVec ln).length) : Arch ln (closure cfg θ st).2.ops st.ops := by
  have h1 := Arch.setVec st.ops θ h
  have h2 : Arch ln (OPS.forward cfg.k1s (st.ops.setVec cfg.prob.learnNu θ)).2 st.ops :=
    (Arch.of_same ln (forward_same cfg.k1s _).1).trans (by rw [hln]; exact h1)
  unfold closure
  simp only
  split
  · rename_i heq; rw [heq] at h2; exact h2
  · rename_i heq
    rw [heq] at h2
    have h3 : Arch ln (closureCoherence cfg (OPS.forward cfg.k1s (st.ops.setVec cfg.prob.learnNu θ)).2).2 st.ops := by
      rw [heq]
      unfold closureCoherence
      split
      · exact h2
      · rename_i c _
        have := arch_coherence ln cfg.phys c.freqs c.seps (OPS.forward cfg.k1s (st.ops.setVec cfg.prob.learnNu θ)).2
        rw [heq] at this
        split <;> rename_i heq2 <;> rw [heq2] at this <;> exact this.trans h2
    rw [heq] at h3
    split
    · rename_i heq2; rw [heq2] at h3; exact h3
    · rename_i heq2
      rw [heq2] at h3
      split <;> exact h3

theorem arch_closures {cfg : TrainCfg} {ln : Bool} (hln : cfg.prob.learnNu = ln) (θs : List (List ℝ)) {n : ℕ}
    (h : ∀ θ ∈ θs, θ.length = n) {st : TrainState} (hn : n = (st.ops.paramVec ln).length) :
    Arch ln (closures cfg θs st).2.ops st.ops := by
  induction θs generalizing st with
  | nil => exact .of_same ln (.refl _)
  | cons θ θs ih =>
    have h1 := arch_closure hln (cfg := cfg) (st := st) ((h θ (by simp)).trans hn)
    unfold closures
    split
    · rename_i heq; rw [heq] at h1; exact h1
    · rename_i heq
      rw [heq] at h1
      exact (ih (fun x hx => h x (by simp [hx])) (by rw [hn, h1.length])).trans h1

theorem arch_epoch {cfg : TrainCfg} {ln : Bool} (hln : cfg.prob.learnNu = ln) (e : ℕ) {o : OptStep} {n : ℕ}
    (h : o.final.length = n ∧ ∀ θ ∈ o.queries, θ.length = n) {st : TrainState} (hn : n = (st.ops.paramVec ln).length) :
    Arch ln (runEpoch cfg e o st).2.ops st.ops := by
  have h1 := arch_closures hln o.queries h.2 hn
  unfold runEpoch
  split
  · rename_i heq; rw [heq] at h1; exact h1
  · rename_i st' heq
    rw [heq] at h1
    have h2 : Arch ln (st'.ops.setVec cfg.prob.learnNu o.final) st.ops := by
      rw [hln]
      exact (Arch.setVec _ _ (by rw [h.1, hn, h1.length])).trans h1
    simp only
    split_ifs <;> try exact h2
    split
    · exact h2
    · split <;> exact h2

theorem arch_epochs {cfg : TrainCfg} {ln : Bool} (hln : cfg.prob.learnNu = ln) {opt : ℕ → OptStep} {n : ℕ}
    (h : ∀ e, (opt e).final.length = n ∧ ∀ θ ∈ (opt e).queries, θ.length = n) (m e : ℕ) {st : TrainState}
    (hn : n = (st.ops.paramVec ln).length) : Arch ln (runEpochs cfg opt e m st).2.ops st.ops := by
  induction m generalizing e st with
  | zero => exact .of_same ln (.refl _)
  | succ m ih =>
    have h1 := arch_epoch hln e (h e) hn
    rw [runEpochs]
    split
    · rename_i heq; rw [heq] at h1; exact h1
    · rename_i heq; rw [heq] at h1; exact h1
    · rename_i heq
      rw [heq] at h1
      exact (ih (e + 1) (by rw [hn, h1.length])).trans h1

theorem arch_start (ln : Bool) (cfg : TrainCfg) (s : OPS) : Arch ln (calibrateStart cfg s).2.ops s := by
  have key : ∀ (r : Except PyErr Unit × OPS), Arch ln r.2 s → Arch ln
      (match r with
      | (.error e, ops) => ((.error e : Except PyErr Unit), (⟨ops, LossState.init, fin 0, 0, [], []⟩ : TrainState))
      | (.ok _, ops) =>
        match OPS.forward cfg.k1s ops with
        | (.error e, ops) => (.error e, ⟨ops, LossState.init, fin 0, 0, [], []⟩)
        | (.ok y, ops) =>
          match lossEval cfg.loss cfg.k1s cfg.phys.zref
              ⟨y.take cfg.prob.nc.toNat, cfg.target, genTheta cfg ops, none⟩ LossState.init with
          | (.error e, agg) => (.error e, ⟨ops, agg, fin 0, 0, [], []⟩)
          | (.ok l, agg) => (.ok (), ⟨ops, agg, l, 0, [], []⟩)).2.ops s := by
    rintro ⟨_ | _, ops⟩ h
    · exact h
    · have h2 := (Arch.of_same ln (forward_same cfg.k1s ops).1).trans h
      simp only
      split
      · rename_i heq; rw [heq] at h2; exact h2
      · rename_i heq
        rw [heq] at h2
        split <;> exact h2
  unfold calibrateStart
  simp only
  apply key
  split
  · exact .of_same ln (.refl _)
  · rename_i c _
    have := arch_coherence ln cfg.phys c.freqs c.seps s
    split <;> rename_i heq <;> rw [heq] at this <;> exact this

theorem arch_calibrate {cfg : TrainCfg} {ln : Bool} (hln : cfg.prob.learnNu = ln) {opt : ℕ → OptStep} {s : OPS}
    (h : ∀ e, (opt e).final.length = (s.paramVec ln).length ∧ ∀ θ ∈ (opt e).queries, θ.length = (s.paramVec ln).length) :
    Arch ln (calibrate cfg opt s).2.ops s := by
  have h1 := arch_start ln cfg s
  unfold calibrate
  split
  · rename_i heq; rw [heq] at h1; exact h1
  · rename_i st heq
    rw [heq] at h1
    have h2 := (arch_epochs hln h cfg.prob.nepochs 1 (st := st) (by rw [h1.length])).trans h1
    split <;> rename_i heq2 <;> rw [heq2] at h2 <;> exact h2

theorem arch_session {ln : Bool} (ops : List SessionOp) {s : OPS}
    (h : ∀ o ∈ ops, o.Legal ln (s.paramVec ln).length) : Arch ln (ops.foldl (fun s o => o.run ln s) s) s := by
  induction ops generalizing s with
  | nil => exact .of_same ln (.refl _)
  | cons o ops ih =>
    have h1 : Arch ln (o.run ln s) s := by
      cases o with
      | call c => exact .of_same ln (call_same c s)
      | setParameters v =>
        by_cases hv : v.length = (s.paramVec ln).length
        · simpa [SessionOp.run, OPS.setParameters, hv] using Arch.setVec s v hv
        · rw [SessionOp.run, C37_wrong_length ln s v hv]; exact .of_same ln (.refl _)
      | train cfg opt =>
        have := h _ List.mem_cons_self
        exact arch_calibrate this.1 this.2
    simp only [List.foldl_cons]
    exact (ih (fun x hx => by rw [h1.length]; exact h x (by simp [hx]))).trans h1

/-- Random initial networks have the shapes that the constructor asks for (`nn.Linear(in, out)` has an `out x in`
weight). -/
def NetSeed.WellShaped (seed : NetSeed) : Prop :=
  ∀ shapes, shapesOf (seed.weights shapes) = shapes.map fun s => List.replicate s.2 s.1

theorem arch_init {hyp : ℝ → ℝ} {d d' : Bool} {nn : Option NNCfg} {prob : ProbCfg} {phys : PhysCfg}
    {integ integ' : IntegCfg} {seed seed' : NetSeed} {noise noise' : List ℝ} {s s' : OPS}
    (hs : seed.WellShaped) (hs' : seed'.WellShaped)
    (h : calibInit hyp d nn prob phys integ seed noise = .ok s)
    (h' : calibInit hyp d' nn prob phys integ' seed' noise' = .ok s') : Arch prob.learnNu s s' := by
  obtain ⟨c, k, rfl, hk, rfl⟩ := calibInit_ok h
  obtain ⟨c', k', hc, hk', rfl⟩ := calibInit_ok h'
  obtain rfl := Option.some.inj hc
  have hkk : KindShape prob.learnNu k k' := by
    unfold buildKind at hk hk'
    cases he : prob.eddy <;> simp only [he, Except.ok.injEq] at hk hk' <;> try (subst hk; subst hk'; trivial)
    split at hk
    · simp at hk
    · rename_i shapes _
      simp only [Except.ok.injEq] at hk
      rename_i heq
      simp only [heq, Except.ok.injEq] at hk'
      subst hk; subst hk'
      refine ⟨(hs shapes).trans (hs' shapes).symm, rfl, fun e => by simp [e]⟩
  refine ⟨rfl, rfl, rfl, hkk, SpShape.refl _, ?_⟩
  cases k <;> cases k' <;> simp only [KindShape] at hkk <;> rfl

/-- **C42** Whatever was done with a fitting object after construction (evaluations, parameter assignments, training
with any optimiser), saving it and loading the file rebuilds a model with the same parameter vector, the same scales and
the same lifetime and energy-spectrum functions, whatever the random initialisation at load time.  The quadrature grid is
always the default one; if the original used the default too, the spectra are identical. -/
theorem C42_round_trip {hyp : ℝ → ℝ} {deviceOk : Bool} {nn : NNCfg} {prob : ProbCfg} {phys : PhysCfg}
    {integ : IntegCfg} {seed seed' : NetSeed} {noise noise' : List ℝ} {s0 : OPS}
    (hs : seed.WellShaped) (hs' : seed'.WellShaped)
    (h0 : calibInit hyp deviceOk (some nn) prob phys integ seed noise = .ok s0)
    (ops : List SessionOp) (hops : ∀ o ∈ ops, o.Legal prob.learnNu (s0.paramVec prob.learnNu).length)
    (loss : LossParams) (saveDir outDir : Option DirArg) (fs fs' : FS) (f : String)
    (hsave : saveModel saveDir outDir
      ⟨nn, prob, loss, phys, (ops.foldl (fun s o => o.run prob.learnNu s) s0).paramVec prob.learnNu⟩ fs = (.ok f, fs')) :
    ∃ s', loadModel hyp seed' noise' f fs' = .ok s' ∧
      s'.paramVec prob.learnNu = (ops.foldl (fun s o => o.run prob.learnNu s) s0).paramVec prob.learnNu ∧
      s'.expScalesValue = (ops.foldl (fun s o => o.run prob.learnNu s) s0).expScalesValue ∧
      s'.params = (ops.foldl (fun s o => o.run prob.learnNu s) s0).params ∧
      s'.grid = opsGrid (-3) 3 100 ∧
      ((ops.foldl (fun s o => o.run prob.learnNu s) s0).grid = opsGrid (-3) 3 100 →
        ∀ k1s, (OPS.forward k1s s').1 = (OPS.forward k1s (ops.foldl (fun s o => o.run prob.learnNu s) s0)).1) := by
  set s := ops.foldl (fun s o => o.run prob.learnNu s) s0 with hsdef
  set ln := prob.learnNu with hln
  have harch : Arch ln s s0 := arch_session ops hops
  have hfile : fs'.files f = some ⟨nn, prob, loss, phys, s.paramVec ln⟩ := by
    unfold saveModel at hsave
    split at hsave
    · simp at hsave
    · split_ifs at hsave
      · simp only [Prod.mk.injEq, Except.ok.injEq] at hsave
        rw [← hsave.2, ← hsave.1]; simp
      · simp at hsave
    · simp only [Prod.mk.injEq, Except.ok.injEq] at hsave
      rw [← hsave.2, ← hsave.1]; simp
  obtain ⟨s1, h1⟩ : ∃ s1, calibInit hyp true (some nn) prob phys .default seed' noise' = .ok s1 := by
    have := (C38_outcome hyp deviceOk (some nn) prob phys integ seed noise).1 ⟨_, h0⟩
    refine (C38_outcome hyp true (some nn) prob phys .default seed' noise').2 ⟨⟨rfl, this.1.2, this.1.3, this.1.4⟩, this.2⟩
  have hA : Arch ln s s1 := harch.trans (arch_init hs hs' h0 h1)
  have hlen : (s.paramVec ln).length = (s1.paramVec ln).length := hA.length
  have hpv : (s1.setVec ln (s.paramVec ln)).paramVec ln = s.paramVec ln := paramVec_setVec ln s1 _ hlen
  have hpar : (s1.setVec ln (s.paramVec ln)).params = s.params := by
    rw [← hA.setVec_params rfl, setVec_paramVec]
  have hgrid : s1.grid = opsGrid (-3) 3 100 := by
    obtain ⟨_, _, _, _, rfl⟩ := calibInit_ok h1; rfl
  refine ⟨s1.setVec ln (s.paramVec ln), ?_, hpv, ?_, hpar, hgrid, ?_⟩
  · unfold loadModel
    simp only [hfile, h1]
    simp [OPS.setParameters, hlen, ← hln]
  · simp only [OPS.expScalesValue]
    have e1 := congrArg OPSParams.logL hpar
    have e2 := congrArg OPSParams.logT hpar
    have e3 := congrArg OPSParams.logM hpar
    simp only [OPS.params] at e1 e2 e3
    rw [e1, e2, e3]
  · intro hg k1s
    rw [forward_eq, forward_eq, hpar, hg]
    simp only [OPS.setVec, hgrid]

/-- **C42** The file name depends only on the directory and the eddy-lifetime type: of two saves into the same directory
with the same type only the later one can be loaded; saves with different types or directories do not interfere. -/
theorem C42_file_name (d : String) (x y : Saved) (fs : FS) :
    ∃ f fs1, saveModel (some (.str d)) none x fs = (.ok f, fs1) ∧ f = d ++ "/" ++ x.prob.eddy.str ++ ".pkl" ∧
    ∃ g fs2, saveModel (some (.str d)) none y fs1 = (.ok g, fs2) ∧ fs2.files g = some y ∧
      (x.prob.eddy = y.prob.eddy ↔ f = g) ∧ (x.prob.eddy ≠ y.prob.eddy → fs2.files f = some x) ∧
      ∀ h, h ≠ f → h ≠ g → fs2.files h = fs.files h := by
  have inj : ∀ a b : EddyName, d ++ "/" ++ a.str ++ ".pkl" = d ++ "/" ++ b.str ++ ".pkl" → a = b := by
    intro a b h
    have h' := congrArg String.toList h
    simp only [String.toList_append, List.append_assoc, List.append_cancel_left_eq] at h'
    have h'' : a.str.toList = b.str.toList := List.append_cancel_right h'
    cases a <;> cases b <;> first | rfl | (exact absurd h'' (by decide))
  refine ⟨_, _, rfl, rfl, _, _, rfl, by simp, ⟨fun h => by rw [h], inj _ _⟩, ?_, ?_⟩
  · intro hne
    have : d ++ "/" ++ x.prob.eddy.str ++ ".pkl" ≠ d ++ "/" ++ y.prob.eddy.str ++ ".pkl" := fun h => hne (inj _ _ h)
    simp [this]
  · intro h h1 h2
    simp [h1, h2]

/-- **C42** Without any directory, or with a `Path` that is not a directory, nothing is written and `ValueError` is
raised. -/
theorem C42_rejected (x : Saved) (fs : FS) (p : String) (hp : fs.isDir p = false) (out : Option DirArg) :
    saveModel none none x fs = (.error .valueError, fs) ∧
    saveModel (some (.path p)) out x fs = (.error .valueError, fs) := by
  refine ⟨rfl, ?_⟩
  unfold saveModel
  simp [hp]

/-- **C42** A save that succeeds writes its own file and touches no other; a save that fails writes nothing. -/
theorem C42_frame (saveDir outDir : Option DirArg) (x : Saved) (fs : FS) :
    match saveModel saveDir outDir x fs with
    | (.ok f, fs') => fs'.files f = some x ∧ (∀ g, g ≠ f → fs'.files g = fs.files g) ∧
        ∃ d, (saveDir = some d ∨ saveDir = none ∧ outDir = some d) ∧
          f = (match d with | .path p => p | .str p => p) ++ "/" ++ x.prob.eddy.str ++ ".pkl"
    | (.error _, fs') => fs' = fs := by
  rcases saveDir with _ | (p | p)
  · rcases outDir with _ | (p | p)
    · rfl
    · by_cases hp : fs.isDir p = true
      · have : saveModel none (some (.path p)) x fs = (.ok (p ++ "/" ++ x.prob.eddy.str ++ ".pkl"),
            { fs with files := fun g => if g = p ++ "/" ++ x.prob.eddy.str ++ ".pkl" then some x else fs.files g }) :=
          if_pos hp
        rw [this]
        exact ⟨if_pos rfl, fun g hg => if_neg hg, _, Or.inr ⟨rfl, rfl⟩, rfl⟩
      · have : saveModel none (some (.path p)) x fs = (.error .valueError, fs) := if_neg hp
        rw [this]
    · exact ⟨if_pos rfl, fun g hg => if_neg hg, _, Or.inr ⟨rfl, rfl⟩, rfl⟩
  · by_cases hp : fs.isDir p = true
    · have : saveModel (some (.path p)) outDir x fs = (.ok (p ++ "/" ++ x.prob.eddy.str ++ ".pkl"),
          { fs with files := fun g => if g = p ++ "/" ++ x.prob.eddy.str ++ ".pkl" then some x else fs.files g }) :=
        if_pos hp
      rw [this]
      exact ⟨if_pos rfl, fun g hg => if_neg hg, _, Or.inl rfl, rfl⟩
    · have : saveModel (some (.path p)) outDir x fs = (.error .valueError, fs) := if_neg hp
      rw [this]
  · exact ⟨if_pos rfl, fun g hg => if_neg hg, _, Or.inl rfl, rfl⟩

/-- **C07** With `learn_nu=False` the exponent of a network lifetime is -1/3 at construction and stays so whatever is done
with the object: near the origin the lifetime follows `t^(-1)` along every ray on which the augmented wavevector does not
vanish. -/
theorem C07_fixed_exponent {hyp : ℝ → ℝ} {deviceOk : Bool} {nn : NNCfg} {prob : ProbCfg} {phys : PhysCfg}
    {integ : IntegCfg} {seed : NetSeed} {noise : List ℝ} {s0 : OPS}
    (h0 : calibInit hyp deviceOk (some nn) prob phys integ seed noise = .ok s0) (he : prob.eddy = .taunet)
    (hl : prob.learnNu = false)
    (ops : List SessionOp) (hops : ∀ o ∈ ops, o.Legal prob.learnNu (s0.paramVec prob.learnNu).length) :
    ∃ net, (ops.foldl (fun s o => o.run prob.learnNu s) s0).kind = .taunet net ∧ net.nu = -1 / 3 ∧
      ∀ k : List ℝ, (∃ x ∈ net.mlpForward (k.map fun t => |t|), x ≠ 0) → ∃ a : ℝ, 0 < a ∧
        Filter.Tendsto (fun t : ℝ => t * (net.forward (k.map fun x => t * x)).toReal) (nhdsWithin 0 (Set.Ioi 0))
          (nhds (a ^ (-1 : ℝ))) := by
  have harch := (arch_session ops hops).kind
  obtain ⟨c, k, hc, hk, hs0⟩ := calibInit_ok h0
  have hk0 : s0.kind = k := by rw [hs0]
  rw [hk0] at harch
  unfold buildKind at hk
  rw [he] at hk
  simp only at hk
  split at hk
  · simp at hk
  · rename_i shapes _
    simp only [Except.ok.injEq, hl, Bool.false_eq_true, if_false] at hk
    rw [← hk] at harch
    generalize (ops.foldl (fun (s : OPS) (o : SessionOp) => o.run prob.learnNu s) s0).kind = q at harch ⊢
    cases q with
    | taunet net =>
      obtain ⟨-, h2, h3⟩ := harch
      have hnu : net.nu = -1 / 3 := h3 hl
      refine ⟨net, rfl, hnu, fun kk hkk => ?_⟩
      obtain ⟨a, ha, -, h5⟩ := C07_network net (by rw [h2]; intro f hf; exact (List.mem_replicate.1 hf).2) kk hkk
      refine ⟨a, ha, ?_⟩
      rw [hnu] at h5
      norm_num at h5
      convert h5 using 2
    | _ => simp [KindShape] at harch

/-! ### C48 -/

/-- **C48** `DomainParameters` can never be constructed. -/
theorem C48_domain (dims levels : SeqArg) : ∃ e, domainParametersInit dims levels = .error e := by
  unfold domainParametersInit
  cases dims <;> simp only <;> try split_ifs
  all_goals exact ⟨_, rfl⟩

/-- **C48** `CustomDataLoader` can never be constructed. -/
theorem C48_loader (f : CsvFile) (ct : Int) : ∃ e, customDataLoaderInit f ct = .error e := by
  unfold customDataLoaderInit
  split
  · exact ⟨_, rfl⟩
  · exact ⟨_, rfl⟩
  · split_ifs with _ _ _ _ _ _ h
    any_goals exact ⟨_, rfl⟩
    exact absurd h (by decide)

/-- **C48** Even a file with every column and three-entry sequences fails, with `AttributeError`. -/
theorem C48_best_case (ct : Int) : domainParametersInit (.tuple 3) (.tuple 3) = .error .attributeError ∧
    customDataLoaderInit (.columns ["k1", "uu", "vv", "ww", "uw", "vw", "uv"]) ct = .error .attributeError := by
  refine ⟨rfl, ?_⟩
  unfold customDataLoaderInit
  simp [loaderAttributes]

end
end Verif
