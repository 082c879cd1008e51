import Verif.Model.Diagnostics
import Verif.Props.ObjectiveContinuity

/-!
# Diagnostic methods (C105)
-/

namespace Verif
open Fl Verif.Spec

noncomputable section

/-! ### `get_div` -/

/-- **C105** `get_div` returns a value only on an object whose attribute `freq` has been set from outside, for six entries;
otherwise an `AttributeError` (whatever the argument) or a `ValueError`. -/
theorem C105_div_errors (freq : Option K3) (Phi : List Fl) :
    ((∃ d, getDiv freq Phi = .ok d) ↔ freq ≠ none ∧ Phi.length = 6) ∧
    (freq = none → getDiv freq Phi = .error .attributeError) ∧
    (freq ≠ none → Phi.length ≠ 6 → getDiv freq Phi = .error .valueError) := by
  rcases freq with _ | k
  · simp [getDiv]
  · rcases Phi with _ | ⟨a, _ | ⟨b, _ | ⟨c, _ | ⟨d, _ | ⟨e, _ | ⟨f, _ | ⟨g, l⟩⟩⟩⟩⟩⟩⟩ <;> simp [getDiv]

theorem fitTensor_raw (p : OPSParams) (hp : p.LifetimeFinite) {k : K3} (hk : k.k1 ≠ 0) : ∃ b e : ℝ, 0 < e ∧
    eddyLifetime p.hyp p.ty p.L p.T k = fin b ∧ energyE0 p.sp p.L p.M k (fin b) / fin (4 * Real.pi) = fin e ∧
    phiRaw k (fin b) (fin e) =
      { p11 := fin (Spec.fitTensor p k.k1 k.k2 k.k3 0 0)
        p22 := fin (Spec.fitTensor p k.k1 k.k2 k.k3 1 1)
        p33 := fin (Spec.fitTensor p k.k1 k.k2 k.k3 2 2)
        p13 := fin (Spec.fitTensor p k.k1 k.k2 k.k3 0 2)
        p23 := fin (Spec.fitTensor p k.k1 k.k2 k.k3 1 2)
        p12 := fin (Spec.fitTensor p k.k1 k.k2 k.k3 0 1) } := by
  obtain ⟨b, hb⟩ := hp k hk
  have h4 : (4 * Real.pi) ≠ 0 := by positivity
  have hk0 := kk0R_pos (b := b) hk
  refine ⟨b, Spec.energyOf p.L p.M p.sp (Real.sqrt (kk0R k b)) / (4 * Real.pi), ?_, hb, ?_, ?_⟩
  · have hs := Real.sqrt_pos.2 hk0
    have := p.L_pos
    have := p.M_pos
    refine div_pos ?_ (by positivity)
    cases p.sp with
    | vkLike => unfold Spec.energyOf vkE; positivity
    | learnable a c => unfold Spec.energyOf Spec.learnE; positivity
  · rw [energyE0_spec p.L_pos hk0, fin_div_fin _ h4]
  · rw [phiRaw_sheared hk]
    have e : ∀ i j, Spec.shearedTensor (Spec.energyOf p.L p.M p.sp) k.vec b i j = Spec.fitTensor p k.k1 k.k2 k.k3 i j := by
      intro i j
      unfold Spec.fitTensor
      rw [show (⟨k.k1, k.k2, k.k3⟩ : K3) = k from rfl, hb, toReal_fin]; rfl
    simp only [e]

/-- Facts about the textbook tensor that the diagnostics should confirm. -/
theorem fitTensor_div (p : OPSParams) (hp : p.LifetimeFinite) {k : K3} (hk : k.k1 ≠ 0) :
    0 < Spec.fitTensor p k.k1 k.k2 k.k3 0 0 + Spec.fitTensor p k.k1 k.k2 k.k3 1 1 + Spec.fitTensor p k.k1 k.k2 k.k3 2 2 ∧
    k.k1 * Spec.fitTensor p k.k1 k.k2 k.k3 0 0 + k.k2 * Spec.fitTensor p k.k1 k.k2 k.k3 0 1 +
      k.k3 * Spec.fitTensor p k.k1 k.k2 k.k3 0 2 = 0 ∧
    k.k1 * Spec.fitTensor p k.k1 k.k2 k.k3 0 1 + k.k2 * Spec.fitTensor p k.k1 k.k2 k.k3 1 1 +
      k.k3 * Spec.fitTensor p k.k1 k.k2 k.k3 1 2 = 0 ∧
    k.k1 * Spec.fitTensor p k.k1 k.k2 k.k3 0 2 + k.k2 * Spec.fitTensor p k.k1 k.k2 k.k3 1 2 +
      k.k3 * Spec.fitTensor p k.k1 k.k2 k.k3 2 2 = 0 := by
  obtain ⟨b, e, he, -, -, hraw⟩ := fitTensor_raw p hp hk
  obtain ⟨-, hpsd, hdiv⟩ := C15_psd hk b he.le
  have h33 := congrArg Phi6.p33 hraw
  rw [phiRaw_fin hk] at h33
  have h33 := Fl.fin.inj h33
  have hs := sR_pos hk
  have hkk := kkR_pos hk
  have h33' : 0 < Spec.fitTensor p k.k1 k.k2 k.k3 2 2 := by rw [← h33]; positivity
  rw [hraw] at hpsd hdiv
  have d0 := hpsd.diag_nonneg (i := 0)
  have d1 := hpsd.diag_nonneg (i := 1)
  have r0 := congrFun hdiv 0
  have r1 := congrFun hdiv 1
  have r2 := congrFun hdiv 2
  simp [Phi6.matrix, Matrix.mulVec, dotProduct, Fin.sum_univ_three, K3.vec] at d0 d1 r0 r1 r2
  refine ⟨by linarith, by linarith, by linarith, by linarith⟩

/-- **C105** Fed with the tensor in the documented order (11, 22, 33, 13, 12, 23), `get_div` confirms that the fitted tensor is
incompressible, for every lifetime model and every wavevector with `k₁ ≠ 0`. -/
theorem C105_div_documented (p : OPSParams) (hp : p.LifetimeFinite) {k : K3} (hk : k.k1 ≠ 0) :
    getDiv (some k) [fin (Spec.fitTensor p k.k1 k.k2 k.k3 0 0), fin (Spec.fitTensor p k.k1 k.k2 k.k3 1 1),
      fin (Spec.fitTensor p k.k1 k.k2 k.k3 2 2), fin (Spec.fitTensor p k.k1 k.k2 k.k3 0 2),
      fin (Spec.fitTensor p k.k1 k.k2 k.k3 0 1), fin (Spec.fitTensor p k.k1 k.k2 k.k3 1 2)] = .ok [fin 0, fin 0, fin 0] := by
  obtain ⟨ht, h0, h1, h2⟩ := fitTensor_div p hp hk
  have ht' : 1 / 3 * (Spec.fitTensor p k.k1 k.k2 k.k3 0 0 + Spec.fitTensor p k.k1 k.k2 k.k3 1 1 +
      Spec.fitTensor p k.k1 k.k2 k.k3 2 2) ≠ 0 := by positivity
  simp only [getDiv, fin_add_fin, fin_mul_fin, fin_div_fin _ ht', h0, h1, h2, zero_div]

/-- **C105** In the order in which `PowerSpectra` returns the entries (… 13, 23, 12) it does not: the result is
`3 (Φ₂₃ - Φ₁₂) (k₂, k₁ - k₃, -k₂) / tr Φ`. -/
theorem C105_div_returned (p : OPSParams) (hp : p.LifetimeFinite) {k : K3} (hk : k.k1 ≠ 0) :
    0 < Spec.fitTensor p k.k1 k.k2 k.k3 0 0 + Spec.fitTensor p k.k1 k.k2 k.k3 1 1 + Spec.fitTensor p k.k1 k.k2 k.k3 2 2 ∧
    getDiv (some k) [fin (Spec.fitTensor p k.k1 k.k2 k.k3 0 0), fin (Spec.fitTensor p k.k1 k.k2 k.k3 1 1),
      fin (Spec.fitTensor p k.k1 k.k2 k.k3 2 2), fin (Spec.fitTensor p k.k1 k.k2 k.k3 0 2),
      fin (Spec.fitTensor p k.k1 k.k2 k.k3 1 2), fin (Spec.fitTensor p k.k1 k.k2 k.k3 0 1)] =
    .ok ([k.k2, k.k1 - k.k3, -k.k2].map fun x => fin (3 * x *
      (Spec.fitTensor p k.k1 k.k2 k.k3 1 2 - Spec.fitTensor p k.k1 k.k2 k.k3 0 1) /
      (Spec.fitTensor p k.k1 k.k2 k.k3 0 0 + Spec.fitTensor p k.k1 k.k2 k.k3 1 1 + Spec.fitTensor p k.k1 k.k2 k.k3 2 2))) := by
  obtain ⟨ht, h0, h1, h2⟩ := fitTensor_div p hp hk
  refine ⟨ht, ?_⟩
  have ht' : 1 / 3 * (Spec.fitTensor p k.k1 k.k2 k.k3 0 0 + Spec.fitTensor p k.k1 k.k2 k.k3 1 1 +
      Spec.fitTensor p k.k1 k.k2 k.k3 2 2) ≠ 0 := by positivity
  simp only [getDiv, fin_add_fin, fin_mul_fin, fin_div_fin _ ht', List.map_cons, List.map_nil, Except.ok.injEq, List.cons.injEq,
    fin_inj, and_true]
  refine ⟨?_, ?_, ?_⟩ <;> rw [div_eq_div_iff ht' ht.ne']
  · linear_combination (Spec.fitTensor p k.k1 k.k2 k.k3 0 0 + Spec.fitTensor p k.k1 k.k2 k.k3 1 1 +
      Spec.fitTensor p k.k1 k.k2 k.k3 2 2) * h0
  · linear_combination (Spec.fitTensor p k.k1 k.k2 k.k3 0 0 + Spec.fitTensor p k.k1 k.k2 k.k3 1 1 +
      Spec.fitTensor p k.k1 k.k2 k.k3 2 2) * h1
  · linear_combination (Spec.fitTensor p k.k1 k.k2 k.k3 0 0 + Spec.fitTensor p k.k1 k.k2 k.k3 1 1 +
      Spec.fitTensor p k.k1 k.k2 k.k3 2 2) * h2

/-- **C105** The order matters for every parameter set: at `(k₁, k₂, -k₁)` with `k₂ ≠ 0` the second entry is
`6 k₂ Φ₂₂ / tr Φ`, with `Φ₂₂ > 0`. -/
theorem C105_div_order (p : OPSParams) (hp : p.LifetimeFinite) {k1 : ℝ} (hk : k1 ≠ 0) (k2 : ℝ) :
    0 < Spec.fitTensor p k1 k2 (-k1) 1 1 ∧
    ∃ a c, getDiv (some ⟨k1, k2, -k1⟩) [fin (Spec.fitTensor p k1 k2 (-k1) 0 0), fin (Spec.fitTensor p k1 k2 (-k1) 1 1),
      fin (Spec.fitTensor p k1 k2 (-k1) 2 2), fin (Spec.fitTensor p k1 k2 (-k1) 0 2),
      fin (Spec.fitTensor p k1 k2 (-k1) 1 2), fin (Spec.fitTensor p k1 k2 (-k1) 0 1)] =
      .ok [a, fin (6 * k2 * Spec.fitTensor p k1 k2 (-k1) 1 1 /
        (Spec.fitTensor p k1 k2 (-k1) 0 0 + Spec.fitTensor p k1 k2 (-k1) 1 1 + Spec.fitTensor p k1 k2 (-k1) 2 2)), c] := by
  obtain ⟨b, e, he, -, -, hraw⟩ := fitTensor_raw p hp (k := ⟨k1, k2, -k1⟩) hk
  obtain ⟨ht, -, h1, -⟩ := fitTensor_div p hp (k := ⟨k1, k2, -k1⟩) hk
  obtain ⟨-, hd⟩ := C105_div_returned p hp (k := ⟨k1, k2, -k1⟩) hk
  have h22 := congrArg Phi6.p22 hraw
  rw [phiRaw_fin hk] at h22
  have h22 := Fl.fin.inj h22
  have hk0 := kk0R_pos (k := ⟨k1, k2, -k1⟩) (b := b) hk
  refine ⟨?_, ?_⟩
  · rw [← h22]
    have hq : kk0R ⟨k1, k2, -k1⟩ b - k2 * k2 - 2 * k2 * k30R ⟨k1, k2, -k1⟩ b * z2R ⟨k1, k2, -k1⟩ b +
        sR ⟨k1, k2, -k1⟩ * (z2R ⟨k1, k2, -k1⟩ b * z2R ⟨k1, k2, -k1⟩ b) =
        k1 ^ 2 + (k30R ⟨k1, k2, -k1⟩ b - k2 * z2R ⟨k1, k2, -k1⟩ b) ^ 2 + (k1 * z2R ⟨k1, k2, -k1⟩ b) ^ 2 := by
      unfold kk0R sR
      ring
    have hpos : 0 < kk0R ⟨k1, k2, -k1⟩ b - k2 * k2 - 2 * k2 * k30R ⟨k1, k2, -k1⟩ b * z2R ⟨k1, k2, -k1⟩ b +
        sR ⟨k1, k2, -k1⟩ * (z2R ⟨k1, k2, -k1⟩ b * z2R ⟨k1, k2, -k1⟩ b) := by
      rw [hq]
      positivity
    exact mul_pos (by positivity) hpos
  · have e : 6 * k2 * Spec.fitTensor p k1 k2 (-k1) 1 1 /
        (Spec.fitTensor p k1 k2 (-k1) 0 0 + Spec.fitTensor p k1 k2 (-k1) 1 1 + Spec.fitTensor p k1 k2 (-k1) 2 2) =
        3 * (k1 - -k1) * (Spec.fitTensor p k1 k2 (-k1) 1 2 - Spec.fitTensor p k1 k2 (-k1) 0 1) /
        (Spec.fitTensor p k1 k2 (-k1) 0 0 + Spec.fitTensor p k1 k2 (-k1) 1 1 + Spec.fitTensor p k1 k2 (-k1) 2 2) := by
      simp only at h1
      congr 1
      linear_combination (6 : ℝ) * h1
    rw [e]
    exact ⟨_, _, hd⟩

/-- **C105** The entries that `PowerSpectra` actually returns are cut below at `1e-12`, also the covariances `Φ₁₂` and `Φ₂₃`, which
vanish for `k₂ = 0`; so at these wavevectors the second entry of the divergence is not zero in either order (unless
`k₃ = -k₁`). -/
theorem C105_div_floor (p : OPSParams) (hp : p.LifetimeFinite) {k1 : ℝ} (hk : k1 ≠ 0) (k3 : ℝ) : ∃ t > 0,
    (opsPhi p ⟨k1, 0, k3⟩).p11 + (opsPhi p ⟨k1, 0, k3⟩).p22 + (opsPhi p ⟨k1, 0, k3⟩).p33 = fin t ∧ ∀ l ∈
    [(opsPhi p ⟨k1, 0, k3⟩).toList, [(opsPhi p ⟨k1, 0, k3⟩).p11, (opsPhi p ⟨k1, 0, k3⟩).p22, (opsPhi p ⟨k1, 0, k3⟩).p33,
      (opsPhi p ⟨k1, 0, k3⟩).p13, (opsPhi p ⟨k1, 0, k3⟩).p12, (opsPhi p ⟨k1, 0, k3⟩).p23]],
    ∃ a c, getDiv (some ⟨k1, 0, k3⟩) l = .ok [a, fin (3e-12 * (k1 + k3) / t), c] := by
  obtain ⟨b, e, he, hb, hE, hraw⟩ := fitTensor_raw p hp (k := ⟨k1, 0, k3⟩) hk
  have hz : z2R ⟨k1, 0, k3⟩ b = 0 := by
    simp [z2R, c2R]
  have h12 : (phiRaw ⟨k1, 0, k3⟩ (fin b) (fin e)).p12 = fin 0 := by
    rw [phiRaw_fin hk]; simp [hz]
  have h23 : (phiRaw ⟨k1, 0, k3⟩ (fin b) (fin e)).p23 = fin 0 := by
    rw [phiRaw_fin hk]; simp [hz]
  have hphi : opsPhi p ⟨k1, 0, k3⟩ = phiFloor 1e-12 (phiRaw ⟨k1, 0, k3⟩ (fin b) (fin e)) := by
    unfold opsPhi
    simp only [hb, hE]
  have e12 : (opsPhi p ⟨k1, 0, k3⟩).p12 = fin 1e-12 := by
    rw [hphi]
    show floorEps 1e-12 (phiRaw ⟨k1, 0, k3⟩ (fin b) (fin e)).p12 = _
    rw [h12, floorEps_max]
    norm_num
  have e23 : (opsPhi p ⟨k1, 0, k3⟩).p23 = fin 1e-12 := by
    rw [hphi]
    show floorEps 1e-12 (phiRaw ⟨k1, 0, k3⟩ (fin b) (fin e)).p23 = _
    rw [h23, floorEps_max]
    norm_num
  have diag : ∀ sel ∈ [Phi6.p11, Phi6.p22, Phi6.p33], ∃ x > 0, sel (opsPhi p ⟨k1, 0, k3⟩) = fin x := by
    intro sel hsel
    rw [hphi, hraw]
    simp only [List.mem_cons, List.not_mem_nil, or_false] at hsel
    rcases hsel with rfl | rfl | rfl <;> simp only [phiFloor, floorEps_max] <;>
      exact ⟨_, lt_max_of_lt_right (by norm_num), rfl⟩
  obtain ⟨x, hx, ex⟩ := diag Phi6.p11 (by simp)
  obtain ⟨y, hy, ey⟩ := diag Phi6.p22 (by simp)
  obtain ⟨z, hz', ez⟩ := diag Phi6.p33 (by simp)
  have h13 : ∃ w, (opsPhi p ⟨k1, 0, k3⟩).p13 = fin w := by
    rw [hphi, hraw]
    exact floorEpsSigned_fin _ _
  obtain ⟨w, ew⟩ := h13
  have ht : 1 / 3 * (x + y + z) ≠ 0 := by positivity
  refine ⟨x + y + z, by positivity, by rw [ex, ey, ez, fin_add_fin, fin_add_fin], ?_⟩
  have key : ∀ l, l = [fin x, fin y, fin z, fin w, fin 1e-12, fin 1e-12] →
      ∃ a c, getDiv (some ⟨k1, 0, k3⟩) l = .ok [a, fin (3e-12 * (k1 + k3) / (x + y + z)), c] := by
    rintro _ rfl
    have e : 3e-12 * (k1 + k3) / (x + y + z) = (k1 * 1e-12 + 0 * y + k3 * 1e-12) / (1 / 3 * (x + y + z)) := by
      rw [div_eq_div_iff (by positivity) ht]
      ring
    rw [e]
    simp only [getDiv, fin_add_fin, fin_mul_fin, fin_div_fin _ ht]
    exact ⟨_, _, rfl⟩
  intro l hl
  simp only [List.mem_cons, List.not_mem_nil, or_false] at hl
  rcases hl with rfl | rfl <;> refine key _ ?_
  · simp only [Phi6.toList, ex, ey, ez, ew, e12, e23]
  · simp only [ex, ey, ez, ew, e12, e23]

/-- The hypothesis and a wavevector at which the order matters: at constant lifetime, `k₂ ≠ 0` and `Φ₂₃ ≠ Φ₁₂`. -/
example : (⟨fun _ => 1, .const, .vkLike, 0, 0, 0⟩ : OPSParams).LifetimeFinite :=
  lifetimeFinite_of _ trivial

/-! ### `eval_grad` -/

/-- **C105** `eval_grad` raises a `RuntimeError` for every object and every wavenumber argument.  The object is left as `eval`
would leave it: same parameters, same predictions. -/
theorem C105_eval_grad (grad : OPS → List Fl) (k1s : List ℝ) (s : OPS) :
    (evalGrad grad k1s s).1 = .error .runtimeError ∧ (evalGrad grad k1s s).2 = (evalModel k1s s).2 ∧
    (∀ ln, (evalGrad grad k1s s).2.paramVec ln = s.paramVec ln) ∧
    ∀ k1s', (evalModel k1s' (evalGrad grad k1s s).2).1 = (evalModel k1s' s).1 := by
  have h := forward_eq k1s s
  have h2 := (forward_same k1s s)
  have hst : (evalGrad grad k1s s).2 = (OPS.forward k1s s).2 := by
    unfold evalGrad OPS.call
    rcases hf : OPS.forward k1s s with ⟨e | y, s'⟩
    · rfl
    · simp [Recorded.backward]
  refine ⟨?_, ?_, ?_, ?_⟩
  · unfold evalGrad OPS.call
    rcases hf : OPS.forward k1s s with ⟨e | y, s'⟩
    · rw [hf] at h; simp at h
    · simp [Recorded.backward]
  · rw [hst]
    unfold evalModel OPS.call
    rcases hf : OPS.forward k1s s with ⟨e | y, s'⟩ <;> rfl
  · intro ln
    rw [hst]
    unfold OPS.paramVec
    rw [← h2.1.kind, ← h2.1.sp, h2.2.1, h2.2.2.1, h2.2.2.2.1]
  · intro k1s'
    rw [hst]
    have ev : ∀ o : OPS, (evalModel k1s' o).1 = (OPS.forward k1s' o).1 := by
      intro o
      unfold evalModel OPS.call
      rcases hf : OPS.forward k1s' o with ⟨e | y, s'⟩ <;> rfl
    rw [ev, ev, forward_eq, forward_eq, params_congr h2.1 h2.2.1.symm h2.2.2.1.symm h2.2.2.2.1.symm, h2.1.grid]

/-- **C105** Recording the forward pass would not help: the prediction has `6 n` entries for `n` wavenumbers, never one. -/
theorem C105_backward_prediction (gradMode : Bool) (k1s : List ℝ) (s : OPS) :
    ∃ y s', OPS.call gradMode k1s s = (.ok y, s') ∧ y.backward = .error .runtimeError := by
  have h := forward_eq k1s s
  unfold OPS.call
  rcases hf : OPS.forward k1s s with ⟨e | y, s'⟩
  · rw [hf] at h; simp at h
  · rw [hf] at h
    refine ⟨_, _, rfl, ?_⟩
    have hy := Except.ok.inj h
    have hlen : y.flatten.length = 6 * k1s.length := by
      rw [hy]
      simp [phiSelectors]
      ring
    have : y.flatten.length ≠ 1 := by omega
    simp only [Recorded.backward]
    rw [if_neg (fun hh => this hh.2)]

/-! ### `eval_trainable_norm` -/

/-- **C105** `eval_trainable_norm` is defined exactly for networks; it is the Euclidean norm of the network's parameters, zero only if
all of them are zero, and its square over their number is the regularisation term of the loss. -/
theorem C105_norm (ln : Bool) (s : OPS) :
    ((∃ r, evalTrainableNorm ln s = .ok r) ↔ ∃ net, s.kind = .taunet net) ∧
    ((¬ ∃ net, s.kind = .taunet net) → evalTrainableNorm ln s = .error .valueError) ∧
    ∀ net, s.kind = .taunet net → ∃ r ≥ 0, evalTrainableNorm ln s = .ok r ∧
      r ^ 2 = ∑ i : Fin (net.paramVec ln).length, (net.paramVec ln)[i] ^ 2 ∧
      (r = 0 ↔ ∀ x ∈ net.paramVec ln, x = 0) ∧
      ∀ (lp : LossParams), net.paramVec ln ≠ [] →
        regularization lp (.vec ((net.paramVec ln).map fin)) = .ok (fin (lp.betaReg * (r ^ 2 / (net.paramVec ln).length))) := by
  refine ⟨?_, ?_, ?_⟩
  · unfold evalTrainableNorm
    rcases s.kind with _ | _ | _ | _ | net <;> simp
  · intro h
    unfold evalTrainableNorm
    rcases hk : s.kind with _ | _ | _ | _ | net
    all_goals first | rfl | exact absurd ⟨net, hk⟩ h
  · intro net hk
    have h0 : 0 ≤ ((net.paramVec ln).map fun x => x ^ 2).sum :=
      List.sum_nonneg (by
        intro y hy
        obtain ⟨x, -, rfl⟩ := List.mem_map.1 hy
        positivity)
    refine ⟨_, Real.sqrt_nonneg _, by unfold evalTrainableNorm; rw [hk], ?_, ?_, ?_⟩
    · rw [Real.sq_sqrt h0]
      exact (Fin.sum_univ_fun_getElem (net.paramVec ln) fun x => x ^ 2).symm
    · rw [Real.sqrt_eq_zero h0]
      constructor
      · intro hs x hx
        have hle := List.single_le_sum (l := (net.paramVec ln).map fun x => x ^ 2) (by
          intro y hy
          obtain ⟨x, -, rfl⟩ := List.mem_map.1 hy
          positivity) (x ^ 2) (List.mem_map.2 ⟨x, hx, rfl⟩)
        rw [hs] at hle
        exact pow_eq_zero_iff two_ne_zero |>.1 (le_antisymm hle (sq_nonneg x))
      · intro hx
        apply List.sum_eq_zero
        intro y hy
        obtain ⟨x, hm, rfl⟩ := List.mem_map.1 hy
        rw [hx x hm]
        norm_num
    · intro lp hne
      rw [Real.sq_sqrt h0]
      exact regularization_list lp hne

/-- A network with parameters. -/
example (s : OPS) : ∃ (s' : OPS) (net : TauNet), s'.kind = .taunet net ∧ net.paramVec false = [2, 3] :=
  ⟨{ s with kind := .taunet ⟨[[[2, 3]]], [], 0⟩ }, ⟨[[[2, 3]]], [], 0⟩, rfl, by simp [TauNet.paramVec]⟩

end
end Verif
