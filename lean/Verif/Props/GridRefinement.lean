import Verif.Props.BlockGain
import Verif.Props.TrainedGenerator
import Mathlib.Analysis.SpecialFunctions.JapaneseBracket
import Mathlib.MeasureTheory.Measure.Lebesgue.EqHaar

/-!
# Refining the grid of the wind generator: C134
-/

namespace Verif
open Fl MeasureTheory ProbabilityTheory Verif.Spec Filter Topology

noncomputable section

/-- Correlation of two components at a displacement `x` of the turbulence with spectral tensor `Φ`: the Fourier integral of
`Φ` over all wavevectors, relative to a third of the integral of its trace. -/
def Spec.fullCorrelation (Φ : ℝ → ℝ → ℝ → Fin 3 → Fin 3 → ℝ) (x : ℝ × ℝ × ℝ) (i j : Fin 3) : ℂ :=
  (∫ k : ℝ × ℝ × ℝ, ((Φ k.1 k.2.1 k.2.2 i j : ℝ) : ℂ) *
      Complex.exp (Complex.I * ((k.1 * x.1 + k.2.1 * x.2.1 + k.2.2 * x.2.2 : ℝ) : ℂ))) /
    ((1 / 3 * ∫ k : ℝ × ℝ × ℝ, ∑ i, Φ k.1 k.2.1 k.2.2 i i : ℝ) : ℂ)

/-- The spectral tensor is integrable and has positive trace on average, so that the correlations are defined. -/
def Spec.FiniteVariance (Φ : ℝ → ℝ → ℝ → Fin 3 → Fin 3 → ℝ) : Prop :=
  (∀ i j, Integrable fun k : ℝ × ℝ × ℝ => Φ k.1 k.2.1 k.2.2 i j) ∧ 0 < ∫ k : ℝ × ℝ × ℝ, ∑ i, Φ k.1 k.2.1 k.2.2 i i

/-- The turbulence returned on fine grids in large boxes: `Φ` has finite variances; for every displacement `x` in space, tolerance and probability there is a
spacing such that on all finer grids, for the displacements of whole cells that are close to `x`, the turbulence is from some
grid levels on that of the correlations of `Φ` at `x`. -/
def Spec.RefinedLimit (good : GenEnv → GenArgs → Prop) (Φ : ℝ → ℝ → ℝ → Fin 3 → Fin 3 → ℝ) : Prop :=
  FiniteVariance Φ ∧
  ∀ c e δ : ℝ, 0 < e → 0 < δ → ∀ (B : ℤ) (x : ℝ × ℝ × ℝ), ∃ η > 0, ∀ h1 h2 h3 : ℝ, 0 < h1 → 0 < h2 → 0 < h3 →
    h1 < η → h2 < η → h3 < η → ∀ r : ℤ × ℤ × ℤ, |h1 * r.1 - x.1| < η → |h2 * r.2.1 - x.2.1| < η → |h3 * r.2.2 - x.2.2| < η →
    ∃ Λ : ℕ, BlocksClose good h1 h2 h3 c e δ B r (fullCorrelation Φ x) Λ

/-! ### Decay at large wavevectors -/

section decay
variable {k : K3} {b : ℝ}

theorem kk0_le_kk {B : ℝ} (hB : |b| ≤ B) : kk0R k b ≤ (2 + 2 * B ^ 2) * kkR k := by
  unfold kk0R kkR k30R
  have h1 : b ^ 2 ≤ B ^ 2 := by
    rw [← sq_abs b]
    exact pow_le_pow_left₀ (abs_nonneg b) hB 2
  have h2 : b ^ 2 * k.k1 ^ 2 ≤ B ^ 2 * k.k1 ^ 2 := mul_le_mul_of_nonneg_right h1 (sq_nonneg _)
  have h3 := sq_nonneg (k.k3 - b * k.k1)
  have h4 : 0 ≤ B ^ 2 * k.k2 ^ 2 := by positivity
  have h5 : 0 ≤ B ^ 2 * k.k3 ^ 2 := by positivity
  nlinarith [sq_nonneg k.k1, sq_nonneg k.k2, sq_nonneg k.k3]

theorem kk_le_kk0 {B : ℝ} (hB : |b| ≤ B) : kkR k ≤ (2 + 2 * B ^ 2) * kk0R k b := by
  have h := kk0_le_kk (k := ⟨k.k1, k.k2, k30R k b⟩) (b := -b) (B := B) (by rwa [abs_neg])
  have e1 : kk0R ⟨k.k1, k.k2, k30R k b⟩ (-b) = kkR k := by
    unfold kk0R kkR k30R
    ring
  rw [e1] at h
  exact h

/-- The sheared von Karman tensor decays like the power `-11/3` of the wavenumber, for bounded lifetimes. -/
theorem sheared_tail {L E0 B : ℝ} (hL : 0 < L) (hE : 0 ≤ E0) (hB : 0 ≤ B) : ∃ C : ℝ, 0 ≤ C ∧
    ∀ (k : K3) (b : ℝ), k.k1 ≠ 0 → |b| ≤ B → ∀ i j,
      |shearedTensor (vkE L E0) k.vec b i j| ≤ C * (1 + kkR k) ^ (-(11 / 6) : ℝ) := by
  have hpi := Real.pi_pos
  obtain ⟨A, hA⟩ : ∃ A, A = E0 * L ^ (17 / 3 : ℝ) / (4 * Real.pi) := ⟨_, rfl⟩
  have A0 : 0 ≤ A := by rw [hA]; positivity
  obtain ⟨m, hm⟩ : ∃ m, m = min 1 (L ^ 2 / (2 + 2 * B ^ 2)) := ⟨_, rfl⟩
  have m0 : 0 < m := by rw [hm]; exact lt_min one_pos (by positivity)
  obtain ⟨D, hD⟩ : ∃ D, D = 1 + (1 + Real.pi) * B + Real.sqrt (2 + 2 * B ^ 2) := ⟨_, rfl⟩
  have D0 : 0 ≤ D := by rw [hD]; positivity
  refine ⟨3 * (A / L ^ 2 * D ^ 2) * m ^ (-(11 / 6) : ℝ), by positivity, fun k b h hb i j => ?_⟩
  have h0 := kk0R_pos (b := b) h
  have hk := kkR_pos h
  have s0 := Real.sqrt_nonneg (kk0R k b)
  have ss : Real.sqrt (kk0R k b) * Real.sqrt (kk0R k b) = kk0R k b := Real.mul_self_sqrt h0.le
  have hker : ∀ i j, |kerR k b i j| ≤ Real.sqrt (kk0R k b) * D := by
    intro i j
    refine (kerR_le h i j).trans ?_
    have e1 : kk0R k b / Real.sqrt (kkR k) ≤ Real.sqrt (kk0R k b) * Real.sqrt (2 + 2 * B ^ 2) := by
      rw [div_le_iff₀ (Real.sqrt_pos.2 hk), mul_assoc, ← Real.sqrt_mul (by positivity)]
      calc kk0R k b = Real.sqrt (kk0R k b) * Real.sqrt (kk0R k b) := ss.symm
        _ ≤ _ := mul_le_mul_of_nonneg_left (Real.sqrt_le_sqrt (kk0_le_kk hb)) s0
    have e2 : Real.sqrt (kk0R k b) * (1 + (1 + Real.pi) * |b|) ≤ Real.sqrt (kk0R k b) * (1 + (1 + Real.pi) * B) := by gcongr
    rw [hD]
    linarith
  have hsum : |∑ m, kerR k b i m * kerR k b j m| ≤ 3 * (kk0R k b * D ^ 2) := by
    refine (Finset.abs_sum_le_sum_abs _ _).trans ?_
    have : ∀ m ∈ (Finset.univ : Finset (Fin 3)), |kerR k b i m * kerR k b j m| ≤ kk0R k b * D ^ 2 := by
      intro m _
      rw [abs_mul]
      calc |kerR k b i m| * |kerR k b j m| ≤ (Real.sqrt (kk0R k b) * D) * (Real.sqrt (kk0R k b) * D) :=
            mul_le_mul (hker i m) (hker j m) (abs_nonneg _) (by positivity)
        _ = (Real.sqrt (kk0R k b) * Real.sqrt (kk0R k b)) * D ^ 2 := by ring
        _ = _ := by rw [ss]
    refine (Finset.sum_le_sum this).trans (le_of_eq ?_)
    simp
  rw [shearedTensor_eq h, ← constR_sq hL hE h0, abs_mul, abs_of_nonneg (mul_self_nonneg _)]
  obtain ⟨y, hy⟩ : ∃ y, y = 1 + L ^ 2 * kk0R k b := ⟨_, rfl⟩
  have y1 : 0 < y := by rw [hy]; positivity
  have hc : constR L E0 (kk0R k b) * constR L E0 (kk0R k b) = A / y ^ (17 / 6 : ℝ) := by
    unfold constR
    rw [← hA, ← hy]
    exact Real.mul_self_sqrt (by positivity)
  rw [hc]
  have hx : kk0R k b ≤ y / L ^ 2 := by
    rw [le_div_iff₀ (by positivity), hy]
    linarith
  have e3 : y / y ^ (17 / 6 : ℝ) = y ^ (-(11 / 6) : ℝ) := by
    rw [show (-(11 / 6) : ℝ) = 1 - 17 / 6 by norm_num, Real.rpow_sub y1, Real.rpow_one]
  have hmy : m * (1 + kkR k) ≤ y := by
    have g1 : m ≤ 1 := by rw [hm]; exact min_le_left _ _
    have g2 : m ≤ L ^ 2 / (2 + 2 * B ^ 2) := by rw [hm]; exact min_le_right _ _
    have g3 : m * kkR k ≤ L ^ 2 * kk0R k b := by
      calc m * kkR k ≤ L ^ 2 / (2 + 2 * B ^ 2) * ((2 + 2 * B ^ 2) * kk0R k b) :=
            mul_le_mul g2 (kk_le_kk0 hb) hk.le (by positivity)
        _ = _ := by field_simp
    rw [hy]
    linarith
  have hpow : y ^ (-(11 / 6) : ℝ) ≤ m ^ (-(11 / 6) : ℝ) * (1 + kkR k) ^ (-(11 / 6) : ℝ) := by
    rw [← Real.mul_rpow m0.le (by linarith)]
    exact Real.rpow_le_rpow_of_nonpos (by positivity) hmy (by norm_num)
  have p0 := Real.rpow_pos_of_pos y1 (17 / 6 : ℝ)
  calc A / y ^ (17 / 6 : ℝ) * |∑ m, kerR k b i m * kerR k b j m|
      ≤ A / y ^ (17 / 6 : ℝ) * (3 * (y / L ^ 2 * D ^ 2)) := by
        refine mul_le_mul_of_nonneg_left (hsum.trans ?_) (by positivity)
        gcongr
    _ = 3 * (A / L ^ 2 * D ^ 2) * (y / y ^ (17 / 6 : ℝ)) := by ring
    _ = 3 * (A / L ^ 2 * D ^ 2) * y ^ (-(11 / 6) : ℝ) := by rw [e3]
    _ ≤ 3 * (A / L ^ 2 * D ^ 2) * (m ^ (-(11 / 6) : ℝ) * (1 + kkR k) ^ (-(11 / 6) : ℝ)) := by gcongr
    _ = _ := by ring

theorem sheared_zero (h : k.k1 ≠ 0) (E : ℝ → ℝ) : shearedTensor E k.vec 0 = isoTensor E k.vec := by
  have hd : distortion k.vec 0 = 1 := by
    have hs : shearSq (k.vec 0) (k.vec 1) (k.vec 2 + 0 * k.vec 0) 0 ≠ 0 := by
      have h0 : k.vec 0 = k.k1 := rfl
      unfold shearSq
      have : 0 < (k.vec 0) ^ 2 := by rw [h0]; positivity
      positivity
    unfold distortion
    simp only [rdt1, rdt2, rdt3, intervalIntegral.integral_same, div_self hs]
    ext i j
    fin_cases i <;> fin_cases j <;> simp
  have hw : initialWave k.vec 0 = k.vec := by
    unfold initialWave
    ext i
    fin_cases i <;> simp
  unfold shearedTensor
  rw [hd, hw]
  simp

end decay

/-! ### Integrability over all wavevectors -/

theorem whole_of_band {Φ : ℝ → ℝ → ℝ → Fin 3 → Fin 3 → ℝ} (hI : BandIntegrable Φ) {C : ℝ}
    (hC : ∀ q : ℝ × ℝ × ℝ, q.1 ≠ 0 → 1 ≤ ‖q‖ → ∀ i j, |Φ q.1 q.2.1 q.2.2 i j| ≤ C * (1 + kkR ⟨q.1, q.2.1, q.2.2⟩) ^ (-(11 / 6) : ℝ))
    (i j : Fin 3) : Integrable fun k : ℝ × ℝ × ℝ => Φ k.1 k.2.1 k.2.2 i j := by
  have hpi := Real.pi_pos
  haveI i2 : (volume : Measure (ℝ × ℝ)).IsAddHaarMeasure := Measure.prod.instIsAddHaarMeasure volume volume
  haveI i3 : (volume : Measure (ℝ × ℝ × ℝ)).IsAddHaarMeasure :=
    Measure.prod.instIsAddHaarMeasure (volume : Measure ℝ) (volume : Measure (ℝ × ℝ))
  have hbox : ∀ A : ℝ, 0 < A → IntegrableOn (fun k : ℝ × ℝ × ℝ => Φ k.1 k.2.1 k.2.2 i j) (bandBox A A A) := by
    intro A hA
    have := hI (Real.pi / A) (Real.pi / A) (Real.pi / A) (by positivity) (by positivity) (by positivity) i j
    have e : Real.pi / (Real.pi / A) = A := by field_simp
    rw [e] at this
    exact this
  have hmeas : AEStronglyMeasurable (fun k : ℝ × ℝ × ℝ => Φ k.1 k.2.1 k.2.2 i j) volume := by
    have hU : (⋃ n : ℕ, bandBox (n + 1) (n + 1) (n + 1)) = Set.univ := by
      rw [Set.eq_univ_iff_forall]
      intro q
      obtain ⟨n, hn⟩ := exists_nat_gt ‖q‖
      obtain ⟨g1, g2, g3⟩ := norm3_ge q
      rw [abs_le] at g1 g2 g3
      rw [Set.mem_iUnion]
      refine ⟨n, ⟨?_, ?_⟩, ⟨?_, ?_⟩, ?_, ?_⟩ <;> linarith [g1.1, g1.2, g2.1, g2.2, g3.1, g3.2]
    have := aestronglyMeasurable_iUnion_iff (μ := (volume : Measure (ℝ × ℝ × ℝ))) (s := fun n : ℕ => bandBox (n + 1) (n + 1) (n + 1))
      (f := fun k : ℝ × ℝ × ℝ => Φ k.1 k.2.1 k.2.2 i j)
    rw [hU, Measure.restrict_univ] at this
    exact this.2 fun n => (hbox (n + 1) (by positivity)).1
  rw [← integrableOn_univ, ← Set.union_compl_self (bandBox 2 2 2), integrableOn_union]
  refine ⟨hbox 2 two_pos, ?_⟩
  have hd : Integrable (fun x : ℝ × ℝ × ℝ => ((1 : ℝ) + ‖x‖ ^ 2) ^ (-(11 / 3 : ℝ) / 2)) volume :=
    integrable_rpow_neg_one_add_norm_sq (by
      rw [Module.finrank_prod, Module.finrank_prod, Module.finrank_self]
      norm_num)
  refine Integrable.mono' ((hd.const_mul |C|).integrableOn (s := (bandBox 2 2 2)ᶜ)) hmeas.restrict ?_
  refine (ae_restrict_iff' (bandBox_meas 2 2 2).compl).2 ?_
  filter_upwards [ae_fst_ne] with q hq hm
  have hn : 1 ≤ ‖q‖ := by
    by_contra hlt
    push Not at hlt
    apply hm
    obtain ⟨g1, g2, g3⟩ := norm3_ge q
    rw [abs_le] at g1 g2 g3
    refine ⟨⟨?_, ?_⟩, ⟨?_, ?_⟩, ?_, ?_⟩ <;> linarith [g1.1, g1.2, g2.1, g2.2, g3.1, g3.2]
  rw [Real.norm_eq_abs]
  refine (hC q hq hn i j).trans ?_
  have hk : ‖q‖ ^ 2 ≤ kkR ⟨q.1, q.2.1, q.2.2⟩ := by
    have h0 : ‖q‖ ≤ Real.sqrt (kkR ⟨q.1, q.2.1, q.2.2⟩) := by
      refine norm3_le ?_ ?_ ?_ <;> refine Real.abs_le_sqrt ?_ <;> unfold kkR <;>
        nlinarith [mul_self_nonneg q.1, mul_self_nonneg q.2.1, mul_self_nonneg q.2.2]
    exact (Real.le_sqrt (norm_nonneg _) (kkR_pos (k := ⟨q.1, q.2.1, q.2.2⟩) hq).le).1 h0
  have e : (-(11 / 3 : ℝ) / 2) = (-(11 / 6) : ℝ) := by norm_num
  rw [e]
  have k0 := (kkR_pos (k := ⟨q.1, q.2.1, q.2.2⟩) hq).le
  refine mul_le_mul (le_abs_self C) ?_ (Real.rpow_nonneg (by linarith) _) (abs_nonneg _)
  exact Real.rpow_le_rpow_of_nonpos (by positivity) (by linarith) (by norm_num)

/-- The lifetime is bounded away from the origin. -/
def OPSParams.LifetimeFar (p : OPSParams) : Prop :=
  ∃ B : ℝ, 0 ≤ B ∧ ∀ q : ℝ × ℝ × ℝ, q.1 ≠ 0 → 1 ≤ ‖q‖ → |(eddyLifetime p.hyp p.ty p.L p.T ⟨q.1, q.2.1, q.2.2⟩).toReal| ≤ B

theorem finiteVariance_of {K : GenKernel} (hK : K.Valid) (hE : K.Energetic) {Φ : ℝ → ℝ → ℝ → Fin 3 → Fin 3 → ℝ} (hΦ : K.HasTensor Φ)
    (hI : BandIntegrable Φ) {C : ℝ}
    (hC : ∀ q : ℝ × ℝ × ℝ, q.1 ≠ 0 → 1 ≤ ‖q‖ → ∀ i j, |Φ q.1 q.2.1 q.2.2 i j| ≤ C * (1 + kkR ⟨q.1, q.2.1, q.2.2⟩) ^ (-(11 / 6) : ℝ)) :
    FiniteVariance Φ := by
  have hw := whole_of_band hI hC
  refine ⟨hw, ?_⟩
  refine lt_of_lt_of_le (bandVariance_pos hK hE hΦ hI one_pos one_pos one_pos) (setIntegral_le_integral ?_ ?_)
  · exact integrable_finset_sum _ fun i _ => hw i i
  · filter_upwards [ae_fst_ne] with q hq
    refine Finset.sum_nonneg fun i _ => ?_
    have h := hΦ q.1 q.2.1 q.2.2 hq i i
    rw [Matrix.mul_apply] at h
    have h2 := congrArg Complex.re h
    rw [Complex.ofReal_re, Complex.re_sum] at h2
    rw [← h2]
    refine Finset.sum_nonneg fun m _ => ?_
    rw [Matrix.conjTranspose_apply]
    change 0 ≤ (_ * (starRingEnd ℂ) _ : ℂ).re
    rw [Complex.mul_conj, Complex.ofReal_re]
    exact Complex.normSq_nonneg _

/-! ### The limit of fine grids -/

theorem band_tendsto {f : ℝ × ℝ × ℝ → ℂ} (hf : Integrable f) (x : ℝ × ℝ × ℝ) :
    Tendsto (fun w : (ℝ × ℝ × ℝ) × (ℝ × ℝ × ℝ) => ∫ k in bandBox (Real.pi / w.1.1) (Real.pi / w.1.2.1) (Real.pi / w.1.2.2),
        f k * Complex.exp (Complex.I * ((k.1 * w.2.1 + k.2.1 * w.2.2.1 + k.2.2 * w.2.2.2 : ℝ) : ℂ)))
      (𝓝[{w | 0 < w.1.1 ∧ 0 < w.1.2.1 ∧ 0 < w.1.2.2}] (((0, 0, 0) : ℝ × ℝ × ℝ), x))
      (𝓝 (∫ k, f k * Complex.exp (Complex.I * ((k.1 * x.1 + k.2.1 * x.2.1 + k.2.2 * x.2.2 : ℝ) : ℂ)))) := by
  have hpi := Real.pi_pos
  have hexp : ∀ t : ℝ, ‖Complex.exp (Complex.I * (t : ℂ))‖ = 1 := fun t => by
    rw [mul_comm]
    exact Complex.norm_exp_ofReal_mul_I t
  simp_rw [← integral_indicator (bandBox_meas _ _ _)]
  refine tendsto_integral_filter_of_dominated_convergence (fun k => ‖f k‖) ?_ ?_ hf.norm ?_
  · refine Eventually.of_forall fun w => ?_
    refine AEStronglyMeasurable.indicator (hf.1.mul ?_) (bandBox_meas _ _ _)
    exact (Continuous.aestronglyMeasurable (by fun_prop))
  · refine Eventually.of_forall fun w => Eventually.of_forall fun k => ?_
    refine (norm_indicator_le_norm_self _ _).trans ?_
    rw [norm_mul, hexp, mul_one]
  · refine Eventually.of_forall fun k => ?_
    have hsmall : ∀ a : ℝ, ∀ᶠ h : ℝ in 𝓝 0, h * |a| < Real.pi := fun a => by
      have : Tendsto (fun h : ℝ => h * |a|) (𝓝 0) (𝓝 (0 * |a|)) := (continuous_id.mul continuous_const).tendsto 0
      rw [zero_mul] at this
      exact this.eventually (gt_mem_nhds hpi)
    have hmem : ∀ {h a : ℝ}, 0 < h → h * |a| < Real.pi → a ∈ Set.Ico (-(Real.pi / h)) (Real.pi / h) := by
      intro h a h0 hlt
      have : |a| < Real.pi / h := by rw [lt_div_iff₀ h0]; linarith
      rw [abs_lt] at this
      exact ⟨this.1.le, this.2⟩
    have t1 : Tendsto (fun w : (ℝ × ℝ × ℝ) × (ℝ × ℝ × ℝ) => w.1.1) (𝓝 (((0, 0, 0) : ℝ × ℝ × ℝ), x)) (𝓝 0) :=
      (by fun_prop : Continuous fun w : (ℝ × ℝ × ℝ) × (ℝ × ℝ × ℝ) => w.1.1).tendsto _
    have t2 : Tendsto (fun w : (ℝ × ℝ × ℝ) × (ℝ × ℝ × ℝ) => w.1.2.1) (𝓝 (((0, 0, 0) : ℝ × ℝ × ℝ), x)) (𝓝 0) :=
      (by fun_prop : Continuous fun w : (ℝ × ℝ × ℝ) × (ℝ × ℝ × ℝ) => w.1.2.1).tendsto _
    have t3 : Tendsto (fun w : (ℝ × ℝ × ℝ) × (ℝ × ℝ × ℝ) => w.1.2.2) (𝓝 (((0, 0, 0) : ℝ × ℝ × ℝ), x)) (𝓝 0) :=
      (by fun_prop : Continuous fun w : (ℝ × ℝ × ℝ) × (ℝ × ℝ × ℝ) => w.1.2.2).tendsto _
    have hcont : Tendsto (fun w : (ℝ × ℝ × ℝ) × (ℝ × ℝ × ℝ) =>
        f k * Complex.exp (Complex.I * ((k.1 * w.2.1 + k.2.1 * w.2.2.1 + k.2.2 * w.2.2.2 : ℝ) : ℂ)))
        (𝓝[{w | 0 < w.1.1 ∧ 0 < w.1.2.1 ∧ 0 < w.1.2.2}] (((0, 0, 0) : ℝ × ℝ × ℝ), x))
        (𝓝 (f k * Complex.exp (Complex.I * ((k.1 * x.1 + k.2.1 * x.2.1 + k.2.2 * x.2.2 : ℝ) : ℂ)))) :=
      ((by fun_prop : Continuous fun w : (ℝ × ℝ × ℝ) × (ℝ × ℝ × ℝ) =>
        f k * Complex.exp (Complex.I * ((k.1 * w.2.1 + k.2.1 * w.2.2.1 + k.2.2 * w.2.2.2 : ℝ) : ℂ))).tendsto
          (((0, 0, 0) : ℝ × ℝ × ℝ), x)).mono_left nhdsWithin_le_nhds
    refine hcont.congr' ?_
    filter_upwards [self_mem_nhdsWithin, nhdsWithin_le_nhds (t1.eventually (hsmall k.1)),
      nhdsWithin_le_nhds (t2.eventually (hsmall k.2.1)), nhdsWithin_le_nhds (t3.eventually (hsmall k.2.2))] with w hw g1 g2 g3
    rw [Set.indicator_of_mem]
    exact ⟨hmem hw.1 g1, hmem hw.2.1 g2, hmem hw.2.2 g3⟩

/-- The correlations on fine grids are those of all wavevectors. -/
theorem correlation_refine {Φ : ℝ → ℝ → ℝ → Fin 3 → Fin 3 → ℝ} (hΦ : FiniteVariance Φ) (x : ℝ × ℝ × ℝ) {e : ℝ} (he : 0 < e) :
    ∃ η > 0, ∀ h1 h2 h3 : ℝ, 0 < h1 → 0 < h2 → 0 < h3 →
    h1 < η → h2 < η → h3 < η → ∀ r : ℤ × ℤ × ℤ, |h1 * r.1 - x.1| < η → |h2 * r.2.1 - x.2.1| < η → |h3 * r.2.2 - x.2.2| < η →
    ∀ i j, ‖bandCorrelation h1 h2 h3 Φ r i j - fullCorrelation Φ x i j‖ ≤ e := by
  obtain ⟨hI, hpos⟩ := hΦ
  have key : ∀ i j, ∃ η > 0, ∀ h1 h2 h3 : ℝ, 0 < h1 → 0 < h2 → 0 < h3 →
    h1 < η → h2 < η → h3 < η → ∀ r : ℤ × ℤ × ℤ, |h1 * r.1 - x.1| < η → |h2 * r.2.1 - x.2.1| < η → |h3 * r.2.2 - x.2.2| < η →
    ‖bandCorrelation h1 h2 h3 Φ r i j - fullCorrelation Φ x i j‖ ≤ e := by
    intro i j
    have hn := band_tendsto (hI i j).ofReal x
    have htr : Integrable fun k : ℝ × ℝ × ℝ => ∑ i, Φ k.1 k.2.1 k.2.2 i i := integrable_finset_sum _ fun i _ => hI i i
    have hd := (band_tendsto htr.ofReal (0, 0, 0)).comp
      (f := fun w : (ℝ × ℝ × ℝ) × (ℝ × ℝ × ℝ) => (w.1, ((0, 0, 0) : ℝ × ℝ × ℝ)))
      (x := 𝓝[{w | 0 < w.1.1 ∧ 0 < w.1.2.1 ∧ 0 < w.1.2.2}] (((0, 0, 0) : ℝ × ℝ × ℝ), x)) (by
        refine tendsto_nhdsWithin_iff.2 ⟨?_, ?_⟩
        · exact ((by fun_prop : Continuous fun w : (ℝ × ℝ × ℝ) × (ℝ × ℝ × ℝ) => (w.1, ((0, 0, 0) : ℝ × ℝ × ℝ))).tendsto
            (((0, 0, 0) : ℝ × ℝ × ℝ), x)).mono_left nhdsWithin_le_nhds
        · filter_upwards [self_mem_nhdsWithin] with w hw using hw)
    simp only [mul_zero, add_zero, Complex.ofReal_zero, Complex.exp_zero, mul_one, Function.comp_def] at hd
    have hd3 := hd.const_mul (1 / 3 : ℂ)
    have hne : (1 / 3 : ℂ) * ∫ k : ℝ × ℝ × ℝ, ((∑ i, Φ k.1 k.2.1 k.2.2 i i : ℝ) : ℂ) ≠ 0 := by
      rw [integral_complex_ofReal]
      refine mul_ne_zero (by norm_num) ?_
      exact_mod_cast hpos.ne'
    have hq := hn.div hd3 hne
    rw [Metric.tendsto_nhdsWithin_nhds] at hq
    obtain ⟨η, η0, hη⟩ := hq e he
    refine ⟨η, η0, fun h1 h2 h3 p1 p2 p3 l1 l2 l3 r r1 r2 r3 => ?_⟩
    have := hη (x := ((h1, h2, h3), (h1 * r.1, h2 * r.2.1, h3 * r.2.2))) ⟨p1, p2, p3⟩ (by
      simp only [Prod.dist_eq, Real.dist_eq, sub_zero]
      rw [abs_of_pos p1, abs_of_pos p2, abs_of_pos p3]
      simp only [max_lt_iff]
      exact ⟨⟨l1, l2, l3⟩, r1, r2, r3⟩)
    rw [dist_eq_norm] at this
    refine le_of_eq_of_le ?_ this.le
    unfold bandCorrelation fullCorrelation bandBox
    have e3 : ((1 / 3 : ℝ) : ℂ) = 1 / 3 := by norm_num
    rw [Complex.ofReal_mul (1 / 3), Complex.ofReal_mul (1 / 3), ← integral_complex_ofReal, ← integral_complex_ofReal, e3]
    rfl
  choose η η0 hη using key
  obtain ⟨m, hm⟩ : ∃ m, m = Finset.univ.inf' (Finset.univ_nonempty) fun w : Fin 3 × Fin 3 => η w.1 w.2 := ⟨_, rfl⟩
  have hle : ∀ i j, m ≤ η i j := fun i j => by
    rw [hm]
    exact Finset.inf'_le (fun w : Fin 3 × Fin 3 => η w.1 w.2) (Finset.mem_univ (i, j))
  refine ⟨m, ?_, fun h1 h2 h3 p1 p2 p3 l1 l2 l3 r r1 r2 r3 i j => ?_⟩
  · rw [hm, gt_iff_lt, Finset.lt_inf'_iff]
    exact fun w _ => η0 _ _
  · have := hle i j
    exact hη i j h1 h2 h3 p1 p2 p3 (by linarith) (by linarith) (by linarith) r (by linarith) (by linarith) (by linarith)

theorem refined_of {good : GenEnv → GenArgs → Prop} {Φ : ℝ → ℝ → ℝ → Fin 3 → Fin 3 → ℝ} (h : BlockLimit good Φ)
    (hΦ : FiniteVariance Φ) : RefinedLimit good Φ := by
  refine ⟨hΦ, fun c e δ he hδ B x => ?_⟩
  obtain ⟨η, η0, hη⟩ := correlation_refine hΦ x (half_pos he)
  refine ⟨η, η0, fun h1 h2 h3 p1 p2 p3 l1 l2 l3 r r1 r2 r3 => ?_⟩
  obtain ⟨Λ, hΛ⟩ := h h1 h2 h3 c (e / 2) δ p1 p2 p3 (half_pos he) hδ B r
  have hcl := hη h1 h2 h3 p1 p2 p3 l1 l2 l3 r r1 r2 r3
  refine ⟨Λ, ?_⟩
  intro env a g q hg a1 a2 a3 a4 a5 a6 a7 a8 a9 a10 a11 a12 a13 Ω _ μ _ ξ hξ
  obtain ⟨V, U, b1, b2, b3, b4, b5⟩ := hΛ env a g q hg a1 a2 a3 a4 a5 a6 a7 a8 a9 a10 a11 a12 a13 Ω μ ξ hξ
  refine ⟨V, U, b1, b2, b3, fun j x y g1 g2 g3 => ?_, fun j => ?_⟩
  · have t1 := b4 j x y g1 g2 g3
    have t2 := hcl x.2.2.2 y.2.2.2
    have := norm_add_le_of_le t1 t2
    rw [sub_add_sub_cancel, add_halves] at this
    exact this
  · refine le_trans (measureReal_mono ?_) (b5 j)
    rintro ω ⟨x, hx⟩
    exact ⟨x, lt_of_le_of_lt (by nlinarith [abs_nonneg (U j ω x)]) hx⟩

/-! ### The three models -/

theorem mann_far (p : OPSParams) (hy : IsMannHyp p.hyp) (ht : p.ty = .mann) : p.LifetimeFar := by
  have hL := p.L_pos
  have hT := p.T_pos
  have t0 := mannTau_pos hy (half_pos hL)
  refine ⟨p.T * mannTau p.hyp (p.L / 2), by positivity, fun q hq hn => ?_⟩
  have hk : 1 ≤ Real.sqrt (kkR ⟨q.1, q.2.1, q.2.2⟩) := by
    refine hn.trans (norm3_le ?_ ?_ ?_) <;> refine Real.abs_le_sqrt ?_ <;> unfold kkR <;>
        nlinarith [mul_self_nonneg q.1, mul_self_nonneg q.2.1, mul_self_nonneg q.2.2]
  have h0 : 0 < p.L * Real.sqrt (kkR ⟨q.1, q.2.1, q.2.2⟩) := mul_pos hL (by linarith)
  have hlt : p.L / 2 < p.L * Real.sqrt (kkR ⟨q.1, q.2.1, q.2.2⟩) := by nlinarith
  have hv : eddyLifetime p.hyp p.ty p.L p.T ⟨q.1, q.2.1, q.2.2⟩ = fin (p.T * mannTau p.hyp (p.L * Real.sqrt (kkR ⟨q.1, q.2.1, q.2.2⟩))) := by
    unfold eddyLifetime
    rw [ht]
    have hn : vecNorm [q.1, q.2.1, q.2.2] = Real.sqrt (kkR ⟨q.1, q.2.1, q.2.2⟩) := vecNorm_kkR ⟨q.1, q.2.1, q.2.2⟩
    simp only [hn, fin_mul_fin, mannTau_eq hy h0]
  obtain ⟨τ, τ', e1, e2, p1, h1, -⟩ := C90_slopes hy (half_pos hL) hlt
  rw [mannTau_eq hy (half_pos hL)] at e1
  rw [mannTau_eq hy h0] at e2
  have e1 : mannTau p.hyp (p.L / 2) = τ := by injection e1
  have e2 : mannTau p.hyp (p.L * Real.sqrt (kkR ⟨q.1, q.2.1, q.2.2⟩)) = τ' := by injection e2
  rw [hv, toReal_fin, e1, e2, abs_of_pos (by positivity)]
  gcongr

theorem net_far (p : OPSParams) {net : TauNet} (ht : p.ty = .taunet net) (hn : Spec.NetTame net) : p.LifetimeFar := by
  have hL := p.L_pos
  have hT := p.T_pos
  have hnd := NetTame.nondegenerate hn
  have main : ∃ X : ℝ, 0 ≤ X ∧ ∀ q : ℝ × ℝ × ℝ, q.1 ≠ 0 → 1 ≤ ‖q‖ → ∃ m, 0 < m ∧
      vecNorm (net.mlpForward ([q.1 * p.L, q.2.1 * p.L, q.2.2 * p.L].map fun t => |t|)) = m ∧
      m ^ (net.nu - 2 / 3) / (1 + m * m) ^ (net.nu / 2) ≤ X := by
    have hp : ∀ q : ℝ × ℝ × ℝ, q.1 ≠ 0 →
        0 < vecNorm (net.mlpForward ([q.1 * p.L, q.2.1 * p.L, q.2.2 * p.L].map fun t => |t|)) := by
      intro q hq
      have hne : ¬ (q.1 * p.L = 0 ∧ q.2.1 * p.L = 0 ∧ q.2.2 * p.L = 0) := by
        rintro ⟨h1, -, -⟩
        exact (mul_ne_zero hq hL.ne') h1
      exact lt_of_le_of_ne (vecNorm_nonneg _) (Ne.symm (hnd _ _ _ hne))
    rcases hn with ⟨hnu, -⟩ | ⟨hnu, c, hc, hlow⟩
    · exact ⟨1, one_pos.le, fun q hq _ => ⟨_, hp q hq, rfl, (rational_le (hp q hq)).1 hnu⟩⟩
    · refine ⟨1 + 1 / (c * p.L), by positivity, fun q hq h1 => ⟨_, hp q hq, rfl, ?_⟩⟩
      have h3 := hlow (q.1 * p.L) (q.2.1 * p.L) (q.2.2 * p.L)
      have h4 : vecNorm [q.1 * p.L, q.2.1 * p.L, q.2.2 * p.L] = p.L * Real.sqrt (kkR ⟨q.1, q.2.1, q.2.2⟩) := by
        rw [show vecNorm [q.1 * p.L, q.2.1 * p.L, q.2.2 * p.L] =
          Real.sqrt (kkR ⟨q.1 * p.L, q.2.1 * p.L, q.2.2 * p.L⟩) from vecNorm_kkR ⟨q.1 * p.L, q.2.1 * p.L, q.2.2 * p.L⟩]
        have : kkR ⟨q.1 * p.L, q.2.1 * p.L, q.2.2 * p.L⟩ = p.L ^ 2 * kkR ⟨q.1, q.2.1, q.2.2⟩ := by
          unfold kkR; ring
        rw [this, Real.sqrt_mul (by positivity), Real.sqrt_sq hL.le]
      rw [h4] at h3
      have hk : 1 ≤ Real.sqrt (kkR ⟨q.1, q.2.1, q.2.2⟩) := by
        refine h1.trans (norm3_le ?_ ?_ ?_) <;> refine Real.abs_le_sqrt ?_ <;> unfold kkR <;>
          nlinarith [mul_self_nonneg q.1, mul_self_nonneg q.2.1, mul_self_nonneg q.2.2]
      have hpq := hp q hq
      obtain ⟨m, hm⟩ : ∃ m, m = vecNorm (net.mlpForward ([q.1 * p.L, q.2.1 * p.L, q.2.2 * p.L].map fun t => |t|)) := ⟨_, rfl⟩
      rw [← hm] at h3 hpq ⊢
      have hcm : c * p.L ≤ m := by
        refine le_trans ?_ h3
        rw [← mul_assoc]
        exact le_mul_of_one_le_right (by positivity) hk
      have h5 := (rational_le hpq).2 hnu
      have h6 : (1 + m * m) ^ (1 / 6 : ℝ) ≤ 1 + m := by
        have y1 : 1 ≤ 1 + m * m := by nlinarith
        refine (Real.rpow_le_rpow_of_exponent_le y1 (by norm_num : (1 / 6 : ℝ) ≤ 1 / 2)).trans ?_
        rw [← Real.sqrt_eq_rpow]
        refine Real.sqrt_le_iff.2 ⟨by linarith, by nlinarith⟩
      have h7 : m ^ (net.nu - 2 / 3) / (1 + m * m) ^ (net.nu / 2) ≤ (1 + m) / m := by
        rw [le_div_iff₀ hpq]
        exact h5.trans h6
      refine h7.trans ?_
      rw [add_div, div_self hpq.ne', add_comm]
      gcongr
  obtain ⟨X, X0, hX⟩ := main
  refine ⟨p.T * X, by positivity, fun q hq h1 => ?_⟩
  obtain ⟨m, m0, em, hle⟩ := hX q hq h1
  have hv : eddyLifetime p.hyp p.ty p.L p.T ⟨q.1, q.2.1, q.2.2⟩ = fin (p.T * (0 + m ^ (net.nu - 2 / 3) / (1 + m * m) ^ (net.nu / 2))) := by
    unfold eddyLifetime
    rw [ht]
    have : net.forward [q.1 * p.L, q.2.1 * p.L, q.2.2 * p.L] =
        fin (m ^ (net.nu - 2 / 3) / (1 + m * m) ^ (net.nu / 2)) := by
      rw [← em] at m0 ⊢
      exact rational_pos _ m0
    simp only [this, fin_add_fin, fin_mul_fin]
  have q0 : 0 < 1 + m * m := by positivity
  rw [hv, toReal_fin, zero_add, abs_of_nonneg (by positivity)]
  gcongr

/-- Decay of the tensor of the fitter. -/
theorem tensor_far {L M : ℝ} (hL : 0 < L) (hM : 0 ≤ M) (p : OPSParams) (hp : p.LifetimeFar) : ∃ C : ℝ,
    ∀ q : ℝ × ℝ × ℝ, q.1 ≠ 0 → 1 ≤ ‖q‖ → ∀ i j,
      |shearedTensor (vkE L M) ![q.1, q.2.1, q.2.2] (eddyLifetime p.hyp p.ty p.L p.T ⟨q.1, q.2.1, q.2.2⟩).toReal i j| ≤
        C * (1 + kkR ⟨q.1, q.2.1, q.2.2⟩) ^ (-(11 / 6) : ℝ) := by
  obtain ⟨B, B0, hB⟩ := hp
  obtain ⟨C, -, hC⟩ := sheared_tail hL hM B0
  exact ⟨C, fun q hq hn i j => hC ⟨q.1, q.2.1, q.2.2⟩ _ hq (hB q hq hn) i j⟩

/-- **C134** Von Karman model: on fine grids in large boxes the correlations are those of the isotropic tensor. -/
theorem C134_vk {L T ε us z : ℝ} (hL : 0 < L) (hε : 0 < ε) (hu : us ≠ 0) (hz : 0 < z) :
    RefinedLimit (fun _ a => a.model = "VK" ∧ a.length = some L ∧ a.time = some T ∧ a.energy = some ε ∧ a.ustar = us ∧ a.zref = z)
      fun k1 k2 k3 i j => isoTensor (vkE L 1) ![k1, k2, k3] i j := by
  refine refined_of (C133_vk hL hε hu hz) ?_
  have hv : ∀ k1 k2 k3 : ℝ, k1 ≠ 0 → (K3.mk k1 k2 k3).vec ≠ 0 := fun k1 k2 k3 h h0 => h (by
    have := congrFun h0 0
    simpa [K3.vec] using this)
  obtain ⟨C, -, hC⟩ := sheared_tail hL zero_le_one (le_refl (0 : ℝ))
  refine finiteVariance_of (K := .vk L 1) (And.intro hL zero_le_one) one_pos (fun k1 k2 k3 h i j => ?_) (C132_vk hL zero_le_one).1
    (C := C) fun q hq _ i j => ?_
  · have := (C10_vk_kernel hL zero_le_one ⟨k1, k2, k3⟩).2.2 (hv k1 k2 k3 h)
    have h2 := congrFun (congrFun this i) j
    simp only [Matrix.map_apply] at h2
    exact h2
  · have := hC ⟨q.1, q.2.1, q.2.2⟩ 0 hq (by simp) i j
    rw [sheared_zero (k := ⟨q.1, q.2.1, q.2.2⟩) hq] at this
    exact this

/-- **C134** Mann model: on fine grids in large boxes the correlations are those of the tensor the fitter stands for. -/
theorem C134_mann (p : OPSParams) (hy : IsMannHyp p.hyp) (ht : p.ty = .mann) (hs : p.sp = .vkLike) {ε us z : ℝ} (hε : 0 < ε)
    (hu : us ≠ 0) (hz : 0 < z) :
    RefinedLimit (fun env a => env.hyp = p.hyp ∧ a.model = "Mann" ∧ a.length = some p.L ∧ a.time = some p.T ∧ a.energy = some ε ∧
      a.ustar = us ∧ a.zref = z) (Spec.fitTensor p) := by
  refine refined_of (C133_mann p hy ht hs hε hu hz) ?_
  have Mp : 0 < p.M := Real.exp_pos _
  have hh : ∀ x < 0, 0 < p.hyp x := fun x hx => IsHyp2F1.mann_hyp_pos hy hx.le
  have hK : (GenKernel.mann p.hyp p.L p.M p.T).Valid := ⟨p.L_pos, Mp.le, hh⟩
  have hfit : ∀ k1 k2 k3 i j, Spec.fitTensor p k1 k2 k3 i j = shearedTensor (vkE p.L p.M) ![k1, k2, k3]
      (eddyLifetime p.hyp p.ty p.L p.T ⟨k1, k2, k3⟩).toReal i j := by
    intro k1 k2 k3 i j
    unfold Spec.fitTensor
    rw [hs]
    rfl
  obtain ⟨C, hC⟩ := tensor_far p.L_pos Mp.le p (mann_far p hy ht)
  obtain ⟨b, -, eb, -⟩ := mann_tame p hy ht
  refine finiteVariance_of hK Mp (fun k1 k2 k3 h i j => ?_) (C132_mann p hy ht hs).1 (C := C) fun q hq hn i j => ?_
  · have hb' := eb (k1, k2, k3) h
    simp only at hb'
    have hv : (K3.mk k1 k2 k3).vec ≠ 0 := fun h0 => h (by
      have := congrFun h0 0
      simpa [K3.vec] using this)
    have he : (GenKernel.mann p.hyp p.L p.M p.T).eval ⟨k1, k2, k3⟩ = shearKernel p.L p.M ⟨k1, k2, k3⟩
        (eddyLifetime p.hyp p.ty p.L p.T ⟨k1, k2, k3⟩) := by
      rw [ht, ← C03_mann_lifetime_agrees p.hyp p.L_pos p.T hv]
      rfl
    rw [he, hfit, hb', toReal_fin]
    have := congrFun (congrFun (C14_kernel_square p.L_pos Mp.le (k := ⟨k1, k2, k3⟩) h (b (k1, k2, k3))) i) j
    simp only [Matrix.map_apply] at this
    exact this
  · rw [hfit]
    exact hC q hq hn i j

/-- **C134** Trained model: on fine grids in large boxes the correlations are those of the sheared von Karman tensor with
length scale `L h_ref` at the lifetime `Gamma * tauNet(h_ref k)`. -/
theorem C134_nn (net : TauNet) (hn : Spec.NetTame net) (ha : net.ContActs) (ops : OPS) (hops : ops.kind = .taunet net) {us z : ℝ}
    (hu : us ≠ 0) (hz : 0 < z) (hyp : ℝ → ℝ) :
    RefinedLimit (fun env a => a.model = "DRD" ∧ (∃ f, a.path = some f ∧ loadModel env.hyp env.netSeed env.netNoise f env.fs = .ok ops) ∧
        a.ustar = us ∧ a.zref = z)
      fun k1 k2 k3 i j => shearedTensor (vkE (Real.exp ops.logL * z) 1) ![k1, k2, k3]
        (eddyLifetime hyp (.taunet net) z (Real.exp ops.logT) ⟨k1, k2, k3⟩).toReal i j := by
  refine refined_of (C133_nn net hn ha ops hops hu hz hyp) ?_
  obtain ⟨L, hL⟩ : ∃ L, L = Real.exp ops.logL * z := ⟨_, rfl⟩
  obtain ⟨Γ, hΓ⟩ : ∃ Γ, Γ = Real.exp ops.logT := ⟨_, rfl⟩
  have Lp : 0 < L := by rw [hL]; positivity
  have Γp : 0 < Γ := by rw [hΓ]; positivity
  rw [← hL, ← hΓ]
  obtain ⟨p, ep⟩ : ∃ p : OPSParams, p = ⟨hyp, .taunet net, .vkLike, Real.log z, Real.log Γ, 0⟩ := ⟨_, rfl⟩
  have e1 : p.L = z := by rw [ep]; exact Real.exp_log hz
  have e2 : p.T = Γ := by rw [ep]; exact Real.exp_log Γp
  have e3 : p.hyp = hyp := by rw [ep]
  have e4 : p.ty = .taunet net := by rw [ep]
  have hnd := NetTame.nondegenerate hn
  have hK : (GenKernel.nn net L 1 Γ z).Valid := ⟨Lp, zero_le_one, hnd, hz.ne'⟩
  obtain ⟨C, hC⟩ := tensor_far Lp zero_le_one p (net_far p e4 hn)
  rw [e1, e2, e3, e4] at hC
  obtain ⟨b, -, eb, -⟩ := net_tame p e4 ha hn
  refine finiteVariance_of hK one_pos (fun k1 k2 k3 h i j => ?_) (C132_nn net hn ha Lp zero_le_one Γp hz hyp).1 hC
  have hv : (K3.mk k1 k2 k3).vec ≠ 0 := fun h0 => h (by
    have := congrFun h0 0
    simpa [K3.vec] using this)
  have he : (GenKernel.nn net L 1 Γ z).eval ⟨k1, k2, k3⟩ = shearKernel L 1 ⟨k1, k2, k3⟩ (eddyLifetime hyp (.taunet net) z Γ ⟨k1, k2, k3⟩) := by
    have := C16_missing_length_scale hyp net hz.ne' Γ z hv
    rw [div_self hz.ne'] at this
    have ek : (K3.mk k1 k2 k3).smul 1 = ⟨k1, k2, k3⟩ := by simp [K3.smul]
    rw [ek] at this
    rw [← this]
    rfl
  have hb' := eb (k1, k2, k3) h
  simp only at hb'
  rw [e1, e2, e3, e4] at hb'
  rw [he, hb', toReal_fin]
  have := congrFun (congrFun (C14_kernel_square Lp zero_le_one (k := ⟨k1, k2, k3⟩) h (b (k1, k2, k3))) i) j
  simp only [Matrix.map_apply] at this
  exact this

/-! ### What the limit says -/

/-- **C134** At one point the variances of the three components have mean one. -/
theorem C134_variances {Φ : ℝ → ℝ → ℝ → Fin 3 → Fin 3 → ℝ} (hΦ : FiniteVariance Φ) : ∑ i, fullCorrelation Φ (0, 0, 0) i i = 3 := by
  obtain ⟨hI, hpos⟩ := hΦ
  obtain ⟨t, ht⟩ : ∃ t, t = ∫ k : ℝ × ℝ × ℝ, ∑ i, Φ k.1 k.2.1 k.2.2 i i := ⟨_, rfl⟩
  rw [← ht] at hpos
  have e : ∀ i, fullCorrelation Φ (0, 0, 0) i i = ((∫ k : ℝ × ℝ × ℝ, Φ k.1 k.2.1 k.2.2 i i : ℝ) : ℂ) / ((1 / 3 * t : ℝ) : ℂ) := by
    intro i
    unfold fullCorrelation
    rw [← ht, ← integral_complex_ofReal]
    congr 1
    refine integral_congr_ae (Eventually.of_forall fun k => ?_)
    simp
  simp_rw [e]
  rw [← Finset.sum_div, ← Complex.ofReal_sum, ← integral_finset_sum _ fun i _ => hI i i, ← ht]
  have : (t : ℂ) ≠ 0 := by exact_mod_cast hpos.ne'
  push_cast
  field_simp

/-- **C134** The correlations tend to zero with the displacement. -/
theorem C134_decay (Φ : ℝ → ℝ → ℝ → Fin 3 → Fin 3 → ℝ) (i j : Fin 3) {e : ℝ} (he : 0 < e) :
    ∃ ρ : ℝ, ∀ x : ℝ × ℝ × ℝ, ρ ≤ ‖x‖ → ‖fullCorrelation Φ x i j‖ ≤ e := by
  have hpi := Real.pi_pos
  haveI i2 : (volume : Measure (ℝ × ℝ)).IsAddHaarMeasure := Measure.prod.instIsAddHaarMeasure volume volume
  haveI i3 : (volume : Measure (ℝ × ℝ × ℝ)).IsAddHaarMeasure :=
    Measure.prod.instIsAddHaarMeasure (volume : Measure ℝ) (volume : Measure (ℝ × ℝ))
  obtain ⟨v, hv⟩ : ∃ v, v = 1 / 3 * ∫ k : ℝ × ℝ × ℝ, ∑ i, Φ k.1 k.2.1 k.2.2 i i := ⟨_, rfl⟩
  by_cases v0 : v = 0
  · refine ⟨0, fun x _ => ?_⟩
    unfold fullCorrelation
    rw [← hv, v0]
    simp [he.le]
  have va : 0 < |v| := abs_pos.2 v0
  obtain ⟨f, hf⟩ : ∃ f : ℝ × ℝ × ℝ → ℂ, f = fun k => ((Φ k.1 k.2.1 k.2.2 i j : ℝ) : ℂ) := ⟨_, rfl⟩
  have hl := tendsto_integral_exp_smul_cocompact f (volume : Measure (ℝ × ℝ × ℝ))
  rw [Metric.tendsto_nhds] at hl
  have hev := hl (e * |v|) (by positivity)
  rw [← Metric.cobounded_eq_cocompact, (Metric.hasBasis_cobounded_compl_closedBall 0).eventually_iff] at hev
  obtain ⟨s, -, hs⟩ := hev
  refine ⟨2 * Real.pi * (|s| + 1), fun x hx => ?_⟩
  obtain ⟨w, hw⟩ : ∃ w : StrongDual ℝ (ℝ × ℝ × ℝ), w =
      (-(x.1 / (2 * Real.pi))) • ContinuousLinearMap.fst ℝ ℝ (ℝ × ℝ) +
      (-(x.2.1 / (2 * Real.pi))) • (ContinuousLinearMap.fst ℝ ℝ ℝ).comp (ContinuousLinearMap.snd ℝ ℝ (ℝ × ℝ)) +
      (-(x.2.2 / (2 * Real.pi))) • (ContinuousLinearMap.snd ℝ ℝ ℝ).comp (ContinuousLinearMap.snd ℝ ℝ (ℝ × ℝ)) :=
    ⟨_, rfl⟩
  have ew : ∀ k : ℝ × ℝ × ℝ, w k = -((k.1 * x.1 + k.2.1 * x.2.1 + k.2.2 * x.2.2) / (2 * Real.pi)) := by
    intro k
    rw [hw]
    simp only [ContinuousLinearMap.add_apply, ContinuousLinearMap.smul_apply, ContinuousLinearMap.comp_apply,
      ContinuousLinearMap.coe_fst', ContinuousLinearMap.coe_snd', smul_eq_mul]
    ring
  have hunit : ∀ k : ℝ × ℝ × ℝ, ‖k‖ = 1 → |w k| ≤ ‖w‖ := by
    intro k hk
    have := w.le_opNorm k
    rwa [hk, mul_one, Real.norm_eq_abs] at this
  have hd : ∀ t : ℝ, |-(t / (2 * Real.pi))| = |t| / (2 * Real.pi) := fun t => by
    rw [abs_neg, abs_div, abs_of_pos (by positivity : 0 < 2 * Real.pi)]
  have hwn : ‖x‖ ≤ 2 * Real.pi * ‖w‖ := by
    refine norm3_le ?_ ?_ ?_
    · have := hunit (1, 0, 0) (by simp [Prod.norm_def])
      rw [ew, hd, div_le_iff₀ (by positivity)] at this
      simpa [mul_comm] using this
    · have := hunit (0, 1, 0) (by simp [Prod.norm_def])
      rw [ew, hd, div_le_iff₀ (by positivity)] at this
      simpa [mul_comm] using this
    · have := hunit (0, 0, 1) (by simp [Prod.norm_def])
      rw [ew, hd, div_le_iff₀ (by positivity)] at this
      simpa [mul_comm] using this
  have hbig : s < ‖w‖ := by
    have h1 : 2 * Real.pi * (|s| + 1) ≤ 2 * Real.pi * ‖w‖ := hx.trans hwn
    have h2 : |s| + 1 ≤ ‖w‖ := le_of_mul_le_mul_left h1 (by positivity)
    linarith [le_abs_self s]
  have h := hs (show w ∈ (Metric.closedBall (0 : StrongDual ℝ (ℝ × ℝ × ℝ)) s)ᶜ by
    rw [Set.mem_compl_iff, mem_closedBall_zero_iff]
    linarith)
  rw [dist_zero_right] at h
  have e1 : fullCorrelation Φ x i j = (∫ k, Real.fourierChar (-w k) • f k) / (v : ℂ) := by
    unfold fullCorrelation
    rw [hv]
    congr 1
    refine integral_congr_ae (Eventually.of_forall fun k => ?_)
    beta_reduce
    rw [hf, Circle.smul_def, Real.fourierChar_apply, ew, smul_eq_mul, mul_comm]
    congr 2
    have : ((2 * Real.pi * - -((k.1 * x.1 + k.2.1 * x.2.1 + k.2.2 * x.2.2) / (2 * Real.pi)) : ℝ)) =
        k.1 * x.1 + k.2.1 * x.2.1 + k.2.2 * x.2.2 := by
      field_simp
    rw [this, mul_comm]
  rw [e1, norm_div, Complex.norm_real, Real.norm_eq_abs, div_le_iff₀ va]
  exact h.le

/-- Image of a displacement under a matrix. -/
def Spec.turned (M : Matrix (Fin 3) (Fin 3) ℝ) (x : ℝ × ℝ × ℝ) : ℝ × ℝ × ℝ :=
  ((M.mulVec ![x.1, x.2.1, x.2.2]) 0, (M.mulVec ![x.1, x.2.1, x.2.2]) 1, (M.mulVec ![x.1, x.2.1, x.2.2]) 2)

theorem turn_integral {M : Matrix (Fin 3) (Fin 3) ℝ} (hM : M * M.transpose = 1) (f : ℝ × ℝ × ℝ → ℂ) :
    ∫ k, f (turned M k) = ∫ k, f k := by
  haveI i2 : (volume : Measure (ℝ × ℝ)).IsAddHaarMeasure := Measure.prod.instIsAddHaarMeasure volume volume
  haveI i3 : (volume : Measure (ℝ × ℝ × ℝ)).IsAddHaarMeasure :=
    Measure.prod.instIsAddHaarMeasure (volume : Measure ℝ) (volume : Measure (ℝ × ℝ))
  obtain ⟨φ, hφ⟩ : ∃ φ : (Fin 3 → ℝ) ≃ₗ[ℝ] (ℝ × ℝ × ℝ), (∀ v, φ v = (v 0, v 1, v 2)) ∧
      ∀ x, φ.symm x = ![x.1, x.2.1, x.2.2] :=
    ⟨{ toFun := fun v => (v 0, v 1, v 2)
       invFun := fun x => ![x.1, x.2.1, x.2.2]
       map_add' := fun _ _ => rfl
       map_smul' := fun _ _ => rfl
       left_inv := fun v => by
         ext i
         fin_cases i <;> rfl
       right_inv := fun x => rfl }, fun _ => rfl, fun _ => rfl⟩
  obtain ⟨T, hT⟩ : ∃ T : (ℝ × ℝ × ℝ) →ₗ[ℝ] (ℝ × ℝ × ℝ), T = (φ : (Fin 3 → ℝ) →ₗ[ℝ] (ℝ × ℝ × ℝ)) ∘ₗ Matrix.toLin' M ∘ₗ
      (φ.symm : (ℝ × ℝ × ℝ) →ₗ[ℝ] (Fin 3 → ℝ)) := ⟨_, rfl⟩
  have hdet : LinearMap.det T = M.det := by rw [hT, LinearMap.det_conj, LinearMap.det_toLin']
  have hone : M.det * M.det = 1 := by
    have := congrArg Matrix.det hM
    rwa [Matrix.det_mul, Matrix.det_transpose, Matrix.det_one] at this
  have hd0 : M.det ≠ 0 := fun h => by
    rw [h] at hone
    simp at hone
  have hab : |M.det⁻¹| = 1 := by
    have : |M.det| * |M.det| = 1 := by rw [← abs_mul, hone, abs_one]
    rw [abs_inv]
    have h2 : |M.det| = 1 := by nlinarith [abs_nonneg M.det]
    rw [h2, inv_one]
  have hTt : ∀ k, T k = turned M k := by
    intro k
    rw [hT]
    simp only [LinearMap.comp_apply, LinearEquiv.coe_coe, Matrix.toLin'_apply, hφ.1, hφ.2]
    rfl
  have hmap := Measure.map_linearMap_addHaar_eq_smul_addHaar (volume : Measure (ℝ × ℝ × ℝ)) (f := T) (by rw [hdet]; exact hd0)
  rw [hdet, hab, ENNReal.ofReal_one, one_smul] at hmap
  have hinj : Function.Injective T := by
    have h1 : M.transpose * M = 1 := mul_eq_one_comm.1 hM
    intro a b hab'
    have hL : ∀ u v : Fin 3 → ℝ, M.mulVec u = M.mulVec v → u = v := by
      intro u v huv
      have := congrArg M.transpose.mulVec huv
      simpa only [Matrix.mulVec_mulVec, h1, Matrix.one_mulVec] using this
    rw [hT] at hab'
    simp only [LinearMap.comp_apply, LinearEquiv.coe_coe, Matrix.toLin'_apply] at hab'
    exact φ.symm.injective (hL _ _ (φ.injective hab'))
  have hemb : MeasurableEmbedding T :=
    (LinearMap.continuous_of_finiteDimensional T).measurableEmbedding hinj
  calc ∫ k, f (turned M k) = ∫ k, f (T k) := by simp_rw [hTt]
    _ = ∫ k, f k ∂(Measure.map T volume) := (hemb.integral_map f).symm
    _ = _ := by rw [hmap]

theorem sq3_turn {M : Matrix (Fin 3) (Fin 3) ℝ} (hM : M * M.transpose = 1) (v : Fin 3 → ℝ) : sq3 (M.mulVec v) = sq3 v := by
  have h1 : M.transpose * M = 1 := mul_eq_one_comm.1 hM
  have e : ∀ u : Fin 3 → ℝ, sq3 u = u ⬝ᵥ u := fun u => by
    unfold sq3
    simp [dotProduct, Fin.sum_univ_three]
    ring
  rw [e, e, Matrix.dotProduct_mulVec, Matrix.vecMul_mulVec, h1]
  simp

theorem isoTensor_turn {M : Matrix (Fin 3) (Fin 3) ℝ} (hM : M * M.transpose = 1) (E : ℝ → ℝ) (v : Fin 3 → ℝ) :
    isoTensor E (M.mulVec v) = M * isoTensor E v * M.transpose := by
  have hv : ∀ u : Fin 3 → ℝ, isoTensor E u = (E (Real.sqrt (sq3 u)) / (4 * Real.pi * sq3 u)) •
      ((1 : Matrix (Fin 3) (Fin 3) ℝ) - (sq3 u)⁻¹ • Matrix.vecMulVec u u) := by
    intro u
    ext i j
    simp only [isoTensor, Matrix.smul_apply, Matrix.sub_apply, Matrix.one_apply, Matrix.vecMulVec_apply, smul_eq_mul]
    rw [inv_mul_eq_div]
  rw [hv, hv, sq3_turn hM, Matrix.mul_smul, Matrix.smul_mul, Matrix.mul_sub, Matrix.sub_mul, Matrix.mul_one, hM, Matrix.mul_smul,
    Matrix.smul_mul]
  congr 3
  rw [Matrix.mul_vecMulVec, Matrix.vecMulVec_mul, Matrix.vecMul_transpose]

/-- **C134** Isotropy: the correlations of isotropic turbulence at a displacement that is turned or reflected are those at the
displacement, with both components turned. -/
theorem C134_isotropic {M : Matrix (Fin 3) (Fin 3) ℝ} (hM : M * M.transpose = 1) (E : ℝ → ℝ)
    (hΦ : FiniteVariance fun k1 k2 k3 i j => isoTensor E ![k1, k2, k3] i j) (x : ℝ × ℝ × ℝ) (i j : Fin 3) :
    fullCorrelation (fun k1 k2 k3 i j => isoTensor E ![k1, k2, k3] i j) (turned M x) i j =
      ∑ a, ∑ b, ((M i a * M j b : ℝ) : ℂ) * fullCorrelation (fun k1 k2 k3 i j => isoTensor E ![k1, k2, k3] i j) x a b := by
  have hvec : ∀ k : ℝ × ℝ × ℝ, ![(turned M k).1, (turned M k).2.1, (turned M k).2.2] = M.mulVec ![k.1, k.2.1, k.2.2] := by
    intro k
    ext i
    fin_cases i <;> rfl
  have h1 : M.transpose * M = 1 := mul_eq_one_comm.1 hM
  have hdot : ∀ k : ℝ × ℝ × ℝ, (turned M k).1 * (turned M x).1 + (turned M k).2.1 * (turned M x).2.1 + (turned M k).2.2 * (turned M x).2.2 =
      k.1 * x.1 + k.2.1 * x.2.1 + k.2.2 * x.2.2 := by
    intro k
    have : (M.mulVec ![k.1, k.2.1, k.2.2]) ⬝ᵥ (M.mulVec ![x.1, x.2.1, x.2.2]) = ![k.1, k.2.1, k.2.2] ⬝ᵥ ![x.1, x.2.1, x.2.2] := by
      rw [Matrix.dotProduct_mulVec, Matrix.vecMul_mulVec, h1]
      simp
    simp only [dotProduct, Fin.sum_univ_three, Matrix.cons_val_zero, Matrix.cons_val_one, Matrix.cons_val_two, Matrix.head_cons,
      Matrix.tail_cons] at this
    exact this
  have hexp : ∀ t : ℝ, ‖Complex.exp (Complex.I * (t : ℂ))‖ = 1 := fun t => by
    rw [mul_comm]
    exact Complex.norm_exp_ofReal_mul_I t
  have hint : ∀ a b, Integrable fun k : ℝ × ℝ × ℝ => ((isoTensor E ![k.1, k.2.1, k.2.2] a b : ℝ) : ℂ) *
      Complex.exp (Complex.I * ((k.1 * x.1 + k.2.1 * x.2.1 + k.2.2 * x.2.2 : ℝ) : ℂ)) := by
    intro a b
    refine (hΦ.1 a b).ofReal.mul_bdd (c := 1) ?_ (Eventually.of_forall fun k => (hexp _).le)
    exact Continuous.aestronglyMeasurable (by fun_prop)
  unfold fullCorrelation
  rw [← turn_integral hM]
  simp_rw [hvec, hdot, isoTensor_turn hM]
  have e1 : ∀ k : ℝ × ℝ × ℝ, (((M * isoTensor E ![k.1, k.2.1, k.2.2] * M.transpose) i j : ℝ) : ℂ) *
      Complex.exp (Complex.I * ((k.1 * x.1 + k.2.1 * x.2.1 + k.2.2 * x.2.2 : ℝ) : ℂ)) =
      ∑ a, ∑ b, ((M i a * M j b : ℝ) : ℂ) * (((isoTensor E ![k.1, k.2.1, k.2.2] a b : ℝ) : ℂ) *
      Complex.exp (Complex.I * ((k.1 * x.1 + k.2.1 * x.2.1 + k.2.2 * x.2.2 : ℝ) : ℂ))) := by
    intro k
    simp only [Matrix.mul_apply, Matrix.transpose_apply, Fin.sum_univ_three]
    push_cast
    ring
  simp_rw [e1]
  rw [integral_finset_sum _ fun a _ => integrable_finset_sum _ fun b _ => (hint a b).const_mul _]
  simp_rw [integral_finset_sum _ fun b _ => (hint _ b).const_mul _, integral_const_mul]
  rw [Finset.sum_div]
  refine Finset.sum_congr rfl fun a _ => ?_
  rw [Finset.sum_div]
  refine Finset.sum_congr rfl fun b _ => ?_
  rw [mul_div_assoc]

/-- **C134** So at one point the three components of isotropic turbulence are uncorrelated with unit variance. -/
theorem C134_isotropic_point (E : ℝ → ℝ) (hΦ : FiniteVariance fun k1 k2 k3 i j => isoTensor E ![k1, k2, k3] i j) (i j : Fin 3) :
    fullCorrelation (fun k1 k2 k3 i j => isoTensor E ![k1, k2, k3] i j) (0, 0, 0) i j = if i = j then 1 else 0 := by
  obtain ⟨R, hR⟩ : ∃ R, R = fullCorrelation (fun k1 k2 k3 i j => isoTensor E ![k1, k2, k3] i j) (0, 0, 0) := ⟨_, rfl⟩
  have htr := C134_variances hΦ
  have h0 : ∀ M : Matrix (Fin 3) (Fin 3) ℝ, turned M (0, 0, 0) = (0, 0, 0) := by
    intro M
    have : (![(0, 0, 0).1, ((0, 0, 0) : ℝ × ℝ × ℝ).2.1, ((0, 0, 0) : ℝ × ℝ × ℝ).2.2] : Fin 3 → ℝ) = 0 := by
      ext i
      fin_cases i <;> rfl
    simp [turned, Matrix.mulVec, dotProduct, Fin.sum_univ_three]
  have hinv : ∀ M : Matrix (Fin 3) (Fin 3) ℝ, M * M.transpose = 1 → ∀ i j, R i j = ∑ a, ∑ b, ((M i a * M j b : ℝ) : ℂ) * R a b := by
    intro M hM i j
    have := C134_isotropic hM E hΦ (0, 0, 0) i j
    rwa [h0, ← hR] at this
  rw [← hR] at htr ⊢
  have m1 : (!![-1, 0, 0; 0, 1, 0; 0, 0, 1] : Matrix (Fin 3) (Fin 3) ℝ) * (!![-1, 0, 0; 0, 1, 0; 0, 0, 1]).transpose = 1 := by
    ext i j
    fin_cases i <;> fin_cases j <;> simp [Matrix.mul_apply, Fin.sum_univ_three]
  have m2 : (!![1, 0, 0; 0, -1, 0; 0, 0, 1] : Matrix (Fin 3) (Fin 3) ℝ) * (!![1, 0, 0; 0, -1, 0; 0, 0, 1]).transpose = 1 := by
    ext i j
    fin_cases i <;> fin_cases j <;> simp [Matrix.mul_apply, Fin.sum_univ_three]
  have m3 : (!![0, 1, 0; 0, 0, 1; 1, 0, 0] : Matrix (Fin 3) (Fin 3) ℝ) * (!![0, 1, 0; 0, 0, 1; 1, 0, 0]).transpose = 1 := by
    ext i j
    fin_cases i <;> fin_cases j <;> simp [Matrix.mul_apply, Fin.sum_univ_three]
  have half : ∀ z : ℂ, z = -z → z = 0 := fun z h => by
    linear_combination h / 2
  have a01 : R 0 1 = 0 := half _ (by simpa [Fin.sum_univ_three] using hinv _ m1 0 1)
  have a02 : R 0 2 = 0 := half _ (by simpa [Fin.sum_univ_three] using hinv _ m1 0 2)
  have a10 : R 1 0 = 0 := half _ (by simpa [Fin.sum_univ_three] using hinv _ m1 1 0)
  have a20 : R 2 0 = 0 := half _ (by simpa [Fin.sum_univ_three] using hinv _ m1 2 0)
  have a12 : R 1 2 = 0 := half _ (by simpa [Fin.sum_univ_three] using hinv _ m2 1 2)
  have a21 : R 2 1 = 0 := half _ (by simpa [Fin.sum_univ_three] using hinv _ m2 2 1)
  have c0 : R 0 0 = R 1 1 := by simpa [Fin.sum_univ_three] using hinv _ m3 0 0
  have c1 : R 1 1 = R 2 2 := by simpa [Fin.sum_univ_three] using hinv _ m3 1 1
  rw [Fin.sum_univ_three] at htr
  have d0 : R 0 0 = 1 := by linear_combination htr / 3 + c0 / 3 + (c0 + c1) / 3
  have d1 : R 1 1 = 1 := by rw [← c0, d0]
  have d2 : R 2 2 = 1 := by rw [← c1, d1]
  fin_cases i <;> fin_cases j <;> simp [a01, a02, a10, a20, a12, a21, d0, d1, d2]

/-- **C134** Similarity: the correlations of the von Karman model are a function of the displacement relative to the length
scale. -/
theorem C134_similarity {L : ℝ} (hL : 0 < L) (x : ℝ × ℝ × ℝ) (i j : Fin 3) :
    fullCorrelation (fun k1 k2 k3 i j => isoTensor (vkE L 1) ![k1, k2, k3] i j) x i j =
      fullCorrelation (fun k1 k2 k3 i j => isoTensor (vkE 1 1) ![k1, k2, k3] i j) (x.1 / L, x.2.1 / L, x.2.2 / L) i j := by
  haveI i2 : (volume : Measure (ℝ × ℝ)).IsAddHaarMeasure := Measure.prod.instIsAddHaarMeasure volume volume
  haveI i3 : (volume : Measure (ℝ × ℝ × ℝ)).IsAddHaarMeasure :=
    Measure.prod.instIsAddHaarMeasure (volume : Measure ℝ) (volume : Measure (ℝ × ℝ))
  have hE : ∀ κ, 0 ≤ κ → vkE L 1 κ = L ^ (5 / 3 : ℝ) * vkE 1 1 (L * κ) := by
    intro κ hκ
    unfold vkE
    rw [Real.mul_rpow hL.le hκ, mul_one, mul_comm κ L]
    have : L ^ (5 / 3 : ℝ) * L ^ (-5 / 3 : ℝ) = 1 := by
      rw [← Real.rpow_add hL]
      norm_num
    linear_combination (-(κ ^ (-5 / 3 : ℝ) * (L * κ / Real.sqrt (1 + (L * κ) ^ 2)) ^ (17 / 3 : ℝ))) * this
  obtain ⟨C, hC⟩ : ∃ C, C = L ^ (5 / 3 : ℝ) * L ^ 2 := ⟨_, rfl⟩
  have C0 : 0 < C := by rw [hC]; positivity
  have ht : ∀ (k : ℝ × ℝ × ℝ) (i j : Fin 3), isoTensor (vkE L 1) ![k.1, k.2.1, k.2.2] i j =
      C * isoTensor (vkE 1 1) ![(L • k).1, (L • k).2.1, (L • k).2.2] i j := by
    intro k i j
    rw [isoTensor_scale hL hE, hC]
    congr 2
    ext m
    fin_cases m <;> rfl
  have hd : ∀ k : ℝ × ℝ × ℝ, k.1 * x.1 + k.2.1 * x.2.1 + k.2.2 * x.2.2 =
      (L • k).1 * (x.1 / L) + (L • k).2.1 * (x.2.1 / L) + (L • k).2.2 * (x.2.2 / L) := by
    intro k
    simp only [Prod.smul_fst, Prod.smul_snd, smul_eq_mul]
    field_simp
  unfold fullCorrelation
  simp only [ht, hd]
  simp only [Complex.ofReal_mul C, ← Finset.mul_sum, mul_assoc]
  rw [integral_const_mul, integral_const_mul]
  have s1 := Measure.integral_comp_smul (volume : Measure (ℝ × ℝ × ℝ)) (fun k : ℝ × ℝ × ℝ => ((isoTensor (vkE 1 1) ![k.1, k.2.1, k.2.2] i j : ℝ) : ℂ) *
      Complex.exp (Complex.I * ((k.1 * (x.1 / L) + k.2.1 * (x.2.1 / L) + k.2.2 * (x.2.2 / L) : ℝ) : ℂ))) L
  have s2 := Measure.integral_comp_smul (volume : Measure (ℝ × ℝ × ℝ)) (fun k : ℝ × ℝ × ℝ => ∑ i, isoTensor (vkE 1 1) ![k.1, k.2.1, k.2.2] i i) L
  rw [s1, s2]
  obtain ⟨w, hw⟩ : ∃ w, w = |(L ^ Module.finrank ℝ (ℝ × ℝ × ℝ))⁻¹| := ⟨_, rfl⟩
  have w0 : (w : ℂ) ≠ 0 := by
    have : 0 < w := by rw [hw]; positivity
    exact_mod_cast this.ne'
  have C0' : (C : ℂ) ≠ 0 := by exact_mod_cast C0.ne'
  rw [← hw]
  simp only [Complex.real_smul, smul_eq_mul, Complex.ofReal_mul]
  rw [mul_left_comm ((1 / 3 : ℝ) : ℂ), mul_div_mul_left _ _ C0', mul_left_comm ((1 / 3 : ℝ) : ℂ), mul_div_mul_left _ _ w0]

/-- Spacings and displacements in cells that the limit is about: for every displacement in space and spacing there is a
displacement in whole cells that is closer than a cell. -/
example (x : ℝ) {h : ℝ} (hh : 0 < h) : ∃ r : ℤ, |h * r - x| < h := by
  refine ⟨⌊x / h⌋, ?_⟩
  have h1 := Int.floor_le (x / h)
  have h2 := Int.lt_floor_add_one (x / h)
  rw [le_div_iff₀ hh] at h1
  rw [div_lt_iff₀ hh] at h2
  rw [abs_lt]
  constructor <;> linarith

/-- A turn and a tensor of finite variance. -/
example : (!![0, 1, 0; 0, 0, 1; 1, 0, 0] : Matrix (Fin 3) (Fin 3) ℝ) * (!![0, 1, 0; 0, 0, 1; 1, 0, 0]).transpose = 1 ∧
    FiniteVariance fun k1 k2 k3 i j => isoTensor (vkE 50 1) ![k1, k2, k3] i j := by
  refine ⟨?_, (C134_vk (L := 50) (T := 1) (ε := 1) (us := 1) (z := 1) (by norm_num) one_pos one_ne_zero one_pos).1⟩
  ext i j
  fin_cases i <;> fin_cases j <;> simp [Matrix.mul_apply, Fin.sum_univ_three]

end
end Verif
