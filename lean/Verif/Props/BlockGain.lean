import Verif.Lemmas.GaussianQuad
import Verif.Props.FieldCovarianceLimit
import Verif.Props.GaussianLaw
import Verif.Props.FieldDivergence

/-!
# The gain of normalised blocks in large boxes: C133
-/

namespace Verif
open Fl MeasureTheory ProbabilityTheory Verif.Spec Filter Topology

noncomputable section

/-- Independent normal noise with the variance of the code's noise on a grid with cell volume `v`. -/
def Spec.NormalNoise {n1 n2 n3 : ℕ} {Ω : Type} [MeasurableSpace Ω] (μ : Measure Ω) (v : ℝ) (ξ : Box n1 n2 n3 → Fin 3 → Ω → ℝ) : Prop :=
  (∀ x l, Measurable (ξ x l)) ∧ iIndepFun (fun w : Box n1 n2 n3 × Fin 3 => ξ w.1 w.2) μ ∧
    ∀ x l, μ.map (ξ x l) = gaussianReal 0 v.toNNReal

/-- Mean square of a component of the field with spectral tensor `Φ`, averaged over the three components: a third of the
cell volume over `(2 pi)^3` times the integral of the trace of `Φ` over the resolved wavevectors. -/
def Spec.bandVariance (h1 h2 h3 : ℝ) (Φ : ℝ → ℝ → ℝ → Fin 3 → Fin 3 → ℝ) : ℝ :=
  1 / 3 * (h1 * h2 * h3 / (2 * Real.pi) ^ 3 *
    ∫ k in Set.Ico (-(Real.pi / h1)) (Real.pi / h1) ×ˢ Set.Ico (-(Real.pi / h2)) (Real.pi / h2) ×ˢ
      Set.Ico (-(Real.pi / h3)) (Real.pi / h3), ∑ i, Φ k.1 k.2.1 k.2.2 i i)

/-- In large boxes the mean square of the field over a window is close to that of the spectral tensor: for spacings
`h1, h2, h3`, every bound on the length of the box relative to its width and height, every fraction `ρ` and every tolerance
and probability, all boxes with enough points, all normal noises and all windows with at least the fraction `ρ` of the points. -/
def Spec.MeanSquareLimit (K : GenKernel) (Φ : ℝ → ℝ → ℝ → Fin 3 → Fin 3 → ℝ) : Prop :=
  ∀ h1 h2 h3 c ρ e δ : ℝ, 0 < h1 → 0 < h2 → 0 < h3 → 0 < ρ → 0 < e → 0 < δ → ∃ N : ℕ,
    ∀ (n1 n2 n3 : ℕ) [NeZero n1] [NeZero n2] [NeZero n3], N ≤ n1 → N ≤ n2 → N ≤ n3 →
    h1 * n1 ≤ c * (h2 * n2) → h1 * n1 ≤ c * (h3 * n3) →
    ∀ (Ω : Type) [MeasurableSpace Ω] (μ : Measure Ω) [IsProbabilityMeasure μ] (ξ : Box n1 n2 n3 → Fin 3 → Ω → ℝ),
      NormalNoise μ (h1 * h2 * h3) ξ →
    ∀ W : Finset (Box n1 n2 n3), ρ * (n1 * n2 * n3) ≤ W.card →
      μ.real {ω | e ≤ |(∑ x ∈ W, ∑ i,
        vfSample (spectrumOf K.eval (h1 * n1) (h2 * n2) (h3 * n3)) (transformNorm (h1 * n1) (h2 * n2) (h3 * n3))
          (fun z l => ξ z l ω) x i ^ 2) / (3 * W.card) - bandVariance h1 h2 h3 Φ|} ≤ δ

section
variable {n1 n2 n3 : ℕ} [NeZero n1] [NeZero n2] [NeZero n3]
variable {Ω : Type} [MeasurableSpace Ω] {μ : Measure Ω} [IsProbabilityMeasure μ]

omit [NeZero n1] [NeZero n2] [NeZero n3] in
theorem Spec.NormalNoise.gaussian {v : ℝ} {ξ : Box n1 n2 n3 → Fin 3 → Ω → ℝ} (h : NormalNoise μ v ξ) (x : Box n1 n2 n3) (l : Fin 3) :
    HasGaussianLaw (ξ x l) μ := ⟨by rw [h.2.2 x l]; infer_instance⟩

omit [NeZero n1] [NeZero n2] [NeZero n3] in
theorem Spec.NormalNoise.mean {v : ℝ} {ξ : Box n1 n2 n3 → Fin 3 → Ω → ℝ} (h : NormalNoise μ v ξ) (x : Box n1 n2 n3) (l : Fin 3) :
    ∫ ω, ξ x l ω ∂μ = 0 := by
  have := integral_map (μ := μ) (φ := ξ x l) (h.1 x l).aemeasurable (f := fun x : ℝ => x) measurable_id.aestronglyMeasurable
  rw [h.2.2, integral_id_gaussianReal] at this
  exact this.symm

omit [NeZero n1] [NeZero n2] [NeZero n3] in
theorem Spec.NormalNoise.white {v : ℝ} (hv : 0 ≤ v) {ξ : Box n1 n2 n3 → Fin 3 → Ω → ℝ} (h : NormalNoise μ v ξ) :
    WhiteNoise μ v ξ := by
  refine ⟨fun x l => (h.gaussian x l).memLp_two, fun x l y m => ?_⟩
  by_cases hxy : x = y ∧ l = m
  · rw [if_pos hxy, hxy.1, hxy.2]
    have h2 : ∫ x, x * x ∂(gaussianReal 0 v.toNNReal) = v := by
      have := variance_fun_id_gaussianReal (μ := 0) (v := v.toNNReal)
      rw [variance_of_integral_eq_zero (by fun_prop) integral_id_gaussianReal, Real.coe_toNNReal _ hv] at this
      simpa [sq] using this
    have := integral_map (μ := μ) (φ := ξ y m) (h.1 y m).aemeasurable (f := fun x : ℝ => x * x)
      (measurable_id.mul measurable_id).aestronglyMeasurable
    rw [h.2.2, h2] at this
    exact this.symm
  · rw [if_neg hxy]
    have hne : (x, l) ≠ (y, m) := fun e => hxy (by rw [Prod.mk.injEq] at e; exact e)
    rw [(h.2.1.indepFun hne).integral_fun_mul_eq_mul_integral (h.1 x l).aestronglyMeasurable (h.1 y m).aestronglyMeasurable,
      h.mean, zero_mul]

/-- Parseval on the box. -/
theorem parseval_box (a : Box n1 n2 n3 → ℂ) :
    ∑ x, ‖∑ k, a k * wave k x‖ ^ 2 = voxels n1 n2 n3 * ∑ k, ‖a k‖ ^ 2 := by
  have h : ((∑ x, ‖∑ k, a k * wave k x‖ ^ 2 : ℝ) : ℂ) = ((voxels n1 n2 n3 * ∑ k, ‖a k‖ ^ 2 : ℝ) : ℂ) := by
    push_cast
    have e : ∀ x, ((‖∑ k, a k * wave k x‖ : ℝ) : ℂ) ^ 2 = ∑ k, ∑ l, a k * (starRingEnd ℂ) (a l) * wave (k + -l) x := by
      intro x
      rw [← Complex.mul_conj', map_sum, Finset.sum_mul_sum]
      refine Finset.sum_congr rfl fun k _ => Finset.sum_congr rfl fun l _ => ?_
      rw [map_mul, wave_conj, wave_add_left]
      ring
    simp only [e]
    rw [Finset.sum_comm, Finset.mul_sum]
    refine Finset.sum_congr rfl fun k _ => ?_
    rw [Finset.sum_comm]
    simp only [← Finset.mul_sum, sum_wave_left]
    rw [Finset.sum_eq_single k]
    · rw [if_pos (by simp), ← Complex.mul_conj']
      ring
    · intro l _ hl
      rw [if_neg, mul_zero]
      intro h0
      exact hl (by rw [add_neg_eq_zero] at h0; exact h0.symm)
    · simp
  exact_mod_cast h

theorem gram_le_trace (M : Matrix (Fin 3) (Fin 3) ℂ) (i j : Fin 3) :
    ‖(M * M.conjTranspose) i j‖ ≤ ∑ l, ((M * M.conjTranspose) l l).re := by
  have e : ∀ l, ((M * M.conjTranspose) l l).re = ∑ m, ‖M l m‖ ^ 2 := by
    intro l
    have : (M * M.conjTranspose) l l = ((∑ m, ‖M l m‖ ^ 2 : ℝ) : ℂ) := by
      rw [Matrix.mul_apply]
      push_cast
      refine Finset.sum_congr rfl fun m _ => ?_
      rw [Matrix.conjTranspose_apply, ← Complex.mul_conj']
      rfl
    rw [this, Complex.ofReal_re]
  simp only [e]
  rw [Matrix.mul_apply]
  refine (norm_sum_le _ _).trans ?_
  have h1 : ∀ m ∈ (Finset.univ : Finset (Fin 3)), ‖M i m * M.conjTranspose m j‖ ≤ ‖M i m‖ ^ 2 / 2 + ‖M j m‖ ^ 2 / 2 := by
    intro m _
    rw [norm_mul, Matrix.conjTranspose_apply, norm_star]
    nlinarith [sq_nonneg (‖M i m‖ - ‖M j m‖)]
  refine (Finset.sum_le_sum h1).trans ?_
  rw [Finset.sum_add_distrib, ← Finset.sum_div, ← Finset.sum_div]
  have h2 : ∀ l, ∑ m, ‖M l m‖ ^ 2 ≤ ∑ l, ∑ m, ‖M l m‖ ^ 2 := fun l =>
    Finset.single_le_sum (f := fun l => ∑ m, ‖M l m‖ ^ 2) (fun _ _ => Finset.sum_nonneg fun _ _ => sq_nonneg _) (Finset.mem_univ l)
  have a := h2 i
  have b := h2 j
  linarith

/-- Concentration of the sum of squares over a window, in terms of the largest entry of the spectrum's Gram matrices. -/
theorem window_variance {h1 h2 h3 : ℝ} (p1 : 0 < h1) (p2 : 0 < h2) (p3 : 0 < h3) {ξ : Box n1 n2 n3 → Fin 3 → Ω → ℝ}
    (hξ : NormalNoise μ (h1 * h2 * h3) ξ) (S : Box n1 n2 n3 → Matrix (Fin 3) (Fin 3) ℂ) {Q : ℝ}
    (hQ : ∀ k i j, ‖(completion S k * (completion S k).conjTranspose) i j‖ ≤ Q) (W : Finset (Box n1 n2 n3))
    {u : Box n1 n2 n3 → Fin 3 → Ω → ℝ}
    (hu : u = fun x i ω => vfSample S (transformNorm (h1 * n1) (h2 * n2) (h3 * n3)) (fun z l => ξ z l ω) x i) :
    MemLp (fun ω => ∑ x ∈ W, ∑ i, u x i ω ^ 2) 2 μ ∧
    (∫ ω, ∑ x ∈ W, ∑ i, u x i ω ^ 2 ∂μ) = W.card * ∑ i, ∫ ω, u 0 i ω * u 0 i ω ∂μ ∧
    Var[fun ω => ∑ x ∈ W, ∑ i, u x i ω ^ 2; μ] ≤ 18 * W.card * Q * ∑ i, ∫ ω, u 0 i ω * u 0 i ω ∂μ := by
  have hG : HasGaussianLaw (fun ω (w : Box n1 n2 n3 × Fin 3) => u w.1 w.2 ω) μ := by
    rw [hu]
    exact C99_gaussian S _ (ξ := fun w => ξ w.1 w.2) hξ.2.1 fun w => hξ.gaussian w.1 w.2
  have hw := hξ.white (by positivity : 0 ≤ h1 * h2 * h3)
  have hcov : ∀ x y i j, ((∫ ω, u x i ω * u y j ω ∂μ : ℝ) : ℂ) =
      1 / (voxels n1 n2 n3 : ℂ) * ∑ k, (completion S k * (completion S k).conjTranspose) i j * wave k (x - y) := by
    intro x y i j
    rw [hu]
    exact cov_completion ξ p1 p2 p3 hw S x y i j
  have hmean : ∀ w : Box n1 n2 n3 × Fin 3, ∫ ω, u w.1 w.2 ω ∂μ = 0 := by
    intro w
    have hL : ∀ w : Box n1 n2 n3 × Fin 3, Integrable (ξ w.1 w.2) μ := fun w => (hw.1 w.1 w.2).integrable one_le_two
    have e : ∀ ω, u w.1 w.2 ω = ∑ v, vfLinear S (transformNorm (h1 * n1) (h2 * n2) (h3 * n3)) (Pi.single v 1) w * ξ v.1 v.2 ω := by
      intro ω
      have : u w.1 w.2 ω = vfLinear S (transformNorm (h1 * n1) (h2 * n2) (h3 * n3)) (fun v => ξ v.1 v.2 ω) w := by
        rw [hu, vfLinear_apply]
      rw [this, pi_eq_sum_univ' (fun v : Box n1 n2 n3 × Fin 3 => ξ v.1 v.2 ω), map_sum, Finset.sum_apply]
      refine Finset.sum_congr rfl fun v _ => ?_
      rw [map_smul, Pi.smul_apply, smul_eq_mul, mul_comm]
    simp only [e]
    rw [integral_finsetSum _ fun v _ => (hL v).const_mul _]
    refine Finset.sum_eq_zero fun v _ => ?_
    rw [integral_const_mul, hξ.mean, mul_zero]
  have hq := gaussian_sum_squares hG hmean (W ×ˢ Finset.univ)
  simp only [Finset.sum_product] at hq
  have hm2 : ∀ x i, Integrable (fun ω => u x i ω ^ 2) μ := fun x i =>
    (hG.eval (X := fun (w : Box n1 n2 n3 × Fin 3) ω => u w.1 w.2 ω) (x, i)).memLp_two.integrable_sq
  have hst : ∀ x i, ∫ ω, u x i ω ^ 2 ∂μ = ∫ ω, u 0 i ω * u 0 i ω ∂μ := by
    intro x i
    have h1 := hcov x x i i
    have h2 := hcov 0 0 i i
    rw [sub_self] at h1 h2
    have := h1.trans h2.symm
    simp only [sq]
    exact_mod_cast this
  refine ⟨hq.1, ?_, ?_⟩
  · rw [integral_finsetSum _ fun x _ => integrable_finsetSum _ fun i _ => hm2 x i]
    have : ∀ x ∈ W, ∫ ω, ∑ i, u x i ω ^ 2 ∂μ = ∑ i, ∫ ω, u 0 i ω * u 0 i ω ∂μ := by
      intro x _
      rw [integral_finsetSum _ fun i _ => hm2 x i]
      exact Finset.sum_congr rfl fun i _ => hst x i
    rw [Finset.sum_congr rfl this, Finset.sum_const, nsmul_eq_mul]
  · rw [hq.2]
    have hV : (0 : ℝ) < voxels n1 n2 n3 := by exact_mod_cast voxels_pos
    have hQ0 : 0 ≤ Q := (norm_nonneg _).trans (hQ 0 0 0)
    -- the total of the variances at a point
    obtain ⟨s, hs⟩ : ∃ s, s = ∑ i, ∫ ω, u 0 i ω * u 0 i ω ∂μ := ⟨_, rfl⟩
    have hs2 : s = 1 / (voxels n1 n2 n3 : ℝ) * ∑ k, ∑ l, ((completion S k * (completion S k).conjTranspose) l l).re := by
      have : ∀ i, ∫ ω, u 0 i ω * u 0 i ω ∂μ = 1 / (voxels n1 n2 n3 : ℝ) * ∑ k, ((completion S k * (completion S k).conjTranspose) i i).re := by
        intro i
        have h1 := congrArg Complex.re (hcov 0 0 i i)
        rw [Complex.ofReal_re] at h1
        rw [h1, sub_self]
        simp only [wave_zero_right, mul_one]
        rw [show (1 / (voxels n1 n2 n3 : ℂ)) = ((1 / (voxels n1 n2 n3 : ℝ) : ℝ) : ℂ) by push_cast; rfl, Complex.re_ofReal_mul, Complex.re_sum]
      rw [hs]
      simp only [this]
      rw [← Finset.mul_sum, Finset.sum_comm]
    have hpt : ∀ x i j, ∑ y, (∫ ω, u x i ω * u y j ω ∂μ) ^ 2 ≤ Q * s := by
      intro x i j
      have e1 : ∀ y, (∫ ω, u x i ω * u y j ω ∂μ) ^ 2 = 1 / (voxels n1 n2 n3 : ℝ) ^ 2 *
          ‖∑ k, (completion S k * (completion S k).conjTranspose) i j * wave k (x - y)‖ ^ 2 := by
        intro y
        have := congrArg (fun z : ℂ => ‖z‖ ^ 2) (hcov x y i j)
        simp only [Complex.norm_real, norm_mul, norm_div, Complex.norm_natCast, norm_one, Real.norm_eq_abs, sq_abs] at this
        rw [this]
        ring
      simp only [e1]
      rw [← Finset.mul_sum, Fintype.sum_equiv (Equiv.subLeft x) (fun y => ‖∑ k, (completion S k * (completion S k).conjTranspose) i j * wave k (x - y)‖ ^ 2)
        (fun z => ‖∑ k, (completion S k * (completion S k).conjTranspose) i j * wave k z‖ ^ 2) (fun y => rfl), parseval_box, hs2]
      have e2 : ∀ k, ‖(completion S k * (completion S k).conjTranspose) i j‖ ^ 2 ≤
          Q * ∑ l, ((completion S k * (completion S k).conjTranspose) l l).re := by
        intro k
        rw [sq]
        exact mul_le_mul (hQ k i j) (gram_le_trace _ i j) (norm_nonneg _) hQ0
      have e3 := Finset.sum_le_sum fun k (_ : k ∈ (Finset.univ : Finset (Box n1 n2 n3))) => e2 k
      rw [← Finset.mul_sum] at e3
      calc _ = 1 / (voxels n1 n2 n3 : ℝ) * ∑ k, ‖(completion S k * (completion S k).conjTranspose) i j‖ ^ 2 := by
            field_simp
        _ ≤ 1 / (voxels n1 n2 n3 : ℝ) * (Q * ∑ k, ∑ l, ((completion S k * (completion S k).conjTranspose) l l).re) := by
            gcongr
        _ = _ := by ring
    rw [← hs]
    have hx : ∀ x ∈ W, ∑ i, ∑ y ∈ W, ∑ j, (∫ ω, u x i ω * u y j ω ∂μ) ^ 2 ≤ 9 * (Q * s) := by
      intro x _
      have hi : ∀ i ∈ (Finset.univ : Finset (Fin 3)), ∑ y ∈ W, ∑ j, (∫ ω, u x i ω * u y j ω ∂μ) ^ 2 ≤ 3 * (Q * s) := by
        intro i _
        rw [Finset.sum_comm]
        have : ∀ j ∈ (Finset.univ : Finset (Fin 3)), ∑ y ∈ W, (∫ ω, u x i ω * u y j ω ∂μ) ^ 2 ≤ Q * s := fun j _ =>
          (Finset.sum_le_univ_sum_of_nonneg fun y => sq_nonneg _).trans (hpt x i j)
        refine (Finset.sum_le_sum this).trans ?_
        simp
      refine (Finset.sum_le_sum hi).trans ?_
      simp
      linarith
    have := Finset.sum_le_sum hx
    rw [Finset.sum_const, nsmul_eq_mul] at this
    nlinarith

end

/-- The entries of the Gram matrices of the completed spectrum are small against the number of points. -/
theorem gram_small {K : GenKernel} (hK : K.Valid) (hb : K.PoleBound) {h1 h2 h3 : ℝ} (p1 : 0 < h1) (p2 : 0 < h2) (p3 : 0 < h3) (c : ℝ)
    {η : ℝ} (hη : 0 < η) : ∃ N : ℕ, ∀ (n1 n2 n3 : ℕ) [NeZero n1] [NeZero n2] [NeZero n3], N ≤ n1 → N ≤ n2 → N ≤ n3 →
    h1 * n1 ≤ c * (h2 * n2) → ∀ (k : Box n1 n2 n3) i j,
      ‖(completion (spectrumOf K.eval (h1 * n1) (h2 * n2) (h3 * n3)) k *
        (completion (spectrumOf K.eval (h1 * n1) (h2 * n2) (h3 * n3)) k).conjTranspose) i j‖ ≤ η * (n1 * n2 * n3) := by
  have hpi := Real.pi_pos
  have A0 : 0 < Real.pi / h1 := by positivity
  have B0 : 0 < Real.pi / h2 := by positivity
  have C0 : 0 < Real.pi / h3 := by positivity
  obtain ⟨D, hD, hgram⟩ := gram_pole hb (Real.pi / h1 + Real.pi / h2 + Real.pi / h3)
  obtain ⟨D', hD', hent⟩ := hb (Real.pi / h1 + Real.pi / h2 + Real.pi / h3)
  obtain ⟨T, hT⟩ : ∃ T, T = 3 * (D' * (1 + (h1 + h2 + h3) / Real.pi)) ^ 2 := ⟨_, rfl⟩
  have T0 : 0 ≤ T := by rw [hT]; positivity
  obtain ⟨G, hG⟩ : ∃ G, G = D + T + D * (h1 * (|c| * h2) / (2 * Real.pi) ^ 2) := ⟨_, rfl⟩
  have G0 : 0 ≤ G := by rw [hG]; positivity
  obtain ⟨N0, hN0⟩ := exists_nat_ge (G / η)
  refine ⟨N0, ?_⟩
  intro n1 n2 n3 _ _ _ g1 g2 g3 k2 k i j
  have q1 : (1 : ℝ) ≤ n1 := by exact_mod_cast NeZero.one_le
  have q2 : (1 : ℝ) ≤ n2 := by exact_mod_cast NeZero.one_le
  have q3 : (1 : ℝ) ≤ n3 := by exact_mod_cast NeZero.one_le
  have g3' : (N0 : ℝ) ≤ n3 := by exact_mod_cast g3
  have hGη : G ≤ η * n3 := by
    rw [div_le_iff₀ hη] at hN0
    nlinarith
  have n12 : (1 : ℝ) ≤ n1 * n2 := by nlinarith
  -- it is enough to bound by `G n1 n2`
  suffices hmain : ‖(completion (spectrumOf K.eval (h1 * n1) (h2 * n2) (h3 * n3)) k *
        (completion (spectrumOf K.eval (h1 * n1) (h2 * n2) (h3 * n3)) k).conjTranspose) i j‖ ≤ G * (n1 * n2) by
    refine hmain.trans ?_
    calc G * (n1 * n2) ≤ η * n3 * (n1 * n2) := by gcongr
      _ = _ := by ring
  by_cases hk : NonNyquist k
  · rw [completion_of_hermitian (spectrum_hermitian hK hk)]
    unfold spectrumOf
    obtain ⟨a1, b1⟩ := fftIdx_range k.1 p1
    obtain ⟨a2, b2⟩ := fftIdx_range k.2.1 p2
    obtain ⟨a3, b3⟩ := fftIdx_range k.2.2 p3
    have hq := hgram ((freqOf (h1 * n1) (h2 * n2) (h3 * n3) k).k1, (freqOf (h1 * n1) (h2 * n2) (h3 * n3) k).k2,
      (freqOf (h1 * n1) (h2 * n2) (h3 * n3) k).k3) (by
        refine norm3_le ?_ ?_ ?_ <;> (simp only [freqOf]; rw [abs_le]; constructor <;> linarith)) i j
    refine hq.trans ?_
    simp only
    split_ifs with h0
    · have : D ≤ G := by rw [hG]; have : 0 ≤ D * (h1 * (|c| * h2) / (2 * Real.pi) ^ 2) := by positivity
                         linarith
      exact this.trans (le_mul_of_one_le_right G0 n12)
    · obtain ⟨κ, hκ⟩ : ∃ κ : ℝ × ℝ × ℝ, κ = ((freqOf (h1 * n1) (h2 * n2) (h3 * n3) k).k1, (freqOf (h1 * n1) (h2 * n2) (h3 * n3) k).k2,
        (freqOf (h1 * n1) (h2 * n2) (h3 * n3) k).k3) := ⟨_, rfl⟩
      rw [← hκ]
      have hL : 2 * Real.pi / (h1 * n1) ≤ ‖κ‖ := by
        refine le_trans ?_ (norm3_ge κ).1
        rw [hκ]
        simp only [freqOf] at h0 ⊢
        rw [abs_mul, abs_of_pos (by positivity : 0 < 2 * Real.pi / (h1 * n1))]
        have hz : fftIdx n1 k.1 ≠ 0 := fun e => h0 (by rw [e]; simp)
        have : (1 : ℝ) ≤ |((fftIdx n1 k.1 : ℤ) : ℝ)| := by
          have := Int.one_le_abs hz
          exact_mod_cast this
        have hp : 0 < 2 * Real.pi / (h1 * n1) := by positivity
        nlinarith
      have hp : 0 < 2 * Real.pi / (h1 * n1) := by positivity
      have hκ0 : 0 < ‖κ‖ := hp.trans_le hL
      have e2 : ‖κ‖ ^ (-2 : ℝ) ≤ (h1 * n1) ^ 2 / (2 * Real.pi) ^ 2 := by
        rw [Real.rpow_neg hκ0.le, Real.rpow_two, ← one_div]
        have : 1 / ‖κ‖ ^ 2 ≤ 1 / (2 * Real.pi / (h1 * n1)) ^ 2 := by gcongr
        refine this.trans (le_of_eq ?_)
        field_simp
      have e3 : (h1 * n1) ^ 2 / (2 * Real.pi) ^ 2 ≤ h1 * (|c| * h2) / (2 * Real.pi) ^ 2 * (n1 * n2) := by
        rw [div_mul_eq_mul_div]
        gcongr
        have h' : h1 * n1 ≤ |c| * (h2 * n2) := k2.trans (mul_le_mul_of_nonneg_right (le_abs_self c) (by positivity))
        have h0' : 0 ≤ h1 * (n1 : ℝ) := by positivity
        calc (h1 * n1) ^ 2 = h1 * n1 * (h1 * n1) := by ring
          _ ≤ h1 * n1 * (|c| * (h2 * n2)) := mul_le_mul_of_nonneg_left h' h0'
          _ = _ := by ring
      have e4 : D * (1 + ‖κ‖ ^ (-2 : ℝ)) ≤ D * (1 + h1 * (|c| * h2) / (2 * Real.pi) ^ 2 * (n1 * n2)) := by gcongr; exact e2.trans e3
      refine e4.trans ?_
      have e5 : D * 1 ≤ D * (n1 * n2) := mul_le_mul_of_nonneg_left n12 hD
      have e6 : 0 ≤ T * (n1 * n2) := by positivity
      have e7 : G * (n1 * n2) = D * (n1 * n2) + T * (n1 * n2) + D * (h1 * (|c| * h2) / (2 * Real.pi) ^ 2 * (n1 * n2)) := by rw [hG]; ring
      rw [e7, mul_add]
      linarith
  · have := gram_norm_le (fun i m => completion_nyquist (K := K) (D := D') p1 p2 p3 hD' hent hk i m) i j
    rw [← hT] at this
    refine this.trans ?_
    have : T ≤ G := by rw [hG]; have : 0 ≤ D * (h1 * (|c| * h2) / (2 * Real.pi) ^ 2) := by positivity
                       linarith
    exact this.trans (le_mul_of_one_le_right G0 n12)

theorem bandVariance_eq {Φ : ℝ → ℝ → ℝ → Fin 3 → Fin 3 → ℝ} (hI : BandIntegrable Φ) {h1 h2 h3 : ℝ} (p1 : 0 < h1) (p2 : 0 < h2)
    (p3 : 0 < h3) : ((bandVariance h1 h2 h3 Φ : ℝ) : ℂ) = 1 / 3 * ∑ i, bandCovariance h1 h2 h3 Φ (0, 0, 0) i i := by
  unfold bandVariance bandCovariance
  rw [integral_finsetSum _ fun i _ => hI h1 h2 h3 p1 p2 p3 i i, ← Finset.mul_sum]
  push_cast
  congr 2
  refine Finset.sum_congr rfl fun i _ => ?_
  rw [← integral_complex_ofReal]
  refine integral_congr_ae (Filter.Eventually.of_forall fun k => ?_)
  simp

theorem meanSquareLimit_of {K : GenKernel} (hK : K.Valid) (hb : K.PoleBound) {Φ : ℝ → ℝ → ℝ → Fin 3 → Fin 3 → ℝ}
    (hc : CovarianceLimit K Φ) : MeanSquareLimit K Φ := by
  intro h1 h2 h3 c ρ e δ p1 p2 p3 hρ he hδ
  obtain ⟨σ, hσ⟩ : ∃ σ, σ = bandVariance h1 h2 h3 Φ := ⟨_, rfl⟩
  obtain ⟨N1, hN1⟩ := hc.2 h1 h2 h3 c (e / 2) p1 p2 p3 (by positivity) (0, 0, 0)
  obtain ⟨B, hB⟩ : ∃ B, B = 3 * |σ| + 3 * e / 2 + 1 := ⟨_, rfl⟩
  have B0 : 0 < B := by rw [hB]; positivity
  obtain ⟨N2, hN2⟩ := gram_small hK hb p1 p2 p3 c (η := ρ * e ^ 2 * δ / (8 * B)) (by positivity)
  refine ⟨N1 + N2, ?_⟩
  intro n1 n2 n3 _ _ _ g1 g2 g3 k2 k3 Ω _ μ _ ξ hξ W hW
  have q1 : (1 : ℝ) ≤ n1 := by exact_mod_cast NeZero.one_le
  have q2 : (1 : ℝ) ≤ n2 := by exact_mod_cast NeZero.one_le
  have q3 : (1 : ℝ) ≤ n3 := by exact_mod_cast NeZero.one_le
  obtain ⟨V, hV⟩ : ∃ V : ℝ, V = n1 * n2 * n3 := ⟨_, rfl⟩
  have V0 : 0 < V := by rw [hV]; positivity
  have hQ := hN2 n1 n2 n3 (by omega) (by omega) (by omega) k2
  rw [← hV] at hQ hW
  have hW0 : (0 : ℝ) < W.card := lt_of_lt_of_le (by positivity) hW
  obtain ⟨u, hu⟩ : ∃ u : Box n1 n2 n3 → Fin 3 → Ω → ℝ, u = fun x i ω =>
    vfSample (spectrumOf K.eval (h1 * n1) (h2 * n2) (h3 * n3)) (transformNorm (h1 * n1) (h2 * n2) (h3 * n3)) (fun z l => ξ z l ω) x i := ⟨_, rfl⟩
  obtain ⟨hm, hmean, hvar⟩ := window_variance p1 p2 p3 hξ _ hQ W hu
  have hcov := hN1 n1 n2 n3 (by omega) (by omega) (by omega) k2 k3 Ω μ ξ (hξ.white (by positivity)) 0 0 (by simp) (by simp) (by simp)
  have hcov' : ∀ i, ‖((∫ ω, u 0 i ω * u 0 i ω ∂μ : ℝ) : ℂ) - bandCovariance h1 h2 h3 Φ (0, 0, 0) i i‖ ≤ e / 2 := by
    intro i
    rw [hu]
    exact hcov i i
  obtain ⟨s, hs⟩ : ∃ s, s = ∑ i, ∫ ω, u 0 i ω * u 0 i ω ∂μ := ⟨_, rfl⟩
  rw [← hs] at hmean hvar
  have hsσ : |s / 3 - σ| ≤ e / 2 := by
    rw [← Real.norm_eq_abs, ← Complex.norm_real]
    have : ((s / 3 - σ : ℝ) : ℂ) = 1 / 3 * ∑ i, (((∫ ω, u 0 i ω * u 0 i ω ∂μ : ℝ) : ℂ) - bandCovariance h1 h2 h3 Φ (0, 0, 0) i i) := by
      rw [Complex.ofReal_sub, hσ, bandVariance_eq hc.1 p1 p2 p3, hs, Finset.sum_sub_distrib]
      push_cast
      ring
    rw [this, norm_mul]
    have h3 : ‖(1 / 3 : ℂ)‖ = 1 / 3 := by simp
    rw [h3]
    have := norm_sum_le_of_le Finset.univ fun i _ => hcov' i
    simp only [Finset.sum_const, Finset.card_univ, Fintype.card_fin, nsmul_eq_mul] at this
    push_cast at this
    linarith
  have hsB : s ≤ B := by
    have := (abs_le.1 hsσ).2
    have := le_abs_self σ
    rw [hB]
    linarith
  have hs0 : 0 ≤ s := by rw [hs]; exact Finset.sum_nonneg fun i _ => integral_nonneg fun ω => mul_self_nonneg _
  -- Chebyshev
  have hcheb := meas_ge_le_variance_div_sq hm (c := 3 * W.card * (e / 2)) (by positivity)
  rw [hmean] at hcheb
  have hsub : {ω | e ≤ |(∑ x ∈ W, ∑ i, u x i ω ^ 2) / (3 * W.card) - σ|} ⊆
      {ω | 3 * W.card * (e / 2) ≤ |∑ x ∈ W, ∑ i, u x i ω ^ 2 - W.card * s|} := by
    intro ω hω
    simp only [Set.mem_setOf_eq] at hω ⊢
    obtain ⟨X, hX⟩ : ∃ X, X = ∑ x ∈ W, ∑ i, u x i ω ^ 2 := ⟨_, rfl⟩
    rw [← hX] at hω ⊢
    have e1 : X - W.card * s = 3 * W.card * (X / (3 * W.card) - s / 3) := by field_simp
    rw [e1, abs_mul, abs_of_pos (by positivity : (0 : ℝ) < 3 * W.card)]
    gcongr
    have := abs_sub_le (X / (3 * W.card)) (s / 3) σ
    linarith
  have hfin : μ {ω | 3 * W.card * (e / 2) ≤ |∑ x ∈ W, ∑ i, u x i ω ^ 2 - W.card * s|} ≤ ENNReal.ofReal δ := by
    refine hcheb.trans (ENNReal.ofReal_le_ofReal ?_)
    rw [div_le_iff₀ (by positivity)]
    refine hvar.trans ?_
    have t1 : 18 * (W.card : ℝ) * (ρ * e ^ 2 * δ / (8 * B) * V) * s ≤ 18 * (W.card : ℝ) * (ρ * e ^ 2 * δ / (8 * B) * V) * B := by gcongr
    refine t1.trans ?_
    have t2 : 18 * (W.card : ℝ) * (ρ * e ^ 2 * δ / (8 * B) * V) * B = 9 / 4 * W.card * e ^ 2 * δ * (ρ * V) := by field_simp; ring
    rw [t2]
    have t3 : 9 / 4 * W.card * e ^ 2 * δ * (ρ * V) ≤ 9 / 4 * W.card * e ^ 2 * δ * W.card := by gcongr
    refine t3.trans (le_of_eq ?_)
    ring
  rw [← hσ]
  have e0 : {ω | e ≤ |(∑ x ∈ W, ∑ i,
        vfSample (spectrumOf K.eval (h1 * n1) (h2 * n2) (h3 * n3)) (transformNorm (h1 * n1) (h2 * n2) (h3 * n3))
          (fun z l => ξ z l ω) x i ^ 2) / (3 * W.card) - σ|} = {ω | e ≤ |(∑ x ∈ W, ∑ i, u x i ω ^ 2) / (3 * W.card) - σ|} := by
    rw [hu]
  rw [e0]
  refine ENNReal.toReal_le_of_le_ofReal hδ.le ((measure_mono hsub).trans hfin)

/-! ### Positive variance -/

/-- `Φ` is the kernel's spectral tensor off the plane `k1 = 0`. -/
def GenKernel.HasTensor (K : GenKernel) (Φ : ℝ → ℝ → ℝ → Fin 3 → Fin 3 → ℝ) : Prop :=
  ∀ k1 k2 k3, k1 ≠ 0 → ∀ i j, (times1j (K.eval ⟨k1, k2, k3⟩) * (times1j (K.eval ⟨k1, k2, k3⟩)).conjTranspose) i j =
    ((Φ k1 k2 k3 i j : ℝ) : ℂ)

theorem ae_snd_ne : ∀ᵐ q : ℝ × ℝ × ℝ, q.2.1 ≠ 0 := by
  have h : MeasurableSet {q : ℝ × ℝ × ℝ | q.2.1 ≠ 0} := (measurable_fst.comp measurable_snd) (measurableSet_singleton (0 : ℝ)).compl
  have h2 : ∀ᵐ r : ℝ × ℝ, r.1 ≠ 0 := by
    have h : MeasurableSet {r : ℝ × ℝ | r.1 ≠ 0} := measurable_fst (measurableSet_singleton (0 : ℝ)).compl
    change ∀ᵐ r : ℝ × ℝ ∂(volume.prod volume), r.1 ≠ 0
    rw [Measure.ae_prod_iff_ae_ae h]
    filter_upwards [Measure.ae_ne volume (0 : ℝ)] with a ha
    exact Eventually.of_forall fun _ => ha
  change ∀ᵐ q : ℝ × ℝ × ℝ ∂(volume.prod volume), q.2.1 ≠ 0
  rw [Measure.ae_prod_iff_ae_ae h]
  exact Eventually.of_forall fun a => h2

theorem bandVariance_pos {K : GenKernel} (hK : K.Valid) (hE : K.Energetic) {Φ : ℝ → ℝ → ℝ → Fin 3 → Fin 3 → ℝ} (hΦ : K.HasTensor Φ)
    (hI : BandIntegrable Φ) {h1 h2 h3 : ℝ} (p1 : 0 < h1) (p2 : 0 < h2) (p3 : 0 < h3) :
    0 < ∫ k in Set.Ico (-(Real.pi / h1)) (Real.pi / h1) ×ˢ Set.Ico (-(Real.pi / h2)) (Real.pi / h2) ×ˢ
      Set.Ico (-(Real.pi / h3)) (Real.pi / h3), ∑ i, Φ k.1 k.2.1 k.2.2 i i := by
  have hpi := Real.pi_pos
  have hpos : ∀ᵐ k : ℝ × ℝ × ℝ, 0 < ∑ i, Φ k.1 k.2.1 k.2.2 i i := by
    filter_upwards [ae_fst_ne, ae_snd_ne] with k k1 k2
    have e : ∑ i, Φ k.1 k.2.1 k.2.2 i i = ∑ i, ((times1j (K.eval ⟨k.1, k.2.1, k.2.2⟩) * (times1j (K.eval ⟨k.1, k.2.1, k.2.2⟩)).conjTranspose) i i).re := by
      refine Finset.sum_congr rfl fun i _ => ?_
      rw [hΦ _ _ _ k1, Complex.ofReal_re]
    rw [e]
    have hne := GenKernel.entry02 hK hE (k := ⟨k.1, k.2.1, k.2.2⟩) k2
    obtain ⟨M, hM⟩ : ∃ M, M = times1j (K.eval ⟨k.1, k.2.1, k.2.2⟩) := ⟨_, rfl⟩
    rw [← hM] at hne ⊢
    have e2 : ∀ l, ((M * M.conjTranspose) l l).re = ∑ m, ‖M l m‖ ^ 2 := by
      intro l
      have : (M * M.conjTranspose) l l = ((∑ m, ‖M l m‖ ^ 2 : ℝ) : ℂ) := by
        rw [Matrix.mul_apply]
        push_cast
        refine Finset.sum_congr rfl fun m _ => ?_
        rw [Matrix.conjTranspose_apply, ← Complex.mul_conj']
        rfl
      rw [this, Complex.ofReal_re]
    simp only [e2]
    refine Finset.sum_pos' (fun _ _ => Finset.sum_nonneg fun _ _ => sq_nonneg _) ⟨0, Finset.mem_univ _, ?_⟩
    refine Finset.sum_pos' (fun _ _ => sq_nonneg _) ⟨2, Finset.mem_univ _, ?_⟩
    have := norm_pos_iff.2 hne
    positivity
  have hint := integrable_finsetSum (Finset.univ : Finset (Fin 3)) fun i _ => hI h1 h2 h3 p1 p2 p3 i i
  obtain ⟨s, hs⟩ : ∃ s : Set (ℝ × ℝ × ℝ), s = Set.Ico (-(Real.pi / h1)) (Real.pi / h1) ×ˢ Set.Ico (-(Real.pi / h2)) (Real.pi / h2) ×ˢ
      Set.Ico (-(Real.pi / h3)) (Real.pi / h3) := ⟨_, rfl⟩
  rw [← hs] at hint ⊢
  rw [integral_pos_iff_support_of_nonneg_ae ((ae_restrict_of_ae hpos).mono fun k hk => hk.le) hint]
  have hfull : (volume.restrict s) (Function.support fun k : ℝ × ℝ × ℝ => ∑ i, Φ k.1 k.2.1 k.2.2 i i) = (volume.restrict s) Set.univ := by
    refine measure_congr ?_
    rw [eventuallyEq_univ]
    exact (ae_restrict_of_ae hpos).mono fun k hk => hk.ne'
  rw [hfull, Measure.restrict_apply_univ, hs]
  change 0 < (volume.prod volume) _
  rw [Measure.prod_prod]
  change 0 < volume _ * (volume.prod volume) _
  rw [Measure.prod_prod, Real.volume_Ico, Real.volume_Ico, Real.volume_Ico]
  have q : ∀ {h : ℝ}, 0 < h → 0 < ENNReal.ofReal (Real.pi / h - -(Real.pi / h)) := fun {h} hh => by
    have : 0 < Real.pi / h := by positivity
    exact ENNReal.ofReal_pos.2 (by linarith)
  exact ENNReal.mul_pos (q p1).ne' (ENNReal.mul_pos (q p2).ne' (q p3).ne').ne'

/-! ### The generator -/

/-- Correlation of two components at a displacement of `r` cells, for the spectral tensor `Φ` restricted to the resolved
wavevectors: the Fourier integral of `Φ` over a third of the integral of its trace.  It does not depend on the amplitude of
`Φ`. -/
def Spec.bandCorrelation (h1 h2 h3 : ℝ) (Φ : ℝ → ℝ → ℝ → Fin 3 → Fin 3 → ℝ) (r : ℤ × ℤ × ℤ) (i j : Fin 3) : ℂ :=
  (∫ k in Set.Ico (-(Real.pi / h1)) (Real.pi / h1) ×ˢ Set.Ico (-(Real.pi / h2)) (Real.pi / h2) ×ˢ
      Set.Ico (-(Real.pi / h3)) (Real.pi / h3),
      ((Φ k.1 k.2.1 k.2.2 i j : ℝ) : ℂ) *
        Complex.exp (Complex.I * ((k.1 * (h1 * r.1) + k.2.1 * (h2 * r.2.1) + k.2.2 * (h3 * r.2.2) : ℝ) : ℂ))) /
    ((1 / 3 * ∫ k in Set.Ico (-(Real.pi / h1)) (Real.pi / h1) ×ˢ Set.Ico (-(Real.pi / h2)) (Real.pi / h2) ×ˢ
      Set.Ico (-(Real.pi / h3)) (Real.pi / h3), ∑ i, Φ k.1 k.2.1 k.2.2 i i : ℝ) : ℂ)

theorem bandCorrelation_eq {h1 h2 h3 : ℝ} (p1 : 0 < h1) (p2 : 0 < h2) (p3 : 0 < h3) (Φ : ℝ → ℝ → ℝ → Fin 3 → Fin 3 → ℝ)
    (r : ℤ × ℤ × ℤ) (i j : Fin 3) :
    bandCorrelation h1 h2 h3 Φ r i j = bandCovariance h1 h2 h3 Φ r i j / ((bandVariance h1 h2 h3 Φ : ℝ) : ℂ) := by
  unfold bandCorrelation bandCovariance bandVariance
  have hpi := Real.pi_pos
  have hne : ((h1 * h2 * h3 / (2 * Real.pi) ^ 3 : ℝ) : ℂ) ≠ 0 := by
    have : (h1 * h2 * h3 / (2 * Real.pi) ^ 3 : ℝ) ≠ 0 := by positivity
    exact_mod_cast this
  rw [mul_left_comm, Complex.ofReal_mul (h1 * h2 * h3 / (2 * Real.pi) ^ 3), mul_div_mul_left _ _ hne]

theorem bandCorrelation_scale (h1 h2 h3 : ℝ) {t : ℝ} (ht : t ≠ 0) {Φ Ψ : ℝ → ℝ → ℝ → Fin 3 → Fin 3 → ℝ}
    (h : ∀ k1 k2 k3 i j, Φ k1 k2 k3 i j = t * Ψ k1 k2 k3 i j) : bandCorrelation h1 h2 h3 Φ = bandCorrelation h1 h2 h3 Ψ := by
  funext r i j
  unfold bandCorrelation
  simp only [h, Complex.ofReal_mul, mul_assoc]
  rw [integral_const_mul]
  simp only [← Finset.mul_sum]
  rw [integral_const_mul]
  have ht' : (t : ℂ) ≠ 0 := by exact_mod_cast ht
  rw [Complex.ofReal_mul t, mul_left_comm ((1 / 3 : ℝ) : ℂ), mul_div_mul_left _ _ ht']

/-- The turbulence returned from some grid levels on is that of correlations `R` at a displacement of `r` cells.  For generators of a class with
spacings `h1, h2, h3` of their periodic grids, a bounded blending width and a bounded ratio of length to width and height,
without low-frequency part, grid levels from `Λ` on, and a random stream of independent standard normal values: there are
random arrays `V 0, V 1, …` and `U 0, U 1, …`, one of each for each block, such that

* with probability one every sequence of valid `generate` calls succeeds and the `j`-th block of the returned field is `V j` plus
  the mean wind in the first component;
* the values of any number of the arrays `U` have a joint normal law with mean zero, and the covariance of two values of one
  array at that displacement is `R` up to the tolerance;
* for each block the values of `V j` agree with those of `U j` up to the tolerance (relative to the size of the value), except
  with that probability. -/
def Spec.BlocksClose (good : GenEnv → GenArgs → Prop) (h1 h2 h3 c e δ : ℝ) (B : ℤ) (r : ℤ × ℤ × ℤ) (R : Fin 3 → Fin 3 → ℂ) (Λ : ℕ) : Prop :=
    ∀ (env : GenEnv) (a : GenArgs) (g : Gen) (q : ℕ), good env a → a.PosScales → a.PosEnergy → a.low = none → a.bn ≤ B →
    Λ ≤ a.l1 → Λ ≤ a.l2 → Λ ≤ a.l3 →
    a.d1 = h1 * (2 ^ a.l1 + 1) → a.d2 = h2 * (2 ^ a.l2 + 1) → a.d3 = h3 * (2 ^ a.l3 + 1) → a.d1 ≤ c * a.d2 → a.d1 ≤ c * a.d3 →
    genInit env a = (.ok g, q) →
    ∀ (Ω : Type) [MeasurableSpace Ω] (μ : Measure Ω) [IsProbabilityMeasure μ] (ξ : ℕ → Ω → ℝ), Stream μ ξ (gaussianReal 0 1) →
    ∃ V U : ℕ → Ω → g.Cell → ℝ,
      (∀ᵐ ω ∂μ, ∃ g', genInit (env.withStream fun n => ξ n ω) a = (.ok g', q) ∧
        ∀ cs : List (ℕ × ProfileArgs), (∀ c ∈ cs, c.2.Valid) → ∀ (p : ProfileArgs) (n : ℕ), p.Valid →
          ∃ f, ((g'.run cs).2.generate p n).1 = .ok f ∧ f.planes.length = ((cs.map Prod.fst).sum + n) * g.Nx ∧
            ∀ i < n, ∀ (r : Fin g.Nx) (b : Fin g.Ny) (c : Fin g.Nz), ∃ w,
              f.val? (((cs.map Prod.fst).sum + i) * g.Nx + r) b c = some w ∧
              w 0 = fin (V ((cs.map Prod.fst).sum + i) ω (r, b, c, 0)) + Spec.meanWind p (c * (a.d3 / 2 ^ a.l3)) ∧
              w 1 = fin (V ((cs.map Prod.fst).sum + i) ω (r, b, c, 1)) ∧
              w 2 = fin (V ((cs.map Prod.fst).sum + i) ω (r, b, c, 2))) ∧
      (∀ M : ℕ, HasGaussianLaw (fun ω (w : Fin M × g.Cell) => U w.1 ω w.2) μ) ∧
      (∀ j x, ∫ ω, U j ω x ∂μ = 0) ∧
      (∀ j (x y : g.Cell), (x.1.val : ℤ) - y.1.val = r.1 → (x.2.1.val : ℤ) - y.2.1.val = r.2.1 →
        (x.2.2.1.val : ℤ) - y.2.2.1.val = r.2.2 →
        ‖((∫ ω, U j ω x * U j ω y ∂μ : ℝ) : ℂ) - R x.2.2.2 y.2.2.2‖ ≤ e) ∧
      ∀ j, μ.real {ω | ∃ x, e * |U j ω x| < |V j ω x - U j ω x|} ≤ δ

/-- The turbulence returned in large boxes: for every displacement, tolerance, probability and bounds, from some grid levels on it is that of the
correlations of `Φ`. -/
def Spec.BlockLimit (good : GenEnv → GenArgs → Prop) (Φ : ℝ → ℝ → ℝ → Fin 3 → Fin 3 → ℝ) : Prop :=
  ∀ h1 h2 h3 c e δ : ℝ, 0 < h1 → 0 < h2 → 0 < h3 → 0 < e → 0 < δ → ∀ (B : ℤ) (r : ℤ × ℤ × ℤ), ∃ Λ : ℕ,
    BlocksClose good h1 h2 h3 c e δ B r (bandCorrelation h1 h2 h3 Φ r) Λ

section
variable {g : Gen} [NeZero g.shape1.toNat] [NeZero g.shape2.toNat] [NeZero g.shape3.toNat]

/-- Point of the periodic grid at which a point of the block is sampled. -/
def Gen.at3 (g : Gen) (x : Fin g.Nx × Fin g.Ny × Fin g.Nz) : Box g.shape1.toNat g.shape2.toNat g.shape3.toNat :=
  (((g.nb.toNat + x.1 : ℕ) : ZMod _), ((g.my.toNat + x.2.1 : ℕ) : ZMod _), ((x.2.2 : ℕ) : ZMod _))

theorem at3_val (hg : g.Good) (x : Fin g.Nx × Fin g.Ny × Fin g.Nz) :
    (g.at3 x).1.val = g.nb.toNat + x.1 ∧ (g.at3 x).2.1.val = g.my.toNat + x.2.1 ∧ (g.at3 x).2.2.val = x.2.2 := by
  obtain ⟨e1, e2, e3, -⟩ := hg.shapes
  obtain ⟨g1, g2, g3⟩ := hg
  have hb := blendExt_nonneg g.bn
  have i1 := x.1.isLt
  have i2 := x.2.1.isLt
  have i3 := x.2.2.isLt
  refine ⟨ZMod.val_natCast_of_lt ?_, ZMod.val_natCast_of_lt ?_, ZMod.val_natCast_of_lt ?_⟩ <;> omega

theorem at3_inj (hg : g.Good) : Function.Injective g.at3 := by
  intro x y h
  obtain ⟨a1, a2, a3⟩ := at3_val hg x
  obtain ⟨b1, b2, b3⟩ := at3_val hg y
  rw [h] at a1 a2 a3
  refine Prod.ext (Fin.ext ?_) (Prod.ext (Fin.ext ?_) (Fin.ext ?_)) <;> omega

theorem block_noise {Ω : Type} [MeasurableSpace Ω] {μ : Measure Ω} [IsProbabilityMeasure μ] {ξ : ℕ → Ω → ℝ}
    (h : Stream μ ξ (gaussianReal 0 1)) (hg : g.Good) {v : ℝ} (hv : g.rf.noiseStd ^ 2 = v) (j : ℕ) :
    NormalNoise μ v (fun (y : Box g.shape1.toNat g.shape2.toNat g.shape3.toNat) (l : Fin 3) ω => ξ (g.place j (y, l)) ω * g.rf.noiseStd) := by
  refine ⟨fun y l => (h.1 _).mul_const _, ?_, fun y l => ?_⟩
  · exact (h.2.1.precomp (Gen.place_inj hg j)).comp (fun _ t => t * g.rf.noiseStd) fun _ => measurable_id.mul_const _
  · have := gaussianReal_mul_const (P := μ) (X := ξ (g.place j (y, l))) (μ := 0) (v := 1)
      ⟨(h.1 _).aemeasurable, h.2.2 _⟩ g.rf.noiseStd
    rw [this.map_eq, mul_zero, mul_one]
    congr 1
    rw [← hv]
    exact NNReal.eq (Real.coe_toNNReal _ (sq_nonneg _)).symm

end

theorem gain_close {v σ s e e' : ℝ} (v0 : 0 < v) (σ0 : 0 < σ) (σv : σ ^ 2 = v) (sn : 0 ≤ s) (he : 0 < e)
    (he' : e' = v * min (1 / 2) (e / 2)) (hlt : |s ^ 2 - v| < e') (x : ℝ) : |x / s - x / σ| ≤ e * |x / σ| := by
  have hm1 : e' ≤ v * (1 / 2) := by rw [he']; exact mul_le_mul_of_nonneg_left (min_le_left _ _) v0.le
  have hm2 : e' ≤ v * (e / 2) := by rw [he']; exact mul_le_mul_of_nonneg_left (min_le_right _ _) v0.le
  obtain ⟨k1, k2⟩ := abs_lt.1 hlt
  have sv : v / 2 ≤ s ^ 2 := by linarith
  have s2 : σ / 2 ≤ s := by
    by_contra hh
    push Not at hh
    have : s ^ 2 < (σ / 2) ^ 2 := pow_lt_pow_left₀ hh sn two_ne_zero
    nlinarith
  have s0 : 0 < s := by linarith
  have hdiff : x / s - x / σ = x / σ * ((σ ^ 2 - s ^ 2) / (s * (σ + s))) := by
    have : σ + s ≠ 0 := by positivity
    field_simp
    ring
  rw [hdiff, abs_mul, mul_comm]
  refine mul_le_mul_of_nonneg_right ?_ (abs_nonneg _)
  rw [abs_div, abs_of_pos (by positivity : 0 < s * (σ + s)), div_le_iff₀ (by positivity), σv, abs_sub_comm]
  have : v / 2 ≤ s * (σ + s) := by
    have : σ / 2 * σ ≤ s * σ := mul_le_mul_of_nonneg_right s2 σ0.le
    nlinarith [mul_nonneg sn sn]
  calc |s ^ 2 - v| ≤ e' := hlt.le
    _ ≤ v * (e / 2) := hm2
    _ = e * (v / 2) := by ring
    _ ≤ _ := mul_le_mul_of_nonneg_left this he.le

theorem block_limit {K : GenKernel} {L T : ℝ} (hK : K.Valid) (hE : K.Energetic) (hb : K.PoleBound)
    {Φ : ℝ → ℝ → ℝ → Fin 3 → Fin 3 → ℝ} (hΦ : K.HasTensor Φ) (hc : CovarianceLimit K Φ) :
    BlockLimit (fun env a => genScales env a = .ok (K, L, T)) Φ := by
  intro h1 h2 h3 c e δ p1 p2 p3 he hδ B r
  have hpi := Real.pi_pos
  have hms := meanSquareLimit_of hK hb hc
  have hI := bandVariance_pos hK hE hΦ hc.1 p1 p2 p3
  obtain ⟨v, hv⟩ : ∃ v, v = bandVariance h1 h2 h3 Φ := ⟨_, rfl⟩
  have v0 : 0 < v := by rw [hv]; unfold bandVariance; positivity
  obtain ⟨σ, hσ⟩ : ∃ σ, σ = Real.sqrt v := ⟨_, rfl⟩
  have σ0 : 0 < σ := by rw [hσ]; exact Real.sqrt_pos.2 v0
  have σv : σ ^ 2 = v := by rw [hσ]; exact Real.sq_sqrt v0.le
  obtain ⟨C, hC⟩ : ∃ C : ℝ, C = 1 + 2 * (|3 * T * L / h1| + 1) + 2 * (|L / h2| + 1) + 2 * (|L / h3| + 1) + |(B : ℝ)| := ⟨_, rfl⟩
  have C1 : 1 ≤ C := by
    rw [hC]
    have := abs_nonneg (3 * T * L / h1)
    have := abs_nonneg (L / h2)
    have := abs_nonneg (L / h3)
    have := abs_nonneg (B : ℝ)
    linarith
  obtain ⟨e', he'⟩ : ∃ e', e' = v * min (1 / 2) (e / 2) := ⟨_, rfl⟩
  have e0 : 0 < e' := by rw [he']; positivity
  obtain ⟨N1, hN1⟩ := hms h1 h2 h3 (C * |c|) (1 / C ^ 3) e' δ p1 p2 p3 (by positivity) e0 hδ
  obtain ⟨N2, hN2⟩ := hc.2 h1 h2 h3 (C * |c|) (e * v) p1 p2 p3 (by positivity) r
  refine ⟨N1 + N2, ?_⟩
  intro env a g q hs ha hen hlow hbn l1 l2 l3 d1 d2 d3 c2 c3 hinit Ω _ μ _ ξ hξ
  have hg := genInit_good ha hinit
  obtain ⟨K', L', T', hs', -, -, -, ⟨gl1, gl2, gl3⟩, -, ⟨gbn, gnb, gmy, gmz⟩, hker, -, -, hrf, -⟩ := genInit_ok hinit
  rw [hs] at hs'
  simp only [Except.ok.injEq, Prod.mk.injEq] at hs'
  obtain ⟨rfl, rfl, rfl⟩ := hs'
  obtain ⟨s1, s2, s3, q1, q2, q3, m1, m2, m3⟩ := hg.shapes
  haveI : NeZero g.shape1.toNat := ⟨q1.ne'⟩
  haveI : NeZero g.shape2.toNat := ⟨q2.ne'⟩
  haveI : NeZero g.shape3.toNat := ⟨q3.ne'⟩
  -- spacings
  have x1 : a.d1 / (2 ^ a.l1 + 1) = h1 := by rw [d1]; exact mul_div_cancel_right₀ _ (by positivity)
  have x2 : a.d2 / (2 ^ a.l2 + 1) = h2 := by rw [d2]; exact mul_div_cancel_right₀ _ (by positivity)
  have x3 : a.d3 / (2 ^ a.l3 + 1) = h3 := by rw [d3]; exact mul_div_cancel_right₀ _ (by positivity)
  obtain ⟨r1, r2, r3⟩ := rf_periods hinit
  rw [x1] at r1
  rw [x2] at r2
  rw [x3] at r3
  have hstd : g.rf.noiseStd ^ 2 = h1 * h2 * h3 := by
    have := (C66_grid ha.1.1 ha.1.2.1 ha.1.2.2 hrf).2.2.2.2
    rw [x1, x2, x3] at this
    exact this
  have hnoise := block_noise hξ hg hstd
  have hper : ∀ (j : ℕ) (ω : Ω), g.periodic (fun n => ξ n ω) j =
      vfSample (spectrumOf K.eval (h1 * g.shape1.toNat) (h2 * g.shape2.toNat) (h3 * g.shape3.toNat))
        (transformNorm (h1 * g.shape1.toNat) (h2 * g.shape2.toNat) (h3 * g.shape3.toNat))
        (fun y l => ξ (g.place j (y, l)) ω * g.rf.noiseStd) := by
    intro j ω
    unfold Gen.periodic Gen.root
    rw [r1, r2, r3, hker]
    rfl
  -- numbers of points
  have n1 : (g.Nx : ℝ) = 2 ^ a.l1 + 1 := by unfold Gen.Nx; rw [gl1]; push_cast; ring
  have n2 : (g.Ny : ℝ) = 2 ^ a.l2 + 1 := by unfold Gen.Ny; rw [gl2]; push_cast; ring
  have n3 : (g.Nz : ℝ) = 2 ^ a.l3 + 1 := by unfold Gen.Nz; rw [gl3]; push_cast; ring
  have hbig : ∀ {l n : ℕ}, N1 + N2 ≤ l → (n : ℝ) = 2 ^ l + 1 → N1 + N2 ≤ n := by
    intro l n hl hn
    have h2 : n = 2 ^ l + 1 := by exact_mod_cast hn
    have := Nat.lt_two_pow_self (n := l)
    omega
  have g1 := hbig l1 n1
  have g2 := hbig l2 n2
  have g3 := hbig l3 n3
  obtain ⟨b1, b2, b3⟩ := hg
  have hbe := blendExt_nonneg g.bn
  have w1 : g.Nx ≤ g.shape1.toNat := by omega
  have w2 : g.Ny ≤ g.shape2.toNat := by omega
  have w3 : g.Nz ≤ g.shape3.toNat := by omega
  have hg : g.Good := ⟨b1, b2, b3⟩
  have ceilB : ∀ {n : ℤ} {x : ℝ}, n = ⌈x⌉ → (n : ℝ) ≤ |x| + 1 := by
    intro n x hn
    have := (Int.ceil_lt_add_one x).le
    rw [hn]
    exact this.trans (by linarith [le_abs_self x])
  have y1 : a.d1 / ((2 ^ a.l1 + 1 : ℕ) : ℝ) = h1 := by rw [← x1]; push_cast; rfl
  have y2 : a.d2 / ((2 ^ a.l2 + 1 : ℕ) : ℝ) = h2 := by rw [← x2]; push_cast; rfl
  have y3 : a.d3 / ((2 ^ a.l3 + 1 : ℕ) : ℝ) = h3 := by rw [← x3]; push_cast; rfl
  rw [y1] at gnb
  rw [y2] at gmy
  rw [y3] at gmz
  have u1 := ceilB gnb
  have u2 := ceilB gmy
  have u3 := ceilB gmz
  have ub : ((blendExt g.bn : ℤ) : ℝ) ≤ |(B : ℝ)| := by
    unfold blendExt
    split_ifs
    · have : ((g.bn : ℤ) : ℝ) ≤ B := by rw [gbn]; exact_mod_cast hbn
      push_cast
      linarith [le_abs_self (B : ℝ)]
    · simp
  have one1 : (1 : ℝ) ≤ g.Nx := by exact_mod_cast m1
  have one2 : (1 : ℝ) ≤ g.Ny := by exact_mod_cast m2
  have one3 : (1 : ℝ) ≤ g.Nz := by exact_mod_cast m3
  have t1 : (g.shape1.toNat : ℝ) ≤ C * g.Nx := by
    have : (g.shape1.toNat : ℝ) = g.Nx + (2 * (g.nb : ℝ) + (blendExt g.bn : ℤ)) := by exact_mod_cast s1
    rw [this]
    have hx : 2 * (g.nb : ℝ) + (blendExt g.bn : ℤ) ≤ C - 1 := by
      rw [hC]
      have := abs_nonneg (L / h2)
      have := abs_nonneg (L / h3)
      linarith
    have : (C - 1) * 1 ≤ (C - 1) * g.Nx := mul_le_mul_of_nonneg_left one1 (by linarith)
    linarith
  have t2 : (g.shape2.toNat : ℝ) ≤ C * g.Ny := by
    have : (g.shape2.toNat : ℝ) = g.Ny + 2 * (g.my : ℝ) := by exact_mod_cast s2
    rw [this]
    have hx : 2 * (g.my : ℝ) ≤ C - 1 := by
      rw [hC]
      have := abs_nonneg (3 * T * L / h1)
      have := abs_nonneg (L / h3)
      have := abs_nonneg (B : ℝ)
      linarith
    have : (C - 1) * 1 ≤ (C - 1) * g.Ny := mul_le_mul_of_nonneg_left one2 (by linarith)
    linarith
  have t3 : (g.shape3.toNat : ℝ) ≤ C * g.Nz := by
    have : (g.shape3.toNat : ℝ) = g.Nz + 2 * (g.mz : ℝ) := by exact_mod_cast s3
    rw [this]
    have hx : 2 * (g.mz : ℝ) ≤ C - 1 := by
      rw [hC]
      have := abs_nonneg (3 * T * L / h1)
      have := abs_nonneg (L / h2)
      have := abs_nonneg (B : ℝ)
      linarith
    have : (C - 1) * 1 ≤ (C - 1) * g.Nz := mul_le_mul_of_nonneg_left one3 (by linarith)
    linarith
  -- shape of the box
  have aspect : ∀ {h d : ℝ} {n s : ℕ}, 0 < h → d = h * (n : ℝ) → a.d1 ≤ c * d → n ≤ s → h1 * g.shape1.toNat ≤ C * |c| * (h * s) := by
    intro h d n s hh hd hcd hns
    have hns' : (n : ℝ) ≤ s := by exact_mod_cast hns
    have z1 : h1 * g.shape1.toNat ≤ C * a.d1 := by
      rw [d1, ← n1]
      calc h1 * (g.shape1.toNat : ℝ) ≤ h1 * (C * g.Nx) := by gcongr
        _ = _ := by ring
    have z2 : a.d1 ≤ |c| * (h * s) := by
      refine hcd.trans ?_
      rw [hd]
      calc c * (h * (n : ℝ)) ≤ |c| * (h * n) := mul_le_mul_of_nonneg_right (le_abs_self c) (by positivity)
        _ ≤ _ := by gcongr
    calc h1 * (g.shape1.toNat : ℝ) ≤ C * a.d1 := z1
      _ ≤ C * (|c| * (h * s)) := by gcongr
      _ = _ := by ring
  have as2 := aspect p2 (d2.trans (by rw [n2])) c2 w2
  have as3 := aspect p3 (d3.trans (by rw [n3])) c3 w3
  -- the window of the block
  obtain ⟨W, hW⟩ : ∃ W : Finset (Box g.shape1.toNat g.shape2.toNat g.shape3.toNat), W = Finset.univ.map ⟨g.at3, at3_inj hg⟩ := ⟨_, rfl⟩
  have cardW : (W.card : ℝ) = g.Nx * g.Ny * g.Nz := by
    rw [hW, Finset.card_map, Finset.card_univ, Fintype.card_prod, Fintype.card_prod, Fintype.card_fin, Fintype.card_fin, Fintype.card_fin]
    push_cast
    ring
  have fracW : 1 / C ^ 3 * ((g.shape1.toNat : ℝ) * g.shape2.toNat * g.shape3.toNat) ≤ W.card := by
    have C0 : 0 < C := by linarith
    rw [cardW, one_div, inv_mul_le_iff₀ (by positivity)]
    calc (g.shape1.toNat : ℝ) * g.shape2.toNat * g.shape3.toNat ≤ C * g.Nx * (C * g.Ny) * (C * g.Nz) := by gcongr
      _ = _ := by ring
  have hraw : ∀ γ j (x : g.Cell), g.raw γ j x = g.periodic γ j (g.at3 (x.1, x.2.1, x.2.2.1)) x.2.2.2 := by
    intro γ j x
    exact raw_periodic hg γ j x.1 x.2.1 x.2.2.1 x.2.2.2
  have sumW : ∀ γ j, ∑ y ∈ W, ∑ i, g.periodic γ j y i ^ 2 = ∑ x : g.Cell, g.raw γ j x ^ 2 := by
    intro γ j
    rw [hW, Finset.sum_map]
    simp only [hraw, Function.Embedding.coeFn_mk]
    rw [Fintype.sum_prod_type, Fintype.sum_prod_type]
    refine Finset.sum_congr rfl fun x _ => ?_
    rw [Fintype.sum_prod_type, Fintype.sum_prod_type]
    refine Finset.sum_congr rfl fun y _ => ?_
    rw [Fintype.sum_prod_type]
  have hsd : ∀ γ j, ((g.withStream γ).block j).sd ^ 2 = (∑ y ∈ W, ∑ i, g.periodic γ j y i ^ 2) / (3 * W.card) := by
    intro γ j
    rw [sd_cells, Real.sq_sqrt (div_nonneg (Finset.sum_nonneg fun _ _ => sq_nonneg _) (Nat.cast_nonneg _)), sumW, cardW]
    congr 1
    push_cast
    ring
  have hwin := fun M => (C99_windows hξ ha hinit M).1
  refine ⟨fun j ω x => g.fluct (fun n => ξ n ω) j x, fun j ω x => g.raw (fun n => ξ n ω) j x / σ, ?_, fun M => ?_, fun j x => ?_,
    fun j x y z1 z2 z3 => ?_, fun j => ?_⟩
  · have hat : ∀ x, gaussianReal 0 1 {x} = 0 := fun x => by
      have : NullSingletonClass (gaussianReal 0 1) := nullSingletonClass_gaussianReal one_ne_zero
      exact measure_singleton x
    exact fluct_returned hξ hat ha hen hlow hinit (by rw [hker]; exact hK)
  · let Λ' : (Fin M × Box g.shape1.toNat g.shape2.toNat g.shape3.toNat × Fin 3 → ℝ) →L[ℝ] (Fin M × g.Cell → ℝ) :=
      ContinuousLinearMap.pi fun w => (1 / σ) • ContinuousLinearMap.proj (R := ℝ)
        (φ := fun _ : Fin M × Box g.shape1.toNat g.shape2.toNat g.shape3.toNat × Fin 3 => ℝ)
        (w.1, g.at3 (w.2.1, w.2.2.1, w.2.2.2.1), w.2.2.2.2)
    have := (hwin M).map_fun Λ'
    refine this.congr (Eventually.of_forall fun ω => ?_)
    funext w
    simp only [Λ', ContinuousLinearMap.coe_pi', ContinuousLinearMap.coe_smul', Pi.smul_apply, ContinuousLinearMap.proj_apply, smul_eq_mul]
    rw [hraw]
    ring
  · simp only [hraw, periodic_eq]
    rw [integral_div, integral_finsetSum _ fun w _ => (((hξ.white.1 _).integrable one_le_two).mul_const _).const_mul _,
      Finset.sum_eq_zero, zero_div]
    intro w _
    rw [integral_const_mul, integral_mul_const, hξ.mean, zero_mul, mul_zero]
  · have hcv := hN2 _ _ _ (by omega : N2 ≤ g.shape1.toNat) (by omega : N2 ≤ g.shape2.toNat) (by omega : N2 ≤ g.shape3.toNat) as2 as3 Ω μ _
      ((hnoise j).white (by positivity)) (g.at3 (x.1, x.2.1, x.2.2.1)) (g.at3 (y.1, y.2.1, y.2.2.1))
      (by rw [(at3_val hg _).1, (at3_val hg _).1]; push_cast; linarith)
      (by rw [(at3_val hg _).2.1, (at3_val hg _).2.1]; push_cast; linarith)
      (by rw [(at3_val hg _).2.2, (at3_val hg _).2.2]; exact z3) x.2.2.2 y.2.2.2
    simp only [← hper] at hcv
    rw [bandCorrelation_eq p1 p2 p3, ← hv]
    have e1 : ((∫ ω, g.raw (fun n => ξ n ω) j x / σ * (g.raw (fun n => ξ n ω) j y / σ) ∂μ : ℝ) : ℂ) =
        ((∫ ω, g.periodic (fun n => ξ n ω) j (g.at3 (x.1, x.2.1, x.2.2.1)) x.2.2.2 *
          g.periodic (fun n => ξ n ω) j (g.at3 (y.1, y.2.1, y.2.2.1)) y.2.2.2 ∂μ : ℝ) : ℂ) / (v : ℂ) := by
      rw [← Complex.ofReal_div, ← integral_div]
      congr 2
      funext ω
      rw [hraw, hraw, ← σv]
      ring
    rw [e1, ← sub_div, norm_div, Complex.norm_real, Real.norm_eq_abs, abs_of_pos v0, div_le_iff₀ v0]
    exact hcv
  · have hpr := hN1 _ _ _ (by omega : N1 ≤ g.shape1.toNat) (by omega : N1 ≤ g.shape2.toNat) (by omega : N1 ≤ g.shape3.toNat) as2 as3 Ω μ _
      (hnoise j) W fracW
    simp only [← hper, ← hsd] at hpr
    rw [← hv] at hpr
    refine le_trans (measureReal_mono ?_ (measure_ne_top _ _)) hpr
    rintro ω ⟨x, hx⟩
    simp only [Set.mem_setOf_eq]
    by_contra hlt
    push Not at hlt
    refine absurd hx (not_lt.2 ?_)
    unfold Gen.fluct
    beta_reduce
    obtain ⟨s, hsv⟩ : ∃ s, s = ((g.withStream fun n => ξ n ω).block j).sd := ⟨_, rfl⟩
    rw [← hsv] at hlt ⊢
    have sn : 0 ≤ s := by rw [hsv, sd_cells]; exact Real.sqrt_nonneg _
    exact gain_close v0 σ0 σv sn he he' hlt _

theorem Spec.BlockLimit.mono {good good' : GenEnv → GenArgs → Prop} {Φ Ψ : ℝ → ℝ → ℝ → Fin 3 → Fin 3 → ℝ} (h : BlockLimit good Φ)
    (hg : ∀ env a, good' env a → good env a) (hΦ : ∀ h1 h2 h3, bandCorrelation h1 h2 h3 Φ = bandCorrelation h1 h2 h3 Ψ) :
    BlockLimit good' Ψ := by
  intro h1 h2 h3 c e δ p1 p2 p3 he hδ B r
  obtain ⟨Λ, hΛ⟩ := h h1 h2 h3 c e δ p1 p2 p3 he hδ B r
  rw [hΦ] at hΛ
  exact ⟨Λ, fun env a g q hgood => hΛ env a g q (hg env a hgood)⟩

/-! ### The three models -/

theorem isoTensor_amp (L E0 : ℝ) (k : Fin 3 → ℝ) (i j : Fin 3) : isoTensor (vkE L E0) k i j = E0 * isoTensor (vkE L 1) k i j := by
  unfold isoTensor vkE
  ring

theorem shearedTensor_amp (L E0 : ℝ) (k : Fin 3 → ℝ) (b : ℝ) (i j : Fin 3) :
    shearedTensor (vkE L E0) k b i j = E0 * shearedTensor (vkE L 1) k b i j := by
  have : isoTensor (vkE L E0) (initialWave k b) = E0 • isoTensor (vkE L 1) (initialWave k b) := by
    ext i j
    rw [Matrix.smul_apply, smul_eq_mul, isoTensor_amp]
  unfold shearedTensor
  rw [this, Matrix.mul_smul, Matrix.smul_mul, Matrix.smul_apply, smul_eq_mul]

/-- **C133** Von Karman model: the correlations are those of the isotropic tensor with the length scale of the argument; they
do not depend on the spectrum amplitude, the friction velocity, the height or the time scale. -/
theorem C133_vk {L T ε us z : ℝ} (hL : 0 < L) (hε : 0 < ε) (hu : us ≠ 0) (hz : 0 < z) :
    BlockLimit (fun _ a => a.model = "VK" ∧ a.length = some L ∧ a.time = some T ∧ a.energy = some ε ∧ a.ustar = us ∧ a.zref = z)
      fun k1 k2 k3 i j => isoTensor (vkE L 1) ![k1, k2, k3] i j := by
  obtain ⟨E0, hE⟩ : ∃ E0, E0 = ε * us ^ 2 * z ^ (-2 / 3 : ℝ) := ⟨_, rfl⟩
  have E0p : 0 < E0 := by rw [hE]; positivity
  have hv : ∀ k1 k2 k3 : ℝ, k1 ≠ 0 → (K3.mk k1 k2 k3).vec ≠ 0 := fun k1 k2 k3 h h0 => h (by
    have := congrFun h0 0
    simpa [K3.vec] using this)
  have ht : (GenKernel.vk L E0).HasTensor fun k1 k2 k3 i j => isoTensor (vkE L E0) ![k1, k2, k3] i j := by
    intro k1 k2 k3 h i j
    have := (C10_vk_kernel hL E0p.le ⟨k1, k2, k3⟩).2.2 (hv k1 k2 k3 h)
    have h2 := congrFun (congrFun this i) j
    simp only [Matrix.map_apply] at h2
    exact h2
  have h := block_limit (L := L) (T := T) (K := .vk L E0) (And.intro hL E0p.le) E0p (vk_poleBound hL E0p.le) ht (C132_vk hL E0p.le)
  refine h.mono ?_ fun h1 h2 h3 => bandCorrelation_scale h1 h2 h3 E0p.ne' fun k1 k2 k3 i j => isoTensor_amp L E0 _ i j
  rintro env a ⟨m, e1, e2, e3, e4, e5⟩
  unfold genScales
  simp only [m, e1, e2, e3, e4, e5, heightPower_pos hz, hE]
  simp

/-- **C133** Mann model: the correlations are those of the tensor the fitter stands for, with the same length and time scales
and the Mann lifetime; they do not depend on the spectrum amplitude, the friction velocity or the height. -/
theorem C133_mann (p : OPSParams) (hy : IsMannHyp p.hyp) (ht : p.ty = .mann) (hs : p.sp = .vkLike) {ε us z : ℝ} (hε : 0 < ε)
    (hu : us ≠ 0) (hz : 0 < z) :
    BlockLimit (fun env a => env.hyp = p.hyp ∧ a.model = "Mann" ∧ a.length = some p.L ∧ a.time = some p.T ∧ a.energy = some ε ∧
      a.ustar = us ∧ a.zref = z) (Spec.fitTensor p) := by
  obtain ⟨E0, hE⟩ : ∃ E0, E0 = ε * us ^ 2 * z ^ (-2 / 3 : ℝ) := ⟨_, rfl⟩
  have E0p : 0 < E0 := by rw [hE]; positivity
  obtain ⟨p', ep⟩ : ∃ p' : OPSParams, p' = { p with logM := Real.log E0 } := ⟨_, rfl⟩
  have eM : p'.M = E0 := by rw [ep]; exact Real.exp_log E0p
  have eL : p'.L = p.L := by rw [ep]; rfl
  have eT : p'.T = p.T := by rw [ep]; rfl
  have eh : p'.hyp = p.hyp := by rw [ep]
  have et : p'.ty = p.ty := by rw [ep]
  have es : p'.sp = p.sp := by rw [ep]
  have hh : ∀ x < 0, 0 < p.hyp x := fun x hx => IsHyp2F1.mann_hyp_pos hy hx.le
  have hK : (GenKernel.mann p.hyp p.L E0 p.T).Valid := ⟨p.L_pos, E0p.le, hh⟩
  have he : ∀ k : K3, k.k1 ≠ 0 → (GenKernel.mann p.hyp p.L E0 p.T).eval k = shearKernel p.L E0 k (eddyLifetime p.hyp p.ty p.L p.T k) := by
    intro k hk
    have hv : k.vec ≠ 0 := fun h0 => hk (by
      have := congrFun h0 0
      simpa [K3.vec] using this)
    rw [ht, ← C03_mann_lifetime_agrees p.hyp p.L_pos p.T hv]
    rfl
  have he0 : ∀ k : K3, k.k1 = 0 → ∃ b : ℝ, (GenKernel.mann p.hyp p.L E0 p.T).eval k = shearKernel p.L E0 k (fin b) := fun k _ => ⟨_, by
    change shearKernel _ _ k (mannBeta p.hyp p.L p.T k) = _
    rw [mannBeta_eq p.T p.L_pos hh]⟩
  have hpole := shear_pole p.L_pos E0p.le p (mann_tame p hy ht) he he0
  have hfit : ∀ k1 k2 k3 i j, Spec.fitTensor p' k1 k2 k3 i j = shearedTensor (vkE p.L E0) ![k1, k2, k3]
      (eddyLifetime p.hyp p.ty p.L p.T ⟨k1, k2, k3⟩).toReal i j := by
    intro k1 k2 k3 i j
    unfold Spec.fitTensor
    rw [eM, eL, eT, eh, et, es, hs]
    rfl
  have hfit' : ∀ k1 k2 k3 i j, Spec.fitTensor p k1 k2 k3 i j = shearedTensor (vkE p.L p.M) ![k1, k2, k3]
      (eddyLifetime p.hyp p.ty p.L p.T ⟨k1, k2, k3⟩).toReal i j := by
    intro k1 k2 k3 i j
    unfold Spec.fitTensor
    rw [hs]
    rfl
  obtain ⟨b, -, eb, -⟩ := mann_tame p hy ht
  have htens : (GenKernel.mann p.hyp p.L E0 p.T).HasTensor (Spec.fitTensor p') := by
    intro k1 k2 k3 h i j
    have hb' := eb (k1, k2, k3) h
    simp only at hb'
    rw [he _ h, hfit, hb', toReal_fin]
    have := congrFun (congrFun (C14_kernel_square p.L_pos E0p.le (k := ⟨k1, k2, k3⟩) h (b (k1, k2, k3))) i) j
    simp only [Matrix.map_apply] at this
    exact this
  have hcv := C132_mann p' (by rw [eh]; exact hy) (by rw [et]; exact ht) (by rw [es]; exact hs)
  rw [eM, eL, eT, eh] at hcv
  have h := block_limit (L := p.L) (T := p.T) hK E0p hpole htens hcv
  have Mp : 0 < p.M := Real.exp_pos _
  refine h.mono ?_ fun h1 h2 h3 => bandCorrelation_scale h1 h2 h3 (div_pos E0p Mp).ne' fun k1 k2 k3 i j => ?_
  · rintro env a ⟨m0, m, e1, e2, e3, e4, e5⟩
    unfold genScales
    simp [m0, m, e1, e2, e3, e4, e5, heightPower_pos hz, hE]
  · rw [hfit, hfit', shearedTensor_amp p.L E0, shearedTensor_amp p.L p.M]
    field_simp

/-- **C133** Trained model: the correlations are those of the sheared von Karman tensor with length scale `L h_ref` at the
lifetime `Gamma * tauNet(h_ref k)`; they do not depend on the fitted magnitude or the friction velocity. -/
theorem C133_nn (net : TauNet) (hn : Spec.NetTame net) (ha : net.ContActs) (ops : OPS) (hops : ops.kind = .taunet net) {us z : ℝ}
    (hu : us ≠ 0) (hz : 0 < z) (hyp : ℝ → ℝ) :
    BlockLimit (fun env a => a.model = "DRD" ∧ (∃ f, a.path = some f ∧ loadModel env.hyp env.netSeed env.netNoise f env.fs = .ok ops) ∧
        a.ustar = us ∧ a.zref = z)
      fun k1 k2 k3 i j => shearedTensor (vkE (Real.exp ops.logL * z) 1) ![k1, k2, k3]
        (eddyLifetime hyp (.taunet net) z (Real.exp ops.logT) ⟨k1, k2, k3⟩).toReal i j := by
  obtain ⟨L, hL⟩ : ∃ L, L = Real.exp ops.logL * z := ⟨_, rfl⟩
  obtain ⟨Γ, hΓ⟩ : ∃ Γ, Γ = Real.exp ops.logT := ⟨_, rfl⟩
  obtain ⟨E0, hE⟩ : ∃ E0, E0 = 4 * Real.pi * Real.exp ops.logL ^ (-5 / 3 : ℝ) * Real.exp ops.logM * us ^ 2 * z ^ (-2 / 3 : ℝ) := ⟨_, rfl⟩
  have hpi := Real.pi_pos
  have E0p : 0 < E0 := by rw [hE]; positivity
  have Lp : 0 < L := by rw [hL]; positivity
  have Γp : 0 < Γ := by rw [hΓ]; positivity
  obtain ⟨p, ep⟩ : ∃ p : OPSParams, p = ⟨hyp, .taunet net, .vkLike, Real.log z, Real.log Γ, 0⟩ := ⟨_, rfl⟩
  have e1 : p.L = z := by rw [ep]; exact Real.exp_log hz
  have e2 : p.T = Γ := by rw [ep]; exact Real.exp_log Γp
  have e3 : p.hyp = hyp := by rw [ep]
  have e4 : p.ty = .taunet net := by rw [ep]
  have hnd := NetTame.nondegenerate hn
  have hK : (GenKernel.nn net L E0 Γ z).Valid := ⟨Lp, E0p.le, hnd, hz.ne'⟩
  have he : ∀ k : K3, k.k1 ≠ 0 → (GenKernel.nn net L E0 Γ z).eval k = shearKernel L E0 k (eddyLifetime p.hyp p.ty p.L p.T k) := by
    intro k hk
    have hv : k.vec ≠ 0 := fun h0 => hk (by
      have := congrFun h0 0
      simpa [K3.vec] using this)
    rw [e1, e2, e3, e4]
    have := C16_missing_length_scale hyp net hz.ne' Γ z hv
    rw [div_self hz.ne'] at this
    have ek : k.smul 1 = k := by simp [K3.smul]
    rw [ek] at this
    rw [← this]
    rfl
  have he0 : ∀ k : K3, k.k1 = 0 → ∃ b : ℝ, (GenKernel.nn net L E0 Γ z).eval k = shearKernel L E0 k (fin b) := by
    intro k _
    obtain ⟨b, hb⟩ := nnBeta_fin hnd Γ hz.ne' k
    exact ⟨b, by
      change shearKernel _ _ k (nnBeta net Γ z k) = _
      rw [hb]⟩
  have htame := net_tame p e4 ha hn
  have hpole := shear_pole Lp E0p.le p htame he he0
  obtain ⟨b, -, eb, -⟩ := htame
  have htens : (GenKernel.nn net L E0 Γ z).HasTensor fun k1 k2 k3 i j =>
      shearedTensor (vkE L E0) ![k1, k2, k3] (eddyLifetime hyp (.taunet net) z Γ ⟨k1, k2, k3⟩).toReal i j := by
    intro k1 k2 k3 h i j
    have hb' := eb (k1, k2, k3) h
    simp only at hb'
    beta_reduce
    rw [he _ h]
    rw [e1, e2, e3, e4] at hb' ⊢
    rw [hb', toReal_fin]
    have := congrFun (congrFun (C14_kernel_square Lp E0p.le (k := ⟨k1, k2, k3⟩) h (b (k1, k2, k3))) i) j
    simp only [Matrix.map_apply] at this
    exact this
  have h := block_limit (L := L) (T := Γ) hK E0p hpole htens (C132_nn net hn ha Lp E0p.le Γp hz hyp)
  rw [← hL, ← hΓ]
  refine h.mono ?_ fun h1 h2 h3 => bandCorrelation_scale h1 h2 h3 E0p.ne' fun k1 k2 k3 i j => shearedTensor_amp L E0 _ _ i j
  rintro env a ⟨m, ⟨f, e1, e2⟩, e4, e5⟩
  unfold genScales
  simp only [m, e1, e2, e4, e5, heightPower_pos hz, hops, OPS.expScalesValue, hE, hL, hΓ]
  simp

/-- Arguments meeting the hypotheses, at every level: spacings 5, 4 and 3, the length at most twice the width and height. -/
example (env : GenEnv) (Λ : ℕ) : ∃ a : GenArgs, (a.model = "VK" ∧ a.length = some 50 ∧ a.time = some 3 ∧ a.energy = some 0.5 ∧
      a.ustar = 1.7 ∧ a.zref = 180) ∧ a.PosScales ∧ a.PosEnergy ∧ a.low = none ∧ a.bn ≤ 10 ∧ Λ ≤ a.l1 ∧ Λ ≤ a.l2 ∧ Λ ≤ a.l3 ∧
    a.d1 = 5 * (2 ^ a.l1 + 1) ∧ a.d2 = 4 * (2 ^ a.l2 + 1) ∧ a.d3 = 3 * (2 ^ a.l3 + 1) ∧ a.d1 ≤ 2 * a.d2 ∧ a.d1 ≤ 2 * a.d3 ∧
    ∃ g, genInit env a = (.ok g, env.globPos) := by
  obtain ⟨P, hP⟩ : ∃ P : ℝ, P = 2 ^ Λ + 1 := ⟨_, rfl⟩
  have P0 : 0 < P := by rw [hP]; positivity
  refine ⟨⟨1.7, 180, 5 * P, 4 * P, 3 * P, Λ, Λ, Λ, "VK", some 50, some 3, some 0.5, none, some 7, 10, none⟩,
    ⟨rfl, rfl, rfl, rfl, rfl, rfl⟩, ⟨⟨by positivity, by positivity, by positivity⟩, fun h => absurd h (show ("VK" : String) ≠ "DRD" by decide),
      fun _ => ⟨50, 3, rfl, rfl, by norm_num, by norm_num⟩⟩, ⟨by norm_num, by norm_num, fun _ e h => ?_⟩, rfl, le_rfl, le_rfl, le_rfl,
    le_rfl, by rw [hP], by rw [hP], by rw [hP], ?_, ?_, ?_⟩
  · obtain rfl := Option.some.inj h
    norm_num
  · simp only
    linarith
  · simp only
    linarith
  · exact genInit_exists env (Or.inl rfl) rfl rfl rfl (by norm_num) ⟨by positivity, by positivity, by positivity⟩
      ⟨by norm_num, by norm_num⟩ rfl

/-- Random streams of the theorem: independent standard normal values. -/
example : Spec.Stream (Measure.infinitePi fun _ : ℕ => gaussianReal 0 1) (fun n (ω : ℕ → ℝ) => ω n) (gaussianReal 0 1) :=
  ⟨fun n => measurable_pi_apply n,
    iIndepFun_infinitePi (P := fun _ => gaussianReal 0 1) (X := fun _ x => x) fun _ => measurable_id,
    fun n => Measure.infinitePi_map_eval (fun _ => gaussianReal 0 1) n⟩

end
end Verif
