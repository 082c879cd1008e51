import Mathlib.Probability.Distributions.Gaussian.HasGaussianLaw.Basic
import Mathlib.Probability.Moments.Variance

/-!
# Fourth moments of Gaussian vectors
-/

namespace Verif
open MeasureTheory ProbabilityTheory

noncomputable section

theorem gaussian_fourth (v : NNReal) : ∫ x, x ^ 4 ∂(gaussianReal 0 v) = 3 * (v : ℝ) ^ 2 := by
  have h := iteratedDeriv_mgf_zero (X := fun x : ℝ => x) (μ := gaussianReal 0 v) (by simp) 4
  have e : mgf (fun x : ℝ => x) (gaussianReal 0 v) = fun t => Real.exp (v * t ^ 2 / 2) := by
    rw [mgf_fun_id_gaussianReal]
    funext t
    rw [zero_mul, zero_add]
  rw [e] at h
  obtain ⟨w, hw⟩ : ∃ w : ℝ, w = v := ⟨_, rfl⟩
  rw [← hw] at h ⊢
  have hE : ∀ t : ℝ, HasDerivAt (fun t => Real.exp (w * t ^ 2 / 2)) (w * t * Real.exp (w * t ^ 2 / 2)) t := by
    intro t
    have h1 : HasDerivAt (fun t : ℝ => w * t ^ 2 / 2) (w * t) t := by
      have := ((hasDerivAt_pow 2 t).const_mul w).div_const 2
      refine this.congr_deriv ?_
      push_cast
      ring
    exact h1.exp.congr_deriv (by ring)
  have d1 : deriv (fun t => Real.exp (w * t ^ 2 / 2)) = fun t => w * t * Real.exp (w * t ^ 2 / 2) := funext fun t => (hE t).deriv
  have d2 : deriv (fun t => w * t * Real.exp (w * t ^ 2 / 2)) = fun t => (w + w ^ 2 * t ^ 2) * Real.exp (w * t ^ 2 / 2) := by
    funext t
    refine (HasDerivAt.congr_deriv (((hasDerivAt_id t).const_mul w).mul (hE t)) ?_).deriv
    simp only [id]
    ring
  have d3 : deriv (fun t => (w + w ^ 2 * t ^ 2) * Real.exp (w * t ^ 2 / 2)) =
      fun t => (3 * w ^ 2 * t + w ^ 3 * t ^ 3) * Real.exp (w * t ^ 2 / 2) := by
    funext t
    refine (HasDerivAt.congr_deriv ((((hasDerivAt_pow 2 t).const_mul (w ^ 2)).const_add w).mul (hE t)) ?_).deriv
    push_cast
    ring
  have d4 : deriv (fun t => (3 * w ^ 2 * t + w ^ 3 * t ^ 3) * Real.exp (w * t ^ 2 / 2)) =
      fun t => (3 * w ^ 2 + 6 * w ^ 3 * t ^ 2 + w ^ 4 * t ^ 4) * Real.exp (w * t ^ 2 / 2) := by
    funext t
    refine (HasDerivAt.congr_deriv ((((hasDerivAt_id t).const_mul (3 * w ^ 2)).add ((hasDerivAt_pow 3 t).const_mul (w ^ 3))).mul (hE t)) ?_).deriv
    simp only [id, Pi.add_apply]
    push_cast
    ring
  rw [show (4 : ℕ) = 3 + 1 from rfl, iteratedDeriv_succ', show (3 : ℕ) = 2 + 1 from rfl, iteratedDeriv_succ',
    show (2 : ℕ) = 1 + 1 from rfl, iteratedDeriv_succ', iteratedDeriv_one, d1, d2, d3, d4] at h
  simp at h
  rw [← h]

variable {Ω : Type*} [MeasurableSpace Ω] {μ : Measure Ω} [IsProbabilityMeasure μ]

/-- Fourth moment of a centred Gaussian variable. -/
theorem hasGaussian_fourth {X : Ω → ℝ} (h : HasGaussianLaw X μ) (h0 : ∫ ω, X ω ∂μ = 0) :
    ∫ ω, X ω ^ 4 ∂μ = 3 * (∫ ω, X ω ^ 2 ∂μ) ^ 2 := by
  have h1 := integral_map (μ := μ) (φ := X) h.aemeasurable (f := fun x : ℝ => x ^ 4) (by fun_prop)
  rw [← h1, h.map_eq_gaussianReal, h0, gaussian_fourth, variance_of_integral_eq_zero h.aemeasurable h0]
  rw [Real.coe_toNNReal _ (integral_nonneg fun _ => sq_nonneg _)]

/-- Covariance of the squares of two jointly Gaussian variables. -/
theorem gaussian_squares {X Y : Ω → ℝ} (h : HasGaussianLaw (fun ω => (X ω, Y ω)) μ) (hX : ∫ ω, X ω ∂μ = 0)
    (hY : ∫ ω, Y ω ∂μ = 0) :
    Integrable (fun ω => X ω ^ 2 * Y ω ^ 2) μ ∧
    ∫ ω, X ω ^ 2 * Y ω ^ 2 ∂μ = (∫ ω, X ω ^ 2 ∂μ) * (∫ ω, Y ω ^ 2 ∂μ) + 2 * (∫ ω, X ω * Y ω ∂μ) ^ 2 := by
  have gX : HasGaussianLaw X μ := h.fst
  have gY : HasGaussianLaw Y μ := h.snd
  have gA : HasGaussianLaw (fun ω => X ω + Y ω) μ := h.fun_add
  have gS : HasGaussianLaw (fun ω => X ω - Y ω) μ := h.fun_sub
  have l4 : ∀ {Z : Ω → ℝ}, HasGaussianLaw Z μ → Integrable (fun ω => Z ω ^ 4) μ := fun {Z} g => by
    have := (g.memLp (p := 4) (by norm_num)).integrable_norm_pow (p := 4) (by norm_num)
    refine this.congr (Filter.Eventually.of_forall fun ω => ?_)
    beta_reduce
    rw [Real.norm_eq_abs, ← abs_pow, abs_of_nonneg (by positivity)]
  have l2 : ∀ {Z : Ω → ℝ}, HasGaussianLaw Z μ → MemLp Z 2 μ := fun {Z} g => g.memLp_two
  have iX := (l2 gX).integrable one_le_two
  have iY := (l2 gY).integrable one_le_two
  have iXY : Integrable (fun ω => X ω * Y ω) μ := (l2 gX).integrable_mul (l2 gY)
  have iX2 : Integrable (fun ω => X ω ^ 2) μ := (l2 gX).integrable_sq
  have iY2 : Integrable (fun ω => Y ω ^ 2) μ := (l2 gY).integrable_sq
  have i22 : Integrable (fun ω => X ω ^ 2 + Y ω ^ 2) μ := iX2.add iY2
  have e : ∀ ω, X ω ^ 2 * Y ω ^ 2 = 1 / 12 * (X ω + Y ω) ^ 4 + 1 / 12 * (X ω - Y ω) ^ 4 - (1 / 6 * X ω ^ 4 + 1 / 6 * Y ω ^ 4) := fun ω => by ring
  have i1 := (l4 gA).const_mul (1 / 12)
  have i2 := (l4 gS).const_mul (1 / 12)
  have i3 := (l4 gX).const_mul (1 / 6)
  have i4 := (l4 gY).const_mul (1 / 6)
  have hA : ∫ ω, (X ω + Y ω) ∂μ = 0 := by rw [integral_add iX iY, hX, hY, add_zero]
  have hS : ∫ ω, (X ω - Y ω) ∂μ = 0 := by rw [integral_sub iX iY, hX, hY, sub_zero]
  simp only [e]
  have i12 : Integrable (fun ω => 1 / 12 * (X ω + Y ω) ^ 4 + 1 / 12 * (X ω - Y ω) ^ 4) μ := i1.add i2
  have i34 : Integrable (fun ω => 1 / 6 * X ω ^ 4 + 1 / 6 * Y ω ^ 4) μ := i3.add i4
  refine ⟨i12.sub i34, ?_⟩
  rw [integral_sub i12 i34, integral_add i1 i2, integral_add i3 i4]
  simp only [integral_const_mul]
  rw [hasGaussian_fourth gA hA, hasGaussian_fourth gS hS, hasGaussian_fourth gX hX, hasGaussian_fourth gY hY]
  have hA2 : ∫ ω, (X ω + Y ω) ^ 2 ∂μ = ∫ ω, X ω ^ 2 ∂μ + ∫ ω, Y ω ^ 2 ∂μ + 2 * ∫ ω, X ω * Y ω ∂μ := by
    rw [← integral_add iX2 iY2, ← integral_const_mul, ← integral_add i22 (iXY.const_mul 2)]
    refine integral_congr_ae (Filter.Eventually.of_forall fun ω => ?_)
    ring
  have hS2 : ∫ ω, (X ω - Y ω) ^ 2 ∂μ = ∫ ω, X ω ^ 2 ∂μ + ∫ ω, Y ω ^ 2 ∂μ - 2 * ∫ ω, X ω * Y ω ∂μ := by
    rw [← integral_add iX2 iY2, ← integral_const_mul, ← integral_sub i22 (iXY.const_mul 2)]
    refine integral_congr_ae (Filter.Eventually.of_forall fun ω => ?_)
    ring
  rw [hA2, hS2]
  ring

/-- Variance of a sum of squares of jointly Gaussian centred variables. -/
theorem gaussian_sum_squares {ι : Type*} [Fintype ι] {X : ι → Ω → ℝ} (h : HasGaussianLaw (fun ω i => X i ω) μ)
    (h0 : ∀ i, ∫ ω, X i ω ∂μ = 0) (s : Finset ι) :
    MemLp (fun ω => ∑ i ∈ s, X i ω ^ 2) 2 μ ∧
    Var[fun ω => ∑ i ∈ s, X i ω ^ 2; μ] = 2 * ∑ i ∈ s, ∑ j ∈ s, (∫ ω, X i ω * X j ω ∂μ) ^ 2 := by
  have hp : ∀ i j, HasGaussianLaw (fun ω => (X i ω, X j ω)) μ := fun i j => h.prodMk i j
  have h2 : ∀ i j, Integrable (fun ω => X i ω ^ 2 * X j ω ^ 2) μ := fun i j => (gaussian_squares (hp i j) (h0 i) (h0 j)).1
  have hg : ∀ i, HasGaussianLaw (X i) μ := fun i => (hp i i).fst
  have iX2 : ∀ i, Integrable (fun ω => X i ω ^ 2) μ := fun i => (hg i).memLp_two.integrable_sq
  have hm : MemLp (fun ω => ∑ i ∈ s, X i ω ^ 2) 2 μ := by
    refine memLp_finset_sum _ fun i _ => ?_
    rw [memLp_two_iff_integrable_sq ((hg i).aemeasurable.pow_const 2).aestronglyMeasurable]
    refine (h2 i i).congr (Filter.Eventually.of_forall fun ω => ?_)
    simp only [Pi.pow_apply]
    ring
  refine ⟨hm, ?_⟩
  rw [variance_eq_sub hm]
  have e1 : ∀ ω, ((fun ω => ∑ i ∈ s, X i ω ^ 2) ^ 2) ω = ∑ i ∈ s, ∑ j ∈ s, X i ω ^ 2 * X j ω ^ 2 := by
    intro ω
    rw [Pi.pow_apply, sq, Finset.sum_mul_sum]
  simp only [e1]
  rw [integral_finsetSum _ fun i _ => integrable_finsetSum _ fun j _ => h2 i j, integral_finsetSum _ fun i _ => iX2 i]
  rw [sq, Finset.sum_mul_sum, ← Finset.sum_sub_distrib, Finset.mul_sum]
  refine Finset.sum_congr rfl fun i _ => ?_
  rw [integral_finsetSum _ fun j _ => h2 i j, ← Finset.sum_sub_distrib, Finset.mul_sum]
  refine Finset.sum_congr rfl fun j _ => ?_
  rw [(gaussian_squares (hp i j) (h0 i) (h0 j)).2]
  ring

end
end Verif
