import Mathlib.MeasureTheory.Integral.DominatedConvergence
import Mathlib.Analysis.SpecialFunctions.JapaneseBracket
import Mathlib.MeasureTheory.Constructions.BorelSpace.Real
import Mathlib.MeasureTheory.Measure.Lebesgue.Basic
import Mathlib.MeasureTheory.Integral.IntegralEqImproper
import Verif.Lemmas.RiemannPlane

/-!
# Riemann sums over a growing and refining grid of the line
-/

namespace Verif

noncomputable section
open MeasureTheory Filter Topology Classical

/-- The step function with the value at the left end in every cell of the index set. -/
def stepLine (f : ℝ → ℝ) (a : ℝ) (I : Finset ℤ) (x : ℝ) : ℝ := if ⌊x / a⌋ ∈ I then f (a * ⌊x / a⌋) else 0

theorem stepLine_eq_sum (f : ℝ → ℝ) {a : ℝ} (ha : 0 < a) (I : Finset ℤ) (x : ℝ) :
    stepLine f a I x = ∑ i ∈ I, (Set.Ico (a * (i : ℝ)) (a * i + a)).indicator (fun _ => f (a * i)) x := by
  have key : ∀ i : ℤ, x ∈ Set.Ico (a * (i : ℝ)) (a * i + a) ↔ i = ⌊x / a⌋ := by
    intro i
    rw [eq_comm, Int.floor_eq_iff, le_div_iff₀ ha, div_lt_iff₀ ha, Set.mem_Ico]
    constructor <;> rintro ⟨h1, h2⟩ <;> constructor <;> nlinarith
  simp only [Set.indicator_apply, key]
  rw [Finset.sum_ite_eq']
  rfl

theorem stepLine_integral (f : ℝ → ℝ) {a : ℝ} (ha : 0 < a) (I : Finset ℤ) :
    ∫ x, stepLine f a I x = a * ∑ i ∈ I, f (a * i) := by
  simp only [stepLine_eq_sum f ha]
  have hvol : ∀ i : ℤ, volume (Set.Ico (a * (i : ℝ)) (a * i + a)) = ENNReal.ofReal a := by
    intro i
    rw [Real.volume_Ico, add_sub_cancel_left]
  rw [integral_finset_sum]
  · rw [Finset.mul_sum]
    refine Finset.sum_congr rfl fun i _ => ?_
    rw [integral_indicator measurableSet_Ico, setIntegral_const, measureReal_def, hvol, ENNReal.toReal_ofReal ha.le,
      smul_eq_mul]
  · intro i _
    rw [integrable_indicator_iff measurableSet_Ico]
    exact integrableOn_const (by rw [hvol]; exact ENNReal.ofReal_ne_top)

theorem stepLine_measurable (f : ℝ → ℝ) {a : ℝ} (ha : 0 < a) (I : Finset ℤ) : AEStronglyMeasurable (stepLine f a I) := by
  have : stepLine f a I = fun x => ∑ i ∈ I, (Set.Ico (a * (i : ℝ)) (a * i + a)).indicator (fun _ => f (a * i)) x :=
    funext fun x => stepLine_eq_sum f ha I x
  rw [this]
  exact Measurable.aestronglyMeasurable (Finset.measurable_sum _ fun i _ => measurable_const.indicator measurableSet_Ico)

/-- Riemann sums of a continuous function that decays faster than the inverse, over index sets that contain all cells of a
large interval, approach its integral over the line when the interval grows and the cells shrink. -/
theorem riemann_line {f : ℝ → ℝ} (hf : Continuous f) {C p : ℝ} (hp : 1 < p) (hb : ∀ x, |f x| ≤ C * (1 + ‖x‖) ^ (-p))
    {ε : ℝ} (hε : 0 < ε) :
    ∃ R > 0, ∃ d > 0, ∀ a : ℝ, 0 < a → a ≤ d → ∀ I : Finset ℤ, (∀ i : ℤ, |a * i| ≤ R → i ∈ I) →
      |a * ∑ i ∈ I, f (a * i) - ∫ x, f x| ≤ ε := by
  by_contra hcon
  push Not at hcon
  have hC : 0 ≤ C := by
    have := (abs_nonneg _).trans (hb 0)
    simpa using this
  choose a a0 a1 I hI hbad using fun n : ℕ => hcon ((n : ℝ) + 1) (by positivity) (1 / ((n : ℝ) + 1)) (by positivity)
  have hlim : Tendsto (fun n => ∫ x, stepLine f (a n) (I n) x) atTop (𝓝 (∫ x, f x)) := by
    refine tendsto_integral_of_dominated_convergence (fun x => C * 2 ^ p * (1 + ‖x‖) ^ (-p))
      (fun n => stepLine_measurable f (a0 n) (I n)) ?_ ?_ ?_
    · exact (integrable_one_add_norm (E := ℝ) (μ := volume) (r := p) (by simpa using hp)).const_mul _
    · intro n
      refine Eventually.of_forall fun x => ?_
      rw [Real.norm_eq_abs]
      unfold stepLine
      have hpos : 0 ≤ C * 2 ^ p * (1 + ‖x‖) ^ (-p) := by positivity
      split_ifs
      · refine (hb _).trans ?_
        set u : ℝ := a n * ⌊x / a n⌋ with hu
        have hd : ‖u - x‖ ≤ 1 := (floor_near (a0 n) x).trans
          ((a1 n).trans (by rw [div_le_one (by positivity)]; linarith [n.cast_nonneg (α := ℝ)]))
        have h1 : ‖x‖ ≤ ‖u‖ + 1 := by
          have := norm_sub_norm_le x u
          rw [norm_sub_rev] at this
          linarith
        have h2 : (1 + ‖x‖) / 2 ≤ 1 + ‖u‖ := by linarith [norm_nonneg u]
        have h3 : (1 + ‖u‖) ^ (-p) ≤ ((1 + ‖x‖) / 2) ^ (-p) :=
          Real.rpow_le_rpow_of_nonpos (by positivity) h2 (by linarith)
        have h4 : ((1 + ‖x‖) / 2) ^ (-p) = 2 ^ p * (1 + ‖x‖) ^ (-p) := by
          rw [Real.div_rpow (by positivity) (by norm_num), Real.rpow_neg (by norm_num : (0:ℝ) ≤ 2), div_inv_eq_mul, mul_comm]
        calc C * (1 + ‖u‖) ^ (-p) ≤ C * (2 ^ p * (1 + ‖x‖) ^ (-p)) := by rw [← h4]; gcongr
          _ = _ := by ring
      · simpa using hpos
    · refine Eventually.of_forall fun x => ?_
      have hnear : Tendsto (fun n => a n * ⌊x / a n⌋) atTop (𝓝 x) := by
        rw [tendsto_iff_norm_sub_tendsto_zero]
        refine squeeze_zero (fun _ => norm_nonneg _) (fun n => (floor_near (a0 n) x).trans (a1 n)) ?_
        exact tendsto_one_div_add_atTop_nhds_zero_nat
      refine (hf.continuousAt.tendsto.comp hnear).congr' ?_
      obtain ⟨N, hN⟩ := exists_nat_ge |x|
      filter_upwards [eventually_ge_atTop N] with n hn
      unfold stepLine
      have hNn : (N : ℝ) ≤ n := by exact_mod_cast hn
      have hone : 1 / ((n : ℝ) + 1) ≤ 1 := by rw [div_le_one (by positivity)]; linarith [n.cast_nonneg (α := ℝ)]
      rw [if_pos]
      · rfl
      · refine hI n _ ?_
        have h1 := floor_near (a0 n) x
        have h2 := abs_sub_abs_le_abs_sub (a n * ⌊x / a n⌋) x
        have := a1 n
        linarith
  have hev := hlim.eventually (Metric.ball_mem_nhds _ hε)
  obtain ⟨n, hn⟩ := hev.exists
  rw [stepLine_integral f (a0 n), Real.dist_eq] at hn
  exact absurd hn.le (not_le.2 (hbad n))

/-- The integral over a large symmetric interval approaches the integral over the line. -/
theorem interval_line {f : ℝ → ℝ} (hf : Continuous f) {C p : ℝ} (hp : 1 < p) (hb : ∀ x, |f x| ≤ C * (1 + ‖x‖) ^ (-p))
    {ε : ℝ} (hε : 0 < ε) : Integrable f ∧ ∃ H > 0, ∀ h ≥ H, |(∫ x in (-h)..h, f x) - ∫ x, f x| ≤ ε := by
  have hi : Integrable f := by
    refine Integrable.mono' ((integrable_one_add_norm (E := ℝ) (μ := volume) (r := p) (by simpa using hp)).const_mul C)
      hf.aestronglyMeasurable (Eventually.of_forall fun x => ?_)
    rw [Real.norm_eq_abs]
    exact hb x
  refine ⟨hi, ?_⟩
  have ht := intervalIntegral_tendsto_integral hi tendsto_neg_atTop_atBot tendsto_id (l := atTop)
  have hev := ht.eventually (Metric.closedBall_mem_nhds _ hε)
  obtain ⟨H, hH⟩ := eventually_atTop.1 hev
  refine ⟨max H 1, lt_max_of_lt_right one_pos, fun h hh => ?_⟩
  have := hH h ((le_max_left _ _).trans hh)
  rwa [Real.dist_eq] at this

end
end Verif
