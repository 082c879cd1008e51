import Mathlib.MeasureTheory.Integral.DominatedConvergence
import Mathlib.Analysis.SpecialFunctions.JapaneseBracket
import Mathlib.MeasureTheory.Constructions.BorelSpace.Real
import Mathlib.MeasureTheory.Measure.Lebesgue.Basic
import Mathlib.MeasureTheory.Measure.Prod
import Mathlib.Analysis.SpecialFunctions.PolarCoord
import Mathlib.Algebra.Order.Floor.Ring

/-!
# Riemann sums over a growing and refining grid of the plane
-/

namespace Verif

noncomputable section
open MeasureTheory Filter Topology Classical

/-- The step function with the value at the lower left corner in every cell of the index set. -/
def stepPlane (f : ℝ × ℝ → ℝ) (a b : ℝ) (I : Finset (ℤ × ℤ)) (x : ℝ × ℝ) : ℝ :=
  if (⌊x.1 / a⌋, ⌊x.2 / b⌋) ∈ I then f (a * ⌊x.1 / a⌋, b * ⌊x.2 / b⌋) else 0

theorem stepPlane_eq_sum (f : ℝ × ℝ → ℝ) {a b : ℝ} (ha : 0 < a) (hb : 0 < b) (I : Finset (ℤ × ℤ)) (x : ℝ × ℝ) :
    stepPlane f a b I x = ∑ i ∈ I, (Set.Ico (a * i.1) (a * i.1 + a) ×ˢ Set.Ico (b * i.2) (b * i.2 + b)).indicator
      (fun _ => f (a * i.1, b * i.2)) x := by
  have key : ∀ i : ℤ × ℤ, x ∈ Set.Ico (a * i.1) (a * i.1 + a) ×ˢ Set.Ico (b * i.2) (b * i.2 + b) ↔
      i = (⌊x.1 / a⌋, ⌊x.2 / b⌋) := by
    intro i
    have h1 : x.1 ∈ Set.Ico (a * (i.1 : ℝ)) (a * i.1 + a) ↔ i.1 = ⌊x.1 / a⌋ := by
      rw [eq_comm, Int.floor_eq_iff, le_div_iff₀ ha, div_lt_iff₀ ha, Set.mem_Ico]
      constructor <;> rintro ⟨h1, h2⟩ <;> constructor <;> nlinarith
    have h2 : x.2 ∈ Set.Ico (b * (i.2 : ℝ)) (b * i.2 + b) ↔ i.2 = ⌊x.2 / b⌋ := by
      rw [eq_comm, Int.floor_eq_iff, le_div_iff₀ hb, div_lt_iff₀ hb, Set.mem_Ico]
      constructor <;> rintro ⟨h1, h2⟩ <;> constructor <;> nlinarith
    rw [Set.mem_prod, h1, h2, Prod.ext_iff]
  simp only [Set.indicator_apply, key]
  rw [Finset.sum_ite_eq']
  rfl

theorem stepPlane_integral (f : ℝ × ℝ → ℝ) {a b : ℝ} (ha : 0 < a) (hb : 0 < b) (I : Finset (ℤ × ℤ)) :
    ∫ x, stepPlane f a b I x = a * b * ∑ i ∈ I, f (a * i.1, b * i.2) := by
  simp only [stepPlane_eq_sum f ha hb]
  have hms : ∀ i : ℤ × ℤ, MeasurableSet (Set.Ico (a * (i.1 : ℝ)) (a * i.1 + a) ×ˢ Set.Ico (b * (i.2 : ℝ)) (b * i.2 + b)) :=
    fun i => measurableSet_Ico.prod measurableSet_Ico
  have hvol : ∀ i : ℤ × ℤ, volume (Set.Ico (a * (i.1 : ℝ)) (a * i.1 + a) ×ˢ Set.Ico (b * (i.2 : ℝ)) (b * i.2 + b)) =
      ENNReal.ofReal (a * b) := by
    intro i
    rw [Measure.volume_eq_prod, Measure.prod_prod, Real.volume_Ico, Real.volume_Ico, add_sub_cancel_left,
      add_sub_cancel_left, ENNReal.ofReal_mul ha.le]
  rw [integral_finset_sum]
  · rw [Finset.mul_sum]
    refine Finset.sum_congr rfl fun i _ => ?_
    rw [integral_indicator (hms i), setIntegral_const, measureReal_def, hvol, ENNReal.toReal_ofReal (by positivity),
      smul_eq_mul]
  · intro i _
    rw [integrable_indicator_iff (hms i)]
    exact integrableOn_const (by rw [hvol]; exact ENNReal.ofReal_ne_top)

theorem stepPlane_measurable (f : ℝ × ℝ → ℝ) {a b : ℝ} (ha : 0 < a) (hb : 0 < b) (I : Finset (ℤ × ℤ)) :
    AEStronglyMeasurable (stepPlane f a b I) := by
  have : stepPlane f a b I = fun x => ∑ i ∈ I,
      (Set.Ico (a * (i.1 : ℝ)) (a * i.1 + a) ×ˢ Set.Ico (b * (i.2 : ℝ)) (b * i.2 + b)).indicator
        (fun _ => f (a * i.1, b * i.2)) x := funext fun x => stepPlane_eq_sum f ha hb I x
  rw [this]
  refine Measurable.aestronglyMeasurable (Finset.measurable_sum _ fun i _ => ?_)
  exact measurable_const.indicator (measurableSet_Ico.prod measurableSet_Ico)

theorem floor_near {a : ℝ} (ha : 0 < a) (x : ℝ) : |a * ⌊x / a⌋ - x| ≤ a := by
  have h1 := Int.floor_le (x / a)
  have h2 := Int.lt_floor_add_one (x / a)
  rw [le_div_iff₀ ha] at h1
  rw [div_lt_iff₀ ha] at h2
  rw [abs_le]
  constructor <;> nlinarith

theorem corner_near {a b : ℝ} (ha : 0 < a) (hb : 0 < b) (x : ℝ × ℝ) :
    ‖((a * ⌊x.1 / a⌋, b * ⌊x.2 / b⌋) : ℝ × ℝ) - x‖ ≤ max a b := by
  rw [Prod.norm_def]
  exact max_le_max (by simpa using floor_near ha x.1) (by simpa using floor_near hb x.2)

/-- Riemann sums of a function that decays faster than the inverse square, over index sets that contain all cells of a large
square, approach its integral over the plane when the square grows and the cells shrink. -/
theorem riemann_plane {f : ℝ × ℝ → ℝ} (hf : ∀ x, x ≠ 0 → ContinuousAt f x) {C p : ℝ} (hp : 2 < p)
    (hb : ∀ x, |f x| ≤ C * (1 + ‖x‖) ^ (-p)) {ε : ℝ} (hε : 0 < ε) :
    ∃ R > 0, ∃ d > 0, ∀ a b : ℝ, 0 < a → a ≤ d → 0 < b → b ≤ d → ∀ I : Finset (ℤ × ℤ),
      (∀ i : ℤ × ℤ, |a * i.1| ≤ R → |b * i.2| ≤ R → i ∈ I) →
      |a * b * ∑ i ∈ I, f (a * i.1, b * i.2) - ∫ x, f x| ≤ ε := by
  by_contra hcon
  push Not at hcon
  have hC : 0 ≤ C := by
    have := (abs_nonneg _).trans (hb 0)
    simpa using this
  choose a b a0 a1 b0 b1 I hI hbad using fun n : ℕ => hcon ((n : ℝ) + 1) (by positivity) (1 / ((n : ℝ) + 1)) (by positivity)
  have hlim : Tendsto (fun n => ∫ x, stepPlane f (a n) (b n) (I n) x) atTop (𝓝 (∫ x, f x)) := by
    refine tendsto_integral_of_dominated_convergence (fun x => C * 2 ^ p * (1 + ‖x‖) ^ (-p))
      (fun n => stepPlane_measurable f (a0 n) (b0 n) (I n)) ?_ ?_ ?_
    · exact (integrable_one_add_norm (E := ℝ × ℝ) (μ := volume) (r := p) (by simp; linarith)).const_mul _
    · intro n
      refine Eventually.of_forall fun x => ?_
      rw [Real.norm_eq_abs]
      unfold stepPlane
      have hpos : 0 ≤ C * 2 ^ p * (1 + ‖x‖) ^ (-p) := by positivity
      split_ifs
      · refine (hb _).trans ?_
        set u : ℝ × ℝ := (a n * ⌊x.1 / a n⌋, b n * ⌊x.2 / b n⌋) with hu
        have hd : ‖u - x‖ ≤ 1 := (corner_near (a0 n) (b0 n) x).trans (max_le
          ((a1 n).trans (by rw [div_le_one (by positivity)]; linarith [n.cast_nonneg (α := ℝ)]))
          ((b1 n).trans (by rw [div_le_one (by positivity)]; linarith [n.cast_nonneg (α := ℝ)])))
        have h1 : ‖x‖ ≤ ‖u‖ + 1 := by
          have := norm_sub_norm_le x u
          rw [norm_sub_rev] at this
          linarith
        have h2 : (1 + ‖x‖) / 2 ≤ 1 + ‖u‖ := by linarith [norm_nonneg u]
        have h3 : (1 + ‖u‖) ^ (-p) ≤ ((1 + ‖x‖) / 2) ^ (-p) :=
          Real.rpow_le_rpow_of_nonpos (by positivity) h2 (by linarith)
        have h4 : ((1 + ‖x‖) / 2) ^ (-p) = 2 ^ p * (1 + ‖x‖) ^ (-p) := by
          rw [Real.div_rpow (by positivity) (by norm_num), Real.rpow_neg (by norm_num : (0:ℝ) ≤ 2), div_inv_eq_mul, mul_comm]
        calc C * (1 + ‖u‖) ^ (-p) ≤ C * (2 ^ p * (1 + ‖x‖) ^ (-p)) := by rw [← h4]; gcongr
          _ = _ := by ring
      · simpa using hpos
    · have hae : ∀ᵐ x : ℝ × ℝ, x ≠ 0 := by
        rw [ae_iff]
        have : {x : ℝ × ℝ | ¬ x ≠ 0} = {(0 : ℝ)} ×ˢ {(0 : ℝ)} := by
          ext x
          simp [Prod.ext_iff]
        rw [this, Measure.volume_eq_prod, Measure.prod_prod]
        simp
      filter_upwards [hae] with x hx
      have hnear : Tendsto (fun n => ((a n * ⌊x.1 / a n⌋, b n * ⌊x.2 / b n⌋) : ℝ × ℝ)) atTop (𝓝 x) := by
        rw [tendsto_iff_norm_sub_tendsto_zero]
        refine squeeze_zero (fun _ => norm_nonneg _) (fun n => (corner_near (a0 n) (b0 n) x).trans (max_le (a1 n) (b1 n))) ?_
        exact tendsto_one_div_add_atTop_nhds_zero_nat
      refine ((hf x hx).tendsto.comp hnear).congr' ?_
      obtain ⟨N, hN⟩ := exists_nat_ge ‖x‖
      filter_upwards [eventually_ge_atTop N] with n hn
      unfold stepPlane
      have hNn : (N : ℝ) ≤ n := by exact_mod_cast hn
      have hx1 : |x.1| ≤ ‖x‖ := norm_fst_le x
      have hx2 : |x.2| ≤ ‖x‖ := norm_snd_le x
      have hone : 1 / ((n : ℝ) + 1) ≤ 1 := by rw [div_le_one (by positivity)]; linarith [n.cast_nonneg (α := ℝ)]
      rw [if_pos]
      · rfl
      · refine hI n _ ?_ ?_
        · have h1 := floor_near (a0 n) x.1
          have h2 := abs_sub_abs_le_abs_sub (a n * ⌊x.1 / a n⌋) x.1
          have := a1 n
          simp only
          linarith
        · have h1 := floor_near (b0 n) x.2
          have h2 := abs_sub_abs_le_abs_sub (b n * ⌊x.2 / b n⌋) x.2
          have := b1 n
          simp only
          linarith
  have hev := hlim.eventually (Metric.ball_mem_nhds _ hε)
  obtain ⟨n, hn⟩ := hev.exists
  rw [stepPlane_integral f (a0 n) (b0 n), Real.dist_eq] at hn
  exact absurd hn.le (not_le.2 (hbad n))

end
end Verif
