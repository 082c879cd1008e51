import Mathlib.MeasureTheory.Integral.DominatedConvergence
import Mathlib.MeasureTheory.Constructions.BorelSpace.Real
import Mathlib.MeasureTheory.Measure.Lebesgue.Basic
import Mathlib.MeasureTheory.Measure.Prod
import Mathlib.Analysis.SpecialFunctions.Pow.Integral
import Mathlib.Algebra.Order.Floor.Ring
import Mathlib.MeasureTheory.Measure.Haar.Basic
import Mathlib.MeasureTheory.Measure.Haar.OfBasis
import Mathlib.MeasureTheory.Measure.Lebesgue.EqHaar
import Mathlib.MeasureTheory.Group.Prod

/-!
# Riemann sums over a box of wavevectors, for functions with an inverse-square singularity at the origin
-/

namespace Verif

noncomputable section
open MeasureTheory Filter Topology Classical

/-- Index of the cell of width `a`, centred at multiples of `a`, in which `x` lies. -/
def cellIdx (a x : ℝ) : ℤ := ⌊x / a + 1 / 2⌋

theorem cellIdx_iff {a : ℝ} (ha : 0 < a) (x : ℝ) (i : ℤ) :
    x ∈ Set.Ico (a * i - a / 2) (a * i + a / 2) ↔ i = cellIdx a x := by
  unfold cellIdx
  rw [eq_comm, Int.floor_eq_iff, Set.mem_Ico]
  have e : x / a + 1 / 2 = (x + a / 2) / a := by field_simp
  rw [e, le_div_iff₀ ha, div_lt_iff₀ ha]
  constructor <;> rintro ⟨h1, h2⟩ <;> constructor <;> nlinarith

theorem cellIdx_near {a : ℝ} (ha : 0 < a) (x : ℝ) : |a * cellIdx a x - x| ≤ a / 2 := by
  obtain ⟨h1, h2⟩ := (cellIdx_iff ha x _).2 rfl
  rw [abs_le]
  constructor <;> linarith

/-- Indices of the cells that are not at the Nyquist end: those with `2 |i| < n`. -/
def innerIdx (n : ℕ) : Finset ℤ := Finset.Icc (-(((n - 1) / 2 : ℕ) : ℤ)) (((n - 1) / 2 : ℕ) : ℤ)

theorem mem_innerIdx {n : ℕ} (hn : 0 < n) (i : ℤ) : i ∈ innerIdx n ↔ -(n : ℤ) < 2 * i ∧ 2 * i < n := by
  unfold innerIdx
  rw [Finset.mem_Icc]
  omega

theorem cellIdx_inner {A : ℝ} (hA : 0 < A) {n : ℕ} (hn : 0 < n) {x : ℝ} (h : cellIdx (2 * A / n) x ∈ innerIdx n) :
    x ∈ Set.Ico (-A) A := by
  have hp : (0 : ℝ) < n := by exact_mod_cast hn
  rw [mem_innerIdx hn] at h
  have h1 : -(n : ℝ) + 1 ≤ 2 * cellIdx (2 * A / n) x := by
    have : -(n : ℤ) + 1 ≤ 2 * cellIdx (2 * A / n) x := by omega
    exact_mod_cast this
  have h2 : 2 * (cellIdx (2 * A / n) x : ℝ) + 1 ≤ n := by
    have : 2 * cellIdx (2 * A / n) x + 1 ≤ n := by omega
    exact_mod_cast this
  obtain ⟨g1, g2⟩ := (cellIdx_iff (by positivity : 0 < 2 * A / n) x _).2 rfl
  have e : 2 * A / n * n = 2 * A := by field_simp
  have ep : 0 < 2 * A / n := by positivity
  constructor <;> nlinarith

theorem cellIdx_inner_of {A : ℝ} (hA : 0 < A) {n : ℕ} (hn : 0 < n) {x : ℝ} (h : |x| + 2 * (2 * A / n) < A) :
    cellIdx (2 * A / n) x ∈ innerIdx n := by
  have hp : (0 : ℝ) < n := by exact_mod_cast hn
  have ep : 0 < 2 * A / n := by positivity
  have e : 2 * A / n * n = 2 * A := by field_simp
  have g := cellIdx_near ep x
  rw [abs_le] at g
  have hx := abs_le.1 (le_refl |x|)
  rw [mem_innerIdx hn]
  have k1 : 2 * A / n * (2 * (cellIdx (2 * A / n) x : ℝ)) < 2 * A / n * n := by rw [e]; nlinarith
  have k2 : 2 * A / n * (-(n : ℝ)) < 2 * A / n * (2 * (cellIdx (2 * A / n) x : ℝ)) := by
    have : 2 * A / n * (-(n : ℝ)) = -(2 * A) := by rw [mul_neg, e]
    rw [this]; nlinarith
  have j1 := lt_of_mul_lt_mul_left k1 ep.le
  have j2 := lt_of_mul_lt_mul_left k2 ep.le
  exact ⟨by exact_mod_cast j2, by exact_mod_cast j1⟩

/-- The grid point nearest to `x`. -/
def nearPt (a b c : ℝ) (x : ℝ × ℝ × ℝ) : ℝ × ℝ × ℝ :=
  (a * cellIdx a x.1, b * cellIdx b x.2.1, c * cellIdx c x.2.2)

/-- The step function with the value at the centre in every cell of the index set. -/
def stepBand (F : ℝ × ℝ × ℝ → ℂ) (a b c : ℝ) (I : Finset (ℤ × ℤ × ℤ)) (x : ℝ × ℝ × ℝ) : ℂ :=
  if (cellIdx a x.1, cellIdx b x.2.1, cellIdx c x.2.2) ∈ I then F (nearPt a b c x) else 0

/-- The cell with index `i`. -/
def cellBand (a b c : ℝ) (i : ℤ × ℤ × ℤ) : Set (ℝ × ℝ × ℝ) :=
  Set.Ico (a * i.1 - a / 2) (a * i.1 + a / 2) ×ˢ Set.Ico (b * i.2.1 - b / 2) (b * i.2.1 + b / 2) ×ˢ
    Set.Ico (c * i.2.2 - c / 2) (c * i.2.2 + c / 2)

theorem cellBand_meas (a b c : ℝ) (i : ℤ × ℤ × ℤ) : MeasurableSet (cellBand a b c i) :=
  measurableSet_Ico.prod (measurableSet_Ico.prod measurableSet_Ico)

theorem cellBand_vol {a b c : ℝ} (ha : 0 < a) (hb : 0 < b) (i : ℤ × ℤ × ℤ) :
    volume (cellBand a b c i) = ENNReal.ofReal (a * b * c) := by
  unfold cellBand
  rw [Measure.volume_eq_prod, Measure.prod_prod, Measure.volume_eq_prod, Measure.prod_prod, Real.volume_Ico,
    Real.volume_Ico, Real.volume_Ico, mul_assoc, ENNReal.ofReal_mul ha.le, ENNReal.ofReal_mul hb.le]
  rw [show a * (i.1 : ℝ) + a / 2 - (a * i.1 - a / 2) = a by ring, show b * (i.2.1 : ℝ) + b / 2 - (b * i.2.1 - b / 2) = b by ring,
    show c * (i.2.2 : ℝ) + c / 2 - (c * i.2.2 - c / 2) = c by ring]

theorem stepBand_eq_sum (F : ℝ × ℝ × ℝ → ℂ) {a b c : ℝ} (ha : 0 < a) (hb : 0 < b) (hc : 0 < c) (I : Finset (ℤ × ℤ × ℤ))
    (x : ℝ × ℝ × ℝ) :
    stepBand F a b c I x = ∑ i ∈ I, (cellBand a b c i).indicator (fun _ => F (a * i.1, b * i.2.1, c * i.2.2)) x := by
  have key : ∀ i : ℤ × ℤ × ℤ, x ∈ cellBand a b c i ↔ i = (cellIdx a x.1, cellIdx b x.2.1, cellIdx c x.2.2) := by
    intro i
    unfold cellBand
    rw [Set.mem_prod, Set.mem_prod, cellIdx_iff ha, cellIdx_iff hb, cellIdx_iff hc, Prod.ext_iff, Prod.ext_iff]
  simp only [Set.indicator_apply, key]
  rw [Finset.sum_ite_eq']
  rfl

theorem stepBand_integral (F : ℝ × ℝ × ℝ → ℂ) {a b c : ℝ} (ha : 0 < a) (hb : 0 < b) (hc : 0 < c)
    (I : Finset (ℤ × ℤ × ℤ)) :
    ∫ x, stepBand F a b c I x = ((a * b * c : ℝ) : ℂ) * ∑ i ∈ I, F (a * i.1, b * i.2.1, c * i.2.2) := by
  simp only [stepBand_eq_sum F ha hb hc]
  rw [integral_finset_sum]
  · rw [Finset.mul_sum]
    refine Finset.sum_congr rfl fun i _ => ?_
    rw [integral_indicator (cellBand_meas a b c i), setIntegral_const, measureReal_def, cellBand_vol ha hb,
      ENNReal.toReal_ofReal (by positivity)]
    exact Complex.real_smul
  · intro i _
    rw [integrable_indicator_iff (cellBand_meas a b c i)]
    exact integrableOn_const (by rw [cellBand_vol ha hb]; exact ENNReal.ofReal_ne_top)

theorem stepBand_measurable (F : ℝ × ℝ × ℝ → ℂ) {a b c : ℝ} (ha : 0 < a) (hb : 0 < b) (hc : 0 < c)
    (I : Finset (ℤ × ℤ × ℤ)) : AEStronglyMeasurable (stepBand F a b c I) := by
  have : stepBand F a b c I = fun x => ∑ i ∈ I,
      (cellBand a b c i).indicator (fun _ => F (a * i.1, b * i.2.1, c * i.2.2)) x :=
    funext fun x => stepBand_eq_sum F ha hb hc I x
  rw [this]
  refine Measurable.aestronglyMeasurable (Finset.measurable_sum _ fun i _ => ?_)
  exact measurable_const.indicator (cellBand_meas a b c i)

/-- Box of wavevectors, half-open like the range of the transform. -/
def bandBox (A B C : ℝ) : Set (ℝ × ℝ × ℝ) := Set.Ico (-A) A ×ˢ Set.Ico (-B) B ×ˢ Set.Ico (-C) C

theorem bandBox_meas (A B C : ℝ) : MeasurableSet (bandBox A B C) :=
  measurableSet_Ico.prod (measurableSet_Ico.prod measurableSet_Ico)

theorem bandBox_norm {A B C : ℝ} {x : ℝ × ℝ × ℝ} (h : x ∈ bandBox A B C) : ‖x‖ ≤ max A (max B C) := by
  obtain ⟨h1, h2, h3⟩ := h
  rw [Prod.norm_def, Prod.norm_def]
  refine max_le_max ?_ (max_le_max ?_ ?_) <;> rw [Real.norm_eq_abs, abs_le]
  · exact ⟨h1.1, h1.2.le⟩
  · exact ⟨h2.1, h2.2.le⟩
  · exact ⟨h3.1, h3.2.le⟩

theorem bandBox_integrable (A B C D : ℝ) (K : ℝ) :
    IntegrableOn (fun x : ℝ × ℝ × ℝ => D * (1 + K * ‖x‖ ^ (-2 : ℝ))) (bandBox A B C) := by
  have hsub : bandBox A B C ⊆ Metric.ball 0 (max A (max B C) + 1) := fun x hx => by
    rw [mem_ball_zero_iff]
    linarith [bandBox_norm hx]
  haveI i2 : (volume : Measure (ℝ × ℝ)).IsAddHaarMeasure := Measure.prod.instIsAddHaarMeasure volume volume
  haveI i3 : (volume : Measure (ℝ × ℝ × ℝ)).IsAddHaarMeasure :=
    Measure.prod.instIsAddHaarMeasure (volume : Measure ℝ) (volume : Measure (ℝ × ℝ))
  have h1 : IntegrableOn (fun x : ℝ × ℝ × ℝ => ‖x‖ ^ (-2 : ℝ)) (Metric.ball 0 (max A (max B C) + 1)) := by
    refine integrableOn_ball_of_norm_le_rpow (by simp) (C := 1) (α := 2) (by simp; norm_num) ?_ ?_
    · refine Eventually.of_forall fun x => ?_
      rw [one_mul, Real.norm_of_nonneg (Real.rpow_nonneg (norm_nonneg _) _)]
    · exact (measurable_norm.pow_const _).aestronglyMeasurable
  have h2 : IntegrableOn (fun _ : ℝ × ℝ × ℝ => (1 : ℝ)) (Metric.ball 0 (max A (max B C) + 1)) :=
    integrableOn_const measure_ball_lt_top.ne
  exact IntegrableOn.mono_set (t := Metric.ball 0 (max A (max B C) + 1)) ((h2.add (h1.const_mul K)).const_mul D) hsub

theorem norm3_le {x : ℝ × ℝ × ℝ} {r : ℝ} (h1 : |x.1| ≤ r) (h2 : |x.2.1| ≤ r) (h3 : |x.2.2| ≤ r) : ‖x‖ ≤ r := by
  rw [Prod.norm_def, Prod.norm_def]
  exact max_le h1 (max_le h2 h3)

theorem norm3_ge (x : ℝ × ℝ × ℝ) : |x.1| ≤ ‖x‖ ∧ |x.2.1| ≤ ‖x‖ ∧ |x.2.2| ≤ ‖x‖ := by
  rw [Prod.norm_def, Prod.norm_def]
  exact ⟨le_max_left _ _, (le_max_left _ _).trans (le_max_right _ _), (le_max_right _ _).trans (le_max_right _ _)⟩

/-- A point is not much further from the origin than the grid point next to it, if that is off the plane `x1 = 0`. -/
theorem nearPt_norm {a b c r : ℝ} (ha : 0 < a) (hb : 0 < b) (hc : 0 < c) (hr : 0 ≤ r) (h2 : b ≤ r * a) (h3 : c ≤ r * a)
    {x : ℝ × ℝ × ℝ} (hx : (nearPt a b c x).1 ≠ 0) : ‖x‖ ≤ (2 + r) * ‖nearPt a b c x‖ := by
  obtain ⟨g1, g2, g3⟩ := norm3_ge (nearPt a b c x)
  have hp := norm_nonneg (nearPt a b c x)
  have n1 := cellIdx_near ha x.1
  have n2 := cellIdx_near hb x.2.1
  have n3 := cellIdx_near hc x.2.2
  have hne : cellIdx a x.1 ≠ 0 := fun h => hx (by simp [nearPt, h])
  have hone : (1 : ℝ) ≤ |(cellIdx a x.1 : ℝ)| := by exact_mod_cast Int.one_le_abs hne
  have haP : a ≤ ‖nearPt a b c x‖ := by
    refine le_trans ?_ g1
    simp only [nearPt, abs_mul, abs_of_pos ha]
    nlinarith
  have hrP : r * a ≤ r * ‖nearPt a b c x‖ := by gcongr
  have t : ∀ u v d : ℝ, |u - v| ≤ d → |v| ≤ |u| + d := by
    intro u v d h
    have := abs_sub_abs_le_abs_sub v u
    rw [abs_sub_comm] at this
    linarith
  have e1 := t _ _ _ n1
  have e2 := t _ _ _ n2
  have e3 := t _ _ _ n3
  simp only [nearPt] at g1 g2 g3 e1 e2 e3
  refine norm3_le ?_ ?_ ?_ <;> simp only [nearPt] at * <;> nlinarith

/-- Riemann sums over the wavevectors of a transform in three directions (without the Nyquist ones) approach the integral
over the box of resolved wavevectors, if the box grows with bounded aspect ratios, for functions that are continuous off the
plane `x1 = 0` and have at most an inverse-square singularity at the origin. -/
theorem riemann_band {F : ℝ × ℝ × ℝ → ℂ} {A B C : ℝ} (hA : 0 < A) (hB : 0 < B) (hC : 0 < C)
    (hF : ∀ x : ℝ × ℝ × ℝ, x.1 ≠ 0 → ContinuousAt F x) {D : ℝ}
    (hb : ∀ x ∈ bandBox A B C, x.1 ≠ 0 → ‖F x‖ ≤ D * (1 + ‖x‖ ^ (-2 : ℝ)))
    (h0 : ∀ x ∈ bandBox A B C, x.1 = 0 → ‖F x‖ ≤ D) {r : ℝ} (hr : 0 ≤ r) {ε : ℝ} (hε : 0 < ε) :
    ∃ N : ℕ, ∀ n1 n2 n3 : ℕ, 0 < n1 → 0 < n2 → 0 < n3 → N ≤ n1 → N ≤ n2 → N ≤ n3 →
      2 * B / n2 ≤ r * (2 * A / n1) → 2 * C / n3 ≤ r * (2 * A / n1) →
      ‖((2 * A / n1 * (2 * B / n2) * (2 * C / n3) : ℝ) : ℂ) *
          ∑ i ∈ innerIdx n1 ×ˢ innerIdx n2 ×ˢ innerIdx n3,
            F (2 * A / n1 * i.1, 2 * B / n2 * i.2.1, 2 * C / n3 * i.2.2) -
        ∫ x in bandBox A B C, F x‖ ≤ ε := by
  by_contra hcon
  push Not at hcon
  have hD : 0 ≤ D := (norm_nonneg _).trans (h0 0 (by simp [bandBox, hA, hB, hC, hA.le, hB.le, hC.le]) rfl)
  choose m1 m2 m3 z1 z2 z3 l1 l2 l3 r2 r3 hbad using hcon
  obtain ⟨a, ha⟩ : ∃ a : ℕ → ℝ, a = fun n => 2 * A / m1 n := ⟨_, rfl⟩
  obtain ⟨b, hb'⟩ : ∃ b : ℕ → ℝ, b = fun n => 2 * B / m2 n := ⟨_, rfl⟩
  obtain ⟨c, hc'⟩ : ∃ c : ℕ → ℝ, c = fun n => 2 * C / m3 n := ⟨_, rfl⟩
  have ea : ∀ n, a n = 2 * A / m1 n := fun n => by rw [ha]
  have eb : ∀ n, b n = 2 * B / m2 n := fun n => by rw [hb']
  have ec : ∀ n, c n = 2 * C / m3 n := fun n => by rw [hc']
  have pos : ∀ m : ℕ, 0 < m → (0 : ℝ) < m := fun m h => by exact_mod_cast h
  have a0 : ∀ n, 0 < a n := fun n => by have := pos _ (z1 n); rw [ea]; positivity
  have b0 : ∀ n, 0 < b n := fun n => by have := pos _ (z2 n); rw [eb]; positivity
  have c0 : ∀ n, 0 < c n := fun n => by have := pos _ (z3 n); rw [ec]; positivity
  simp only [← ea, ← eb, ← ec] at r2 r3 hbad
  have hsmall : ∀ (S : ℝ) (m : ℕ → ℕ), 0 < S → (∀ n, 0 < m n) → (∀ n, n ≤ m n) →
      Tendsto (fun n => 2 * S / (m n : ℝ)) atTop (𝓝 0) := by
    intro S m hS hp hm
    have h1 : Tendsto (fun n : ℕ => 4 * S * (1 / ((n : ℝ) + 1))) atTop (𝓝 (4 * S * 0)) :=
      tendsto_one_div_add_atTop_nhds_zero_nat.const_mul _
    rw [mul_zero] at h1
    refine squeeze_zero (fun n => by have := pos _ (hp n); positivity) (fun n => ?_) h1
    have h2 : (n : ℝ) ≤ m n := by exact_mod_cast hm n
    have h3 : (1 : ℝ) ≤ m n := by exact_mod_cast hp n
    rw [mul_one_div, div_le_div_iff₀ (by linarith) (by positivity)]
    nlinarith
  have t1 : Tendsto a atTop (𝓝 0) := by rw [ha]; exact hsmall A m1 hA z1 l1
  have t2 : Tendsto b atTop (𝓝 0) := by rw [hb']; exact hsmall B m2 hB z2 l2
  have t3 : Tendsto c atTop (𝓝 0) := by rw [hc']; exact hsmall C m3 hC z3 l3
  obtain ⟨I, hI⟩ : ∃ I : ℕ → Finset (ℤ × ℤ × ℤ), I = fun n =>
      innerIdx (m1 n) ×ˢ innerIdx (m2 n) ×ˢ innerIdx (m3 n) := ⟨_, rfl⟩
  have hmem : ∀ n x, (cellIdx (a n) x.1, cellIdx (b n) x.2.1, cellIdx (c n) x.2.2) ∈ I n → x ∈ bandBox A B C := by
    intro n x h
    rw [hI, Finset.mem_product, Finset.mem_product, ea, eb, ec] at h
    exact ⟨cellIdx_inner hA (z1 n) h.1, cellIdx_inner hB (z2 n) h.2.1, cellIdx_inner hC (z3 n) h.2.2⟩
  have hnearB : ∀ n x, (cellIdx (a n) x.1, cellIdx (b n) x.2.1, cellIdx (c n) x.2.2) ∈ I n →
      nearPt (a n) (b n) (c n) x ∈ bandBox A B C := by
    intro n x hx
    rw [hI, Finset.mem_product, Finset.mem_product] at hx
    have key : ∀ (S : ℝ) (m : ℕ) (i : ℤ), 0 < S → 0 < m → i ∈ innerIdx m → 2 * S / m * (i : ℝ) ∈ Set.Ico (-S) S := by
      intro S m i hS hm hi
      rw [mem_innerIdx hm] at hi
      have h2 : -(m : ℝ) < 2 * i := by exact_mod_cast hi.1
      have h3 : 2 * (i : ℝ) < m := by exact_mod_cast hi.2
      have hp := pos _ hm
      rw [Set.mem_Ico, div_mul_eq_mul_div, le_div_iff₀ hp, div_lt_iff₀ hp]
      constructor <;> nlinarith
    refine ⟨?_, ?_, ?_⟩
    · simp only [nearPt]; rw [ea]; rw [ea] at hx; exact key A _ _ hA (z1 n) hx.1
    · simp only [nearPt]; rw [eb]; rw [eb] at hx; exact key B _ _ hB (z2 n) hx.2.1
    · simp only [nearPt]; rw [ec]; rw [ec] at hx; exact key C _ _ hC (z3 n) hx.2.2
  have hlim : Tendsto (fun n => ∫ x, stepBand F (a n) (b n) (c n) (I n) x) atTop
      (𝓝 (∫ x, (bandBox A B C).indicator F x)) := by
    refine tendsto_integral_of_dominated_convergence
      ((bandBox A B C).indicator fun x => D * (1 + (2 + r) ^ (2 : ℝ) * ‖x‖ ^ (-2 : ℝ)))
      (fun n => stepBand_measurable F (a0 n) (b0 n) (c0 n) (I n)) ?_ ?_ ?_
    · rw [integrable_indicator_iff (bandBox_meas A B C)]
      exact bandBox_integrable A B C D _
    · intro n
      refine Eventually.of_forall fun x => ?_
      have hpos : 0 ≤ (2 + r) ^ (2 : ℝ) * ‖x‖ ^ (-2 : ℝ) := by positivity
      unfold stepBand
      by_cases hx : (cellIdx (a n) x.1, cellIdx (b n) x.2.1, cellIdx (c n) x.2.2) ∈ I n
      · rw [if_pos hx, Set.indicator_of_mem (hmem n x hx)]
        by_cases hz : (nearPt (a n) (b n) (c n) x).1 = 0
        · refine (h0 _ (hnearB n x hx) hz).trans ?_
          nlinarith
        · refine (hb _ (hnearB n x hx) hz).trans ?_
          have hN := nearPt_norm (a0 n) (b0 n) (c0 n) hr (r2 n) (r3 n) hz
          have hP : 0 < ‖nearPt (a n) (b n) (c n) x‖ :=
            (abs_pos.2 hz).trans_le (norm3_ge _).1
          by_cases hx0 : ‖x‖ = 0
          · exfalso
            have hx1 : x = 0 := norm_eq_zero.1 hx0
            apply hz
            rw [hx1]
            simp [nearPt, cellIdx]
            right
            norm_num
          have hxp : 0 < ‖x‖ := lt_of_le_of_ne (norm_nonneg x) (Ne.symm hx0)
          have h3 : ‖nearPt (a n) (b n) (c n) x‖ ^ (-2 : ℝ) ≤ (2 + r) ^ (2 : ℝ) * ‖x‖ ^ (-2 : ℝ) := by
            have h4 : (‖x‖ / (2 + r)) ≤ ‖nearPt (a n) (b n) (c n) x‖ := by
              rw [div_le_iff₀ (by positivity)]; linarith
            have h5 := Real.rpow_le_rpow_of_nonpos (by positivity) h4 (by norm_num : (-2 : ℝ) ≤ 0)
            rw [Real.div_rpow hxp.le (by positivity), Real.rpow_neg (by positivity : (0 : ℝ) ≤ 2 + r), div_inv_eq_mul] at h5
            linarith
          gcongr
      · rw [if_neg hx, norm_zero]
        exact Set.indicator_nonneg (fun y _ => by positivity) x
    · have hae : ∀ᵐ x : ℝ × ℝ × ℝ, x.1 ≠ 0 ∧ x.1 ≠ -A ∧ x.2.1 ≠ -B ∧ x.2.2 ≠ -C := by
        have n1 : ∀ t : ℝ, ∀ᵐ x : ℝ × ℝ × ℝ, x.1 ≠ t := by
          intro t
          rw [ae_iff]
          have : {x : ℝ × ℝ × ℝ | ¬ x.1 ≠ t} = {t} ×ˢ Set.univ := by ext x; simp
          rw [this, Measure.volume_eq_prod, Measure.prod_prod]
          simp
        have n2 : ∀ᵐ x : ℝ × ℝ × ℝ, x.2.1 ≠ -B := by
          rw [ae_iff]
          have : {x : ℝ × ℝ × ℝ | ¬ x.2.1 ≠ -B} = Set.univ ×ˢ {-B} ×ˢ Set.univ := by ext x; simp
          rw [this, Measure.volume_eq_prod, Measure.prod_prod, Measure.volume_eq_prod, Measure.prod_prod]
          simp
        have n3 : ∀ᵐ x : ℝ × ℝ × ℝ, x.2.2 ≠ -C := by
          rw [ae_iff]
          have : {x : ℝ × ℝ × ℝ | ¬ x.2.2 ≠ -C} = Set.univ ×ˢ Set.univ ×ˢ {-C} := by ext x; simp
          rw [this, Measure.volume_eq_prod, Measure.prod_prod, Measure.volume_eq_prod, Measure.prod_prod]
          simp
        filter_upwards [n1 0, n1 (-A), n2, n3] with x h1 h2 h3 h4
        exact ⟨h1, h2, h3, h4⟩
      filter_upwards [hae] with x hx
      obtain ⟨hx, x1, x2, x3⟩ := hx
      by_cases hxb : x ∈ bandBox A B C
      · rw [Set.indicator_of_mem hxb]
        have key : ∀ (d : ℕ → ℝ) (t : ℝ), (∀ n, 0 < d n) → Tendsto d atTop (𝓝 0) →
            Tendsto (fun n => d n * (cellIdx (d n) t : ℝ)) atTop (𝓝 t) := by
          intro d t hd hl
          rw [tendsto_iff_norm_sub_tendsto_zero]
          refine squeeze_zero (fun _ => norm_nonneg _) (fun n => ?_) hl
          rw [Real.norm_eq_abs]
          linarith [cellIdx_near (hd n) t, hd n]
        have hin : ∀ (S t : ℝ) (d : ℕ → ℝ), t ∈ Set.Ico (-S) S → t ≠ -S → Tendsto d atTop (𝓝 0) →
            ∀ᶠ n in atTop, |t| + 2 * d n < S := by
          intro S t d ht hne hl
          have hlt : |t| < S := abs_lt.2 ⟨lt_of_le_of_ne ht.1 (Ne.symm hne), ht.2⟩
          have h1 : Tendsto (fun n => |t| + 2 * d n) atTop (𝓝 (|t| + 2 * 0)) := (hl.const_mul 2).const_add _
          rw [mul_zero, add_zero] at h1
          exact h1.eventually_lt_const hlt
        refine ((hF x hx).tendsto.comp ((key a x.1 a0 t1).prodMk_nhds
          ((key b x.2.1 b0 t2).prodMk_nhds (key c x.2.2 c0 t3)))).congr' ?_
        filter_upwards [hin A x.1 a hxb.1 x1 t1, hin B x.2.1 b hxb.2.1 x2 t2, hin C x.2.2 c hxb.2.2 x3 t3] with n e1 e2 e3
        unfold stepBand
        rw [if_pos]
        · rfl
        · rw [hI, Finset.mem_product, Finset.mem_product]
          rw [ea] at e1 ⊢
          rw [eb] at e2 ⊢
          rw [ec] at e3 ⊢
          exact ⟨cellIdx_inner_of hA (z1 n) e1, cellIdx_inner_of hB (z2 n) e2, cellIdx_inner_of hC (z3 n) e3⟩
      · rw [Set.indicator_of_notMem hxb]
        have hstep : ∀ n, stepBand F (a n) (b n) (c n) (I n) x = 0 := fun n => by
          unfold stepBand
          rw [if_neg (fun h => hxb (hmem n x h))]
        simp only [hstep]
        exact tendsto_const_nhds
  rw [integral_indicator (bandBox_meas A B C)] at hlim
  have hev := hlim.eventually (Metric.ball_mem_nhds _ hε)
  obtain ⟨n, hn⟩ := hev.exists
  rw [stepBand_integral F (a0 n) (b0 n) (c0 n), dist_eq_norm] at hn
  have := hbad n
  rw [hI] at hn
  exact absurd hn.le (not_le.2 this)

end
end Verif
