import Verif.Props.LowFreqGenerated
import Verif.Lemmas.RiemannPlane
import Mathlib.Analysis.SpecialFunctions.PolarCoord
import Mathlib.Analysis.SpecialFunctions.JapaneseBracket
import Mathlib.MeasureTheory.Integral.Prod
import Mathlib.Analysis.SpecialFunctions.Integrals.Basic

/-!
# Variance of the anisotropic low-frequency model (C110)
-/

namespace Verif

noncomputable section
open MeasureTheory Real

namespace Spec

/-- The ratio `kappa / k` in the direction `(cos t, sin t)`. -/
def stretch (psi t : ℝ) : ℝ := Real.sqrt (2 * ((Real.cos t * Real.cos psi) ^ 2 + (Real.sin t * Real.sin psi) ^ 2))

/-- Weight of component `i` in that direction: `k2^2/k^2` for `u1` and `k1^2/k^2` for `u2`. -/
def share (i : Fin 2) (t : ℝ) : ℝ := match i with
  | 0 => Real.sin t ^ 2
  | 1 => Real.cos t ^ 2

/-- The documented two-dimensional spectral density of component `i`. -/
def lowFreqDensity (c L psi z : ℝ) (i : Fin 2) (k1 k2 : ℝ) : ℝ :=
  lfEdoc c L psi z k1 k2 / (Real.pi * Real.sqrt (k1 ^ 2 + k2 ^ 2)) *
    ((match i with
      | 0 => k2 ^ 2
      | 1 => k1 ^ 2) / (k1 ^ 2 + k2 ^ 2))

/-- Directional average of `share / stretch`. -/
def anisotropy (i : Fin 2) (psi : ℝ) : ℝ := (1 / (2 * Real.pi)) * ∫ t in (-Real.pi)..Real.pi, share i t / stretch psi t

end Spec

open Spec

theorem share_nonneg (i : Fin 2) (t : ℝ) : 0 ≤ share i t := by fin_cases i <;> simp [share] <;> positivity

theorem share_le_one (i : Fin 2) (t : ℝ) : share i t ≤ 1 := by
  fin_cases i
  · exact Real.sin_sq_le_one t
  · exact Real.cos_sq_le_one t

theorem share_add (t : ℝ) : share 0 t + share 1 t = 1 := Real.sin_sq_add_cos_sq t

theorem share_continuous (i : Fin 2) : Continuous (share i) := by
  fin_cases i
  · change Continuous fun t => Real.sin t ^ 2; fun_prop
  · change Continuous fun t => Real.cos t ^ 2; fun_prop

theorem stretch_continuous (psi : ℝ) : Continuous (stretch psi) := by unfold stretch; fun_prop

/-- Smallest and largest stretch. -/
theorem stretch_bounds {psi : ℝ} (h0 : 0 < psi) (h1 : psi < π / 2) :
    ∃ m, 0 < m ∧ m ≤ 1 ∧ m = min (Real.cos psi) (Real.sin psi) ∧ ∀ t, m ≤ stretch psi t := by
  have hc : 0 < Real.cos psi := Real.cos_pos_of_mem_Ioo ⟨by linarith, h1⟩
  have hs : 0 < Real.sin psi := Real.sin_pos_of_pos_of_lt_pi h0 (by linarith [Real.pi_pos])
  refine ⟨min (Real.cos psi) (Real.sin psi), lt_min hc hs, (min_le_left _ _).trans (Real.cos_le_one _), rfl, fun t => ?_⟩
  set m := min (Real.cos psi) (Real.sin psi)
  have hm : 0 < m := lt_min hc hs
  refine Real.le_sqrt_of_sq_le ?_
  have e1 : m ^ 2 ≤ Real.cos psi ^ 2 := by gcongr; exact min_le_left _ _
  have e2 : m ^ 2 ≤ Real.sin psi ^ 2 := by gcongr; exact min_le_right _ _
  have hid := Real.sin_sq_add_cos_sq t
  nlinarith [mul_le_mul_of_nonneg_left e1 (sq_nonneg (Real.cos t)), mul_le_mul_of_nonneg_left e2 (sq_nonneg (Real.sin t)),
    sq_nonneg m]

theorem stretch_pos {psi : ℝ} (h0 : 0 < psi) (h1 : psi < π / 2) (t : ℝ) : 0 < stretch psi t := by
  obtain ⟨m, hm, -, -, h⟩ := stretch_bounds h0 h1
  exact hm.trans_le (h t)

theorem stretch_sq (psi t : ℝ) : stretch psi t ^ 2 = 1 + Real.cos (2 * t) * Real.cos (2 * psi) := by
  unfold stretch
  rw [Real.sq_sqrt (by positivity), Real.cos_two_mul, Real.cos_two_mul, mul_pow, mul_pow, Real.sin_sq, Real.sin_sq]
  ring

theorem stretch_le (psi t : ℝ) : stretch psi t ≤ Real.sqrt 2 := by
  refine Real.le_sqrt_of_sq_le ?_
  rw [stretch_sq]
  nlinarith [Real.cos_le_one (2 * t), Real.neg_one_le_cos (2 * t), Real.cos_le_one (2 * psi), Real.neg_one_le_cos (2 * psi)]

/-- The spectrum along a ray, in polar coordinates. -/
theorem density_polar {c L psi z : ℝ} (i : Fin 2) {r t : ℝ} (hr : 0 < r) :
    r * lowFreqDensity c L psi z i (r * Real.cos t) (r * Real.sin t) =
      c * lfShape L z (r * stretch psi t) * (share i t / π) := by
  have hid := Real.sin_sq_add_cos_sq t
  have hk : (r * Real.cos t) ^ 2 + (r * Real.sin t) ^ 2 = r ^ 2 := by
    rw [mul_pow, mul_pow, ← mul_add, add_comm, hid, mul_one]
  have hkap : Real.sqrt (2 * ((r * Real.cos t * Real.cos psi) ^ 2 + (r * Real.sin t * Real.sin psi) ^ 2)) =
      r * stretch psi t := by
    unfold stretch
    rw [show 2 * ((r * Real.cos t * Real.cos psi) ^ 2 + (r * Real.sin t * Real.sin psi) ^ 2) =
      r ^ 2 * (2 * ((Real.cos t * Real.cos psi) ^ 2 + (Real.sin t * Real.sin psi) ^ 2)) by ring,
      Real.sqrt_mul (by positivity), Real.sqrt_sq hr.le]
  have hpi := Real.pi_pos
  unfold lowFreqDensity lfEdoc
  rw [hkap, hk, Real.sqrt_sq hr.le]
  fin_cases i
  · simp only [share]; field_simp
  · simp only [share]; field_simp

theorem lfShape_mul_le' {L : ℝ} (hL : 0 < L) (z : ℝ) {m : ℝ} (hm : 0 < m) (hm1 : m ≤ 1) :
    ∃ C, 0 ≤ C ∧ ∀ s r : ℝ, m ≤ s → s ≤ 2 → 0 ≤ r → lfShape L z (r * s) ≤ C * (r * (1 + r) ^ (-(8 / 3 : ℝ))) := by
  -- with `a = min (1/L) m`, the base is at least `a^2 (1+r)^2/2`
  set a := min (1 / L) m with ha
  have ha0 : 0 < a := lt_min (by positivity) hm
  refine ⟨8 / (a ^ 2 / 2) ^ (7 / 3 : ℝ), by positivity, fun s r h1 h2 hr => ?_⟩
  have hs : 0 < s := hm.trans_le h1
  have hb : a ^ 2 / 2 * (1 + r) ^ 2 ≤ 1 / L ^ 2 + (r * s) ^ 2 := by
    have e1 : a ^ 2 ≤ 1 / L ^ 2 := by
      rw [show 1 / L ^ 2 = (1 / L) ^ 2 by ring]; gcongr; exact min_le_left _ _
    have e2 : a ^ 2 ≤ s ^ 2 := by gcongr; exact (min_le_right _ _).trans h1
    have e3 : a ^ 2 * r ^ 2 ≤ (r * s) ^ 2 := by rw [mul_pow, mul_comm]; gcongr
    nlinarith [mul_nonneg (sq_nonneg a) (sq_nonneg (1 - r))]
  have hden : (a ^ 2 / 2) ^ (7 / 3 : ℝ) * (1 + r) ^ (14 / 3 : ℝ) ≤
      (1 / L ^ 2 + (r * s) ^ 2) ^ (7 / 3 : ℝ) * (1 + (r * s) ^ 2 * z ^ 2) := by
    have e1 : (a ^ 2 / 2) ^ (7 / 3 : ℝ) * (1 + r) ^ (14 / 3 : ℝ) = (a ^ 2 / 2 * (1 + r) ^ 2) ^ (7 / 3 : ℝ) := by
      rw [Real.mul_rpow (by positivity) (by positivity), ← Real.rpow_natCast (1 + r) 2, ← Real.rpow_mul (by positivity)]
      norm_num
    rw [e1]
    have e2 : (a ^ 2 / 2 * (1 + r) ^ 2) ^ (7 / 3 : ℝ) ≤ (1 / L ^ 2 + (r * s) ^ 2) ^ (7 / 3 : ℝ) :=
      Real.rpow_le_rpow (by positivity) hb (by norm_num)
    have e3 : 1 ≤ 1 + (r * s) ^ 2 * z ^ 2 := by nlinarith [mul_nonneg (sq_nonneg (r * s)) (sq_nonneg z)]
    calc _ ≤ (1 / L ^ 2 + (r * s) ^ 2) ^ (7 / 3 : ℝ) * 1 := by rw [mul_one]; exact e2
      _ ≤ _ := by gcongr
  have hnum : (r * s) ^ 3 ≤ 8 * (r * (1 + r) ^ (2 : ℝ)) := by
    have h3 : r ^ 2 ≤ (1 + r) ^ 2 := by gcongr; linarith
    have h4 : s ^ 3 ≤ 2 ^ 3 := by gcongr
    calc (r * s) ^ 3 = r * r ^ 2 * s ^ 3 := by ring
      _ ≤ r * (1 + r) ^ 2 * 2 ^ 3 := by gcongr
      _ = 8 * (r * (1 + r) ^ (2 : ℝ)) := by rw [show (2 : ℝ) = ((2 : ℕ) : ℝ) by norm_num, Real.rpow_natCast]; norm_num; ring
  unfold lfShape
  calc (r * s) ^ 3 / ((1 / L ^ 2 + (r * s) ^ 2) ^ (7 / 3 : ℝ) * (1 + (r * s) ^ 2 * z ^ 2))
      ≤ 8 * (r * (1 + r) ^ (2 : ℝ)) / ((a ^ 2 / 2) ^ (7 / 3 : ℝ) * (1 + r) ^ (14 / 3 : ℝ)) := by gcongr
    _ = 8 / (a ^ 2 / 2) ^ (7 / 3 : ℝ) * (r * (1 + r) ^ (-(8 / 3 : ℝ))) := by
        rw [show -(8 / 3 : ℝ) = 2 - 14 / 3 by norm_num, Real.rpow_sub (by positivity)]
        field_simp

theorem lfShape_mul_le {L : ℝ} (hL : 0 < L) (z : ℝ) {m : ℝ} (hm : 0 < m) (hm1 : m ≤ 1) :
    ∃ C, 0 ≤ C ∧ ∀ s r : ℝ, m ≤ s → s ≤ 2 → 0 ≤ r → lfShape L z (r * s) ≤ C * (1 + r) ^ (-(5 / 3 : ℝ)) := by
  obtain ⟨C, hC, h⟩ := lfShape_mul_le' hL z hm hm1
  refine ⟨C, hC, fun s r h1 h2 hr => (h s r h1 h2 hr).trans ?_⟩
  have e : (1 + r) ^ (-(5 / 3 : ℝ)) = (1 + r) * (1 + r) ^ (-(8 / 3 : ℝ)) := by
    rw [← Real.rpow_one_add' (by positivity) (by norm_num)]
    norm_num
  rw [e]
  gcongr
  linarith

theorem ray_integrable {L : ℝ} (hL : 0 < L) (z : ℝ) {psi : ℝ} (h0 : 0 < psi) (h1 : psi < π / 2) (c : ℝ) (i : Fin 2) :
    IntegrableOn (fun p : ℝ × ℝ => c * lfShape L z (p.1 * stretch psi p.2) * (share i p.2 / π))
      (Set.Ioi 0 ×ˢ Set.Ioo (-π) π) := by
  obtain ⟨m, hm, hm1, -, hms⟩ := stretch_bounds h0 h1
  obtain ⟨C, hC, hb⟩ := lfShape_mul_le hL z hm hm1
  have hsqrt2 : Real.sqrt 2 ≤ 2 := by rw [Real.sqrt_le_left (by norm_num)]; norm_num
  have hg : IntegrableOn (fun p : ℝ × ℝ => (C * (1 + p.1) ^ (-(5 / 3 : ℝ))) * (|c| / π)) (Set.Ioi 0 ×ˢ Set.Ioo (-π) π) := by
    rw [IntegrableOn, Measure.volume_eq_prod, ← Measure.prod_restrict]
    refine Integrable.mul_prod (f := fun r : ℝ => C * (1 + r) ^ (-(5 / 3 : ℝ))) (g := fun _ : ℝ => |c| / π) ?_ ?_
    · refine Integrable.const_mul ?_ _
      have := (integrable_one_add_norm (E := ℝ) (μ := volume) (r := 5 / 3) (by simp; norm_num)).integrableOn (s := Set.Ioi 0)
      refine IntegrableOn.congr_fun this (fun r hr => ?_) measurableSet_Ioi
      have hr' : (0 : ℝ) < r := hr
      simp only [Real.norm_eq_abs, abs_of_pos hr']
    · exact integrable_const _
  refine Integrable.mono' hg ?_ ?_
  · refine Continuous.aestronglyMeasurable ?_
    have e1 := (lfShape_continuous (z := z) hL).comp
      (continuous_fst.mul ((stretch_continuous psi).comp continuous_snd) : Continuous fun p : ℝ × ℝ => p.1 * stretch psi p.2)
    have e2 := (share_continuous i).comp (continuous_snd (X := ℝ) (Y := ℝ))
    exact (continuous_const.mul e1).mul (e2.div_const _)
  · refine (ae_restrict_iff' (measurableSet_Ioi.prod measurableSet_Ioo)).2 (Filter.Eventually.of_forall fun p hp => ?_)
    have hr : (0 : ℝ) < p.1 := hp.1
    have hS := stretch_pos h0 h1 p.2
    have hn := lfShape_nonneg (L := L) z (mul_nonneg hr.le hS.le)
    have hpi := Real.pi_pos
    rw [Real.norm_eq_abs, abs_mul, abs_mul, abs_of_nonneg hn, abs_of_nonneg (div_nonneg (share_nonneg i p.2) hpi.le)]
    have e1 := hb (stretch psi p.2) p.1 (hms p.2) ((stretch_le psi p.2).trans hsqrt2) hr.le
    have e2 := share_le_one i p.2
    calc |c| * lfShape L z (p.1 * stretch psi p.2) * (share i p.2 / π)
        ≤ |c| * (C * (1 + p.1) ^ (-(5 / 3 : ℝ))) * (1 / π) := by
          have := share_nonneg i p.2
          gcongr
      _ = _ := by ring

/-- **C110** The variance the low-frequency model assigns to each component, that is the integral of its documented spectral
density over all wavevectors, is the radial integral that `_compute_c` normalises times a directional average. -/
theorem C110_component {L : ℝ} (hL : 0 < L) (c z : ℝ) {psi : ℝ} (h0 : 0 < psi) (h1 : psi < π / 2) (i : Fin 2) :
    ∫ k : ℝ × ℝ, lowFreqDensity c L psi z i k.1 k.2 =
      (2 * ∫ kappa in Set.Ioi (0 : ℝ), c * lfShape L z kappa) * anisotropy i psi := by
  rw [← integral_comp_polarCoord_symm, polarCoord_target]
  have e : ∫ p in Set.Ioi (0 : ℝ) ×ˢ Set.Ioo (-π) π,
      p.1 • lowFreqDensity c L psi z i (polarCoord.symm p).1 (polarCoord.symm p).2 =
      ∫ p in Set.Ioi (0 : ℝ) ×ˢ Set.Ioo (-π) π, c * lfShape L z (p.1 * stretch psi p.2) * (share i p.2 / π) := by
    refine setIntegral_congr_fun (measurableSet_Ioi.prod measurableSet_Ioo) fun p hp => ?_
    simp only [polarCoord_symm_apply, smul_eq_mul]
    exact density_polar i hp.1
  rw [e]
  have hint := ray_integrable hL z h0 h1 c i
  rw [IntegrableOn, Measure.volume_eq_prod, ← Measure.prod_restrict] at hint
  rw [Measure.volume_eq_prod, ← Measure.prod_restrict, integral_prod_symm _ hint]
  have hin : ∀ t, ∫ r in Set.Ioi (0 : ℝ), c * lfShape L z (r * stretch psi t) * (share i t / π) =
      (∫ kappa in Set.Ioi (0 : ℝ), c * lfShape L z kappa) / π * (share i t / stretch psi t) := by
    intro t
    rw [integral_mul_const]
    have hm := integral_comp_mul_left_Ioi (fun x => c * lfShape L z x) 0 (stretch_pos h0 h1 t)
    simp only [mul_zero, smul_eq_mul] at hm
    simp only [mul_comm _ (stretch psi t)]
    rw [hm]
    have := stretch_pos h0 h1 t
    field_simp
  simp only [hin]
  rw [integral_const_mul, anisotropy, intervalIntegral.integral_of_le (by linarith [Real.pi_pos]), integral_Ioc_eq_integral_Ioo]
  have := Real.pi_pos
  field_simp

theorem anisotropy_integrable {psi : ℝ} (h0 : 0 < psi) (h1 : psi < π / 2) (i : Fin 2) :
    Continuous fun t => share i t / stretch psi t :=
  (share_continuous i).div (stretch_continuous psi) fun t => (stretch_pos h0 h1 t).ne'

theorem anisotropy_add {psi : ℝ} (h0 : 0 < psi) (h1 : psi < π / 2) :
    anisotropy 0 psi + anisotropy 1 psi = (1 / (2 * π)) * ∫ t in (-π)..π, 1 / stretch psi t := by
  unfold anisotropy
  rw [← mul_add, ← intervalIntegral.integral_add ((anisotropy_integrable h0 h1 0).intervalIntegrable _ _)
    ((anisotropy_integrable h0 h1 1).intervalIntegrable _ _)]
  congr 1
  refine intervalIntegral.integral_congr fun t _ => ?_
  rw [← add_div, share_add]

theorem inv_stretch_continuous {psi : ℝ} (h0 : 0 < psi) (h1 : psi < π / 2) : Continuous fun t => 1 / stretch psi t :=
  continuous_const.div (stretch_continuous psi) fun t => (stretch_pos h0 h1 t).ne'

theorem integral_cos_two : ∫ t in (-π)..π, Real.cos (2 * t) = 0 := by
  rw [intervalIntegral.integral_comp_mul_left (fun x => Real.cos x) two_ne_zero, integral_cos]
  simp

theorem integral_cos_two_sq : ∫ t in (-π)..π, Real.cos (2 * t) ^ 2 = π := by
  rw [intervalIntegral.integral_comp_mul_left (fun x => Real.cos x ^ 2) two_ne_zero, integral_cos_sq]
  simp

/-- Chord bound for the inverse square root, with a quadratic gain. -/
theorem inv_ge {s : ℝ} (hs : 0 < s) (h2 : s ≤ Real.sqrt 2) : (3 - s ^ 2) / 2 + (s ^ 2 - 1) ^ 2 / 5 ≤ 1 / s := by
  have hq : s ^ 2 ≤ 2 := by
    have := Real.sq_sqrt (show (0:ℝ) ≤ 2 by norm_num)
    nlinarith [Real.sqrt_nonneg 2]
  rw [le_div_iff₀ hs]
  have hs' : s ≤ 1.415 := by nlinarith
  -- `10 (1 - s (3 - s^2)/2) = 5 (s-1)^2 (s+2)`
  have : 0 ≤ (s - 1) ^ 2 * (5 * (s + 2) - 2 * s * (s + 1) ^ 2) := by
    refine mul_nonneg (sq_nonneg _) ?_
    nlinarith [mul_pos hs hs, mul_nonneg hs.le (sub_nonneg.2 hq)]
  nlinarith

/-- **C110** The two components together: the total variance exceeds the normalised radial integral (the requested `sigma2`)
unless the anisotropy angle is 45 degrees; the excess grows without bound as the angle approaches 0. -/
theorem C110_total {psi : ℝ} (h0 : 0 < psi) (h1 : psi < π / 2) :
    1 + Real.cos (2 * psi) ^ 2 / 10 ≤ anisotropy 0 psi + anisotropy 1 psi ∧
    (anisotropy 0 psi + anisotropy 1 psi = 1 ↔ psi = π / 4) ∧
    Real.log (1 / psi) / (4 * π) ≤ anisotropy 0 psi + anisotropy 1 psi ∧
    anisotropy 0 psi + anisotropy 1 psi ≤ 1 / min (Real.cos psi) (Real.sin psi) := by
  have hpi := Real.pi_pos
  have hci := (inv_stretch_continuous h0 h1).intervalIntegrable (μ := volume)
  have hlow : 1 + Real.cos (2 * psi) ^ 2 / 10 ≤ anisotropy 0 psi + anisotropy 1 psi := by
    rw [anisotropy_add h0 h1]
    have hle : ∫ t in (-π)..π, (1 - Real.cos (2 * psi) / 2 * Real.cos (2 * t) +
        Real.cos (2 * psi) ^ 2 / 5 * Real.cos (2 * t) ^ 2) ≤ ∫ t in (-π)..π, 1 / stretch psi t := by
      refine intervalIntegral.integral_mono_on (by linarith) ?_ (hci _ _) fun t _ => ?_
      · exact Continuous.intervalIntegrable (by fun_prop) _ _
      · have := inv_ge (stretch_pos h0 h1 t) (stretch_le psi t)
        rw [stretch_sq] at this
        nlinarith
    have hI : ∫ t in (-π)..π, (1 - Real.cos (2 * psi) / 2 * Real.cos (2 * t) +
        Real.cos (2 * psi) ^ 2 / 5 * Real.cos (2 * t) ^ 2) = 2 * π + Real.cos (2 * psi) ^ 2 / 5 * π := by
      rw [intervalIntegral.integral_add, intervalIntegral.integral_sub, intervalIntegral.integral_const_mul,
        intervalIntegral.integral_const_mul, integral_cos_two, integral_cos_two_sq]
      · simp; ring
      all_goals exact Continuous.intervalIntegrable (by fun_prop) _ _
    rw [hI] at hle
    calc 1 + Real.cos (2 * psi) ^ 2 / 10 = 1 / (2 * π) * (2 * π + Real.cos (2 * psi) ^ 2 / 5 * π) := by field_simp; ring
      _ ≤ _ := by gcongr
  refine ⟨hlow, ⟨fun h => ?_, fun h => ?_⟩, ?_, ?_⟩
  · have hz : Real.cos (2 * psi) = 0 := by
      have : Real.cos (2 * psi) ^ 2 ≤ 0 := by linarith
      nlinarith [sq_nonneg (Real.cos (2 * psi))]
    have : 2 * psi = π / 2 := by
      refine Real.injOn_cos ⟨by linarith, by linarith⟩ ⟨by linarith, by linarith⟩ ?_
      rw [hz, Real.cos_pi_div_two]
    linarith
  · rw [anisotropy_add h0 h1]
    have : ∀ t, stretch psi t = 1 := by
      intro t
      have e := stretch_sq psi t
      rw [h, show 2 * (π / 4) = π / 2 by ring, Real.cos_pi_div_two, mul_zero, add_zero, ← h] at e
      exact (pow_eq_one_iff_of_nonneg (stretch_pos h0 h1 t).le two_ne_zero).1 e
    simp only [this]
    simp
    field_simp
    norm_num
  · by_cases hb : 1 ≤ psi
    · have : Real.log (1 / psi) ≤ 0 := Real.log_nonpos (by positivity) (by rw [div_le_one h0]; exact hb)
      have hx : Real.log (1 / psi) / (4 * π) ≤ 0 := div_nonpos_of_nonpos_of_nonneg this (by positivity)
      nlinarith [sq_nonneg (Real.cos (2 * psi))]
    push Not at hb
    rw [anisotropy_add h0 h1]
    -- only the directions between `psi` and 1 away from the transverse one
    have hsub : ∫ t in (π / 2 + psi)..(π / 2 + 1), 1 / (2 * (t - π / 2)) ≤ ∫ t in (π / 2 + psi)..(π / 2 + 1), 1 / stretch psi t := by
      refine intervalIntegral.integral_mono_on (by linarith) ?_ (hci _ _) fun t ht => ?_
      · refine ContinuousOn.intervalIntegrable ?_
        rw [Set.uIcc_of_le (by linarith)]
        refine ContinuousOn.div continuousOn_const (by fun_prop) fun t ht => ?_
        have := ht.1
        have : 0 < t - π / 2 := by linarith
        positivity
      · have ht1 := ht.1
        have hd : 0 < t - π / 2 := by linarith
        have hS := stretch_pos h0 h1 t
        refine one_div_le_one_div_of_le hS ?_
        unfold stretch
        rw [Real.sqrt_le_left (by linarith)]
        have e1 : Real.cos t ^ 2 ≤ (t - π / 2) ^ 2 := by
          have : Real.cos t = -Real.sin (t - π / 2) := by rw [Real.sin_sub_pi_div_two]; ring
          rw [this, neg_sq, sq_le_sq]
          exact Real.abs_sin_le_abs
        have e2 : Real.sin psi ^ 2 ≤ (t - π / 2) ^ 2 := by
          have h3 : Real.sin psi ≤ psi := Real.sin_le h0.le
          have h4 : 0 < Real.sin psi := Real.sin_pos_of_pos_of_lt_pi h0 (by linarith)
          have : Real.sin psi ≤ t - π / 2 := by linarith
          gcongr
        have e3 := Real.cos_sq_le_one psi
        have e4 := Real.sin_sq_le_one t
        rw [mul_pow, mul_pow]
        nlinarith [mul_le_mul_of_nonneg_left e3 (sq_nonneg (Real.cos t)), mul_le_mul_of_nonneg_right e4 (sq_nonneg (Real.sin psi))]
    have hmono : ∫ t in (π / 2 + psi)..(π / 2 + 1), 1 / stretch psi t ≤ ∫ t in (-π)..π, 1 / stretch psi t := by
      refine intervalIntegral.integral_mono_interval (by linarith) (by linarith) (by linarith [Real.two_le_pi]) ?_ (hci _ _)
      exact Filter.Eventually.of_forall fun t => by have := stretch_pos h0 h1 t; simp only [Pi.zero_apply]; positivity
    have hval : ∫ t in (π / 2 + psi)..(π / 2 + 1), 1 / (2 * (t - π / 2)) = Real.log (1 / psi) / 2 := by
      have : ∀ t, 1 / (2 * (t - π / 2)) = (1 / 2) * (t - π / 2)⁻¹ := fun t => by rw [one_div, mul_inv]; ring
      simp only [this]
      rw [intervalIntegral.integral_const_mul, intervalIntegral.integral_comp_sub_right (fun x => x⁻¹),
        integral_inv_of_pos (by linarith) (by linarith)]
      simp only [add_sub_cancel_left]
      ring
    calc Real.log (1 / psi) / (4 * π) = 1 / (2 * π) * (Real.log (1 / psi) / 2) := by field_simp; ring
      _ ≤ _ := by rw [← hval]; gcongr; exact hsub.trans hmono
  · rw [anisotropy_add h0 h1]
    obtain ⟨m, hm, -, he, hb⟩ := stretch_bounds h0 h1
    rw [← he]
    have : ∫ t in (-π)..π, 1 / stretch psi t ≤ ∫ _ in (-π)..π, 1 / m := by
      refine intervalIntegral.integral_mono_on (by linarith) (hci _ _) (by simp) fun t _ => ?_
      exact one_div_le_one_div_of_le hm (hb t)
    calc _ ≤ 1 / (2 * π) * ∫ _ in (-π)..π, 1 / m := by gcongr
      _ = 1 / m := by simp; field_simp; norm_num

/-- **C110** For angles below 45 degrees the along-wind component has the larger variance, above 45 degrees the cross-wind
component; exchanging the angle with its complement exchanges the components. -/
theorem C110_order {psi : ℝ} (h0 : 0 < psi) (h1 : psi < π / 2) :
    (anisotropy 1 psi < anisotropy 0 psi ↔ psi < π / 4) ∧ (anisotropy 0 psi < anisotropy 1 psi ↔ π / 4 < psi) := by
  have hpi := Real.pi_pos
  have hc0 := anisotropy_integrable h0 h1 0
  have hc1 := anisotropy_integrable h0 h1 1
  -- the difference is the mean of `-cos 2t / s`
  have hd : anisotropy 0 psi - anisotropy 1 psi = (1 / (2 * π)) * ∫ t in (-π)..π, -Real.cos (2 * t) / stretch psi t := by
    unfold anisotropy
    rw [← mul_sub, ← intervalIntegral.integral_sub (hc0.intervalIntegrable _ _) (hc1.intervalIntegrable _ _)]
    congr 1
    refine intervalIntegral.integral_congr fun t _ => ?_
    simp only [share]
    rw [← sub_div, Real.cos_two_mul, Real.sin_sq]
    ring_nf
  have hcont : Continuous fun t => -Real.cos (2 * t) / stretch psi t :=
    (by fun_prop : Continuous fun t : ℝ => -Real.cos (2 * t)).div (stretch_continuous psi) fun t => (stretch_pos h0 h1 t).ne'
  have hz : ∫ t in (-π)..π, -Real.cos (2 * t) = 0 := by rw [intervalIntegral.integral_neg, integral_cos_two, neg_zero]
  have key : ∀ t, 0 ≤ (-Real.cos (2 * t) / stretch psi t - -Real.cos (2 * t)) * Real.cos (2 * psi) ∧
      (Real.cos (2 * t) ≠ 0 → Real.cos (2 * psi) ≠ 0 →
        0 < (-Real.cos (2 * t) / stretch psi t - -Real.cos (2 * t)) * Real.cos (2 * psi)) := by
    intro t
    have hS := stretch_pos h0 h1 t
    have e := stretch_sq psi t
    set s := stretch psi t
    have : (-Real.cos (2 * t) / s - -Real.cos (2 * t)) * Real.cos (2 * psi) = (s - 1) ^ 2 * (s + 1) / s := by
      field_simp
      nlinarith
    rw [this]
    refine ⟨by positivity, fun hx hy => ?_⟩
    have hne : s ≠ 1 := by
      intro h
      rw [h] at e
      have : Real.cos (2 * t) * Real.cos (2 * psi) = 0 := by linarith
      exact (mul_ne_zero hx hy) this
    have : 0 < (s - 1) ^ 2 := by have := sub_ne_zero.2 hne; positivity
    positivity
  have hlt : psi < π / 4 → anisotropy 1 psi < anisotropy 0 psi := by
    intro h
    have hc : 0 < Real.cos (2 * psi) := Real.cos_pos_of_mem_Ioo ⟨by linarith, by linarith⟩
    have : ∫ t in (-π)..π, -Real.cos (2 * t) < ∫ t in (-π)..π, -Real.cos (2 * t) / stretch psi t := by
      refine intervalIntegral.integral_lt_integral_of_continuousOn_of_le_of_exists_lt (by linarith)
        (by fun_prop) hcont.continuousOn (fun t _ => ?_) ⟨0, ⟨by linarith, by linarith⟩, ?_⟩
      · have := nonneg_of_mul_nonneg_left (key t).1 hc
        linarith
      · have := (mul_pos_iff_of_pos_right hc).1 ((key 0).2 (by simp) hc.ne')
        linarith
    rw [hz] at this
    have h2 : 0 < anisotropy 0 psi - anisotropy 1 psi := by rw [hd]; positivity
    linarith
  have hgt : π / 4 < psi → anisotropy 0 psi < anisotropy 1 psi := by
    intro h
    have hc : Real.cos (2 * psi) < 0 := Real.cos_neg_of_pi_div_two_lt_of_lt (by linarith) (by linarith)
    have : ∫ t in (-π)..π, -Real.cos (2 * t) / stretch psi t < ∫ t in (-π)..π, -Real.cos (2 * t) := by
      refine intervalIntegral.integral_lt_integral_of_continuousOn_of_le_of_exists_lt (by linarith)
        hcont.continuousOn (by fun_prop) (fun t _ => ?_) ⟨0, ⟨by linarith, by linarith⟩, ?_⟩
      · have := (key t).1
        nlinarith
      · have := (key 0).2 (by simp) hc.ne
        nlinarith
    rw [hz] at this
    have h2 : anisotropy 0 psi - anisotropy 1 psi < 0 := by
      rw [hd]; exact mul_neg_of_pos_of_neg (by positivity) this
    linarith
  have heq : psi = π / 4 → anisotropy 0 psi = anisotropy 1 psi := by
    intro h
    have : ∀ t, stretch psi t = 1 := by
      intro t
      have e := stretch_sq psi t
      rw [h, show 2 * (π / 4) = π / 2 by ring, Real.cos_pi_div_two, mul_zero, add_zero, ← h] at e
      exact (pow_eq_one_iff_of_nonneg (stretch_pos h0 h1 t).le two_ne_zero).1 e
    have h2 : anisotropy 0 psi - anisotropy 1 psi = 0 := by
      rw [hd]; simp only [this, div_one, hz, mul_zero]
    linarith
  constructor
  · refine ⟨fun h => ?_, hlt⟩
    rcases lt_trichotomy psi (π / 4) with h' | h' | h'
    · exact h'
    · exact absurd (heq h') h.ne'
    · exact absurd (hgt h') h.not_gt
  · refine ⟨fun h => ?_, hgt⟩
    rcases lt_trichotomy psi (π / 4) with h' | h' | h'
    · exact absurd (hlt h') h.not_gt
    · exact absurd (heq h') h.ne
    · exact h'

/-! ### The requested variance -/

/-- **C110** The variance of the model normalised for `sigma2`: it is `sigma2` (up to a relative 1e-14) and equally divided
when the angle is 45 degrees, exceeds `sigma2` at every other angle and has no bound in terms of `sigma2`. -/
theorem C110_requested {sigma2 L z c : ℝ} (hL : 0 < L) (hcut : 1e-30 ≤ (1 / L ^ 2) ^ (7 / 3 : ℝ)) (hs : 0 < sigma2)
    (hc : computeC sigma2 L z = .ok c) {psi : ℝ} (h0 : 0 < psi) (h1 : psi < π / 2) :
    let V := fun i : Fin 2 => ∫ k : ℝ × ℝ, lowFreqDensity c L psi z i k.1 k.2
    sigma2 * (1 + Real.cos (2 * psi) ^ 2 / 10) ≤ V 0 + V 1 ∧
    sigma2 * (Real.log (1 / psi) / (4 * π)) ≤ V 0 + V 1 ∧
    V 0 + V 1 ≤ sigma2 * (1 + 1e-14) / min (Real.cos psi) (Real.sin psi) ∧
    (psi = π / 4 → V 0 = V 1 ∧ sigma2 ≤ V 0 + V 1 ∧ V 0 + V 1 ≤ sigma2 * (1 + 1e-14)) ∧
    (V 1 < V 0 ↔ psi < π / 4) ∧ (V 0 < V 1 ↔ π / 4 < psi) := by
  intro V
  obtain ⟨-, lo, hi⟩ := C71_variance hL hcut hs.le hc
  obtain ⟨t1, t2, t3, t4⟩ := C110_total h0 h1
  obtain ⟨o1, o2⟩ := C110_order h0 h1
  set S := 2 * ∫ kappa in Set.Ioi (0 : ℝ), c * lfShape L z kappa with hS
  have hV : ∀ i, V i = S * anisotropy i psi := fun i => C110_component hL c z h0 h1 i
  have hSp : 0 < S := hs.trans_le lo
  have hsum : V 0 + V 1 = S * (anisotropy 0 psi + anisotropy 1 psi) := by rw [hV, hV]; ring
  have hA : 0 ≤ anisotropy 0 psi + anisotropy 1 psi := le_trans (by positivity) t1
  rw [hsum]
  refine ⟨?_, ?_, ?_, fun h => ?_, ?_, ?_⟩
  · exact mul_le_mul lo t1 (by positivity) hSp.le
  · calc _ ≤ sigma2 * (anisotropy 0 psi + anisotropy 1 psi) := by gcongr
      _ ≤ _ := by gcongr
  · rw [mul_div_assoc, ← mul_one_div (1 + 1e-14 : ℝ), ← mul_assoc]
    exact mul_le_mul hi t4 hA (by positivity)
  · have e := t2.2 h
    rw [e, mul_one]
    refine ⟨?_, lo, hi⟩
    rw [hV, hV]
    have := le_antisymm (not_lt.1 fun q => (o1.1 q).ne h) (not_lt.1 fun q => (o2.1 q).ne' h)
    rw [this]
  · rw [hV, hV, mul_lt_mul_iff_right₀ hSp, o1]
  · rw [hV, hV, mul_lt_mul_iff_right₀ hSp, o2]

/-! ### Generated fields -/

theorem density_eq_polar {c L psi z : ℝ} (i : Fin 2) (k : ℝ × ℝ) (hk : k ≠ 0) : ∃ r t, 0 < r ∧ ‖k‖ ≤ r ∧
    lowFreqDensity c L psi z i k.1 k.2 = c * lfShape L z (r * stretch psi t) * (share i t / π) / r := by
  set w : ℂ := ⟨k.1, k.2⟩ with hw
  have hw0 : w ≠ 0 := by
    intro h
    refine hk (Prod.ext ?_ ?_)
    · exact congrArg Complex.re h
    · exact congrArg Complex.im h
  refine ⟨‖w‖, w.arg, norm_pos_iff.2 hw0, ?_, ?_⟩
  · rw [Prod.norm_def]
    exact max_le (Complex.abs_re_le_norm w) (Complex.abs_im_le_norm w)
  · rw [← density_polar i (norm_pos_iff.2 hw0), Complex.norm_mul_cos_arg, Complex.norm_mul_sin_arg]
    field_simp [norm_ne_zero_iff.2 hw0]
    rfl

theorem density_zero (c L psi z : ℝ) (i : Fin 2) : lowFreqDensity c L psi z i 0 0 = 0 := by
  unfold lowFreqDensity; simp

theorem density_bound {L : ℝ} (hL : 0 < L) (c z : ℝ) {psi : ℝ} (h0 : 0 < psi) (h1 : psi < π / 2) (i : Fin 2) :
    ∃ C, ∀ k : ℝ × ℝ, |lowFreqDensity c L psi z i k.1 k.2| ≤ C * (1 + ‖k‖) ^ (-(8 / 3) : ℝ) := by
  obtain ⟨m, hm, hm1, -, hms⟩ := stretch_bounds h0 h1
  obtain ⟨C, hC, hb⟩ := lfShape_mul_le' hL z hm hm1
  have hsqrt2 : Real.sqrt 2 ≤ 2 := by rw [Real.sqrt_le_left (by norm_num)]; norm_num
  have hpi := Real.pi_pos
  refine ⟨|c| * C / π, fun k => ?_⟩
  by_cases hk : k = 0
  · rw [hk]
    simp only [Prod.fst_zero, Prod.snd_zero, density_zero, abs_zero]
    positivity
  obtain ⟨r, t, hr, hkr, e⟩ := density_eq_polar (c := c) (L := L) (psi := psi) (z := z) i k hk
  rw [e]
  have hS := stretch_pos h0 h1 t
  have hn := lfShape_nonneg (L := L) z (mul_nonneg hr.le hS.le)
  rw [abs_div, abs_mul, abs_mul, abs_of_pos hr, abs_of_nonneg hn, abs_of_nonneg (div_nonneg (share_nonneg i t) hpi.le),
    div_le_iff₀ hr]
  have e1 := hb (stretch psi t) r (hms t) ((stretch_le psi t).trans hsqrt2) hr.le
  have e2 := share_le_one i t
  have e0 := share_nonneg i t
  have e3 : (1 + r) ^ (-(8 / 3) : ℝ) ≤ (1 + ‖k‖) ^ (-(8 / 3) : ℝ) :=
    Real.rpow_le_rpow_of_nonpos (by positivity) (by linarith) (by norm_num)
  calc |c| * lfShape L z (r * stretch psi t) * (share i t / π)
      ≤ |c| * (C * (r * (1 + r) ^ (-(8 / 3) : ℝ))) * (1 / π) := by gcongr
    _ ≤ |c| * (C * (r * (1 + ‖k‖) ^ (-(8 / 3) : ℝ))) * (1 / π) := by gcongr
    _ = _ := by ring

theorem density_continuousAt {L : ℝ} (hL : 0 < L) (c z psi : ℝ) (i : Fin 2) {k : ℝ × ℝ} (hk : k ≠ 0) :
    ContinuousAt (fun k : ℝ × ℝ => lowFreqDensity c L psi z i k.1 k.2) k := by
  have hq : 0 < k.1 ^ 2 + k.2 ^ 2 := by
    by_contra h
    have h1 : k.1 ^ 2 = 0 := by nlinarith [sq_nonneg k.1, sq_nonneg k.2]
    have h2 : k.2 ^ 2 = 0 := by nlinarith [sq_nonneg k.1, sq_nonneg k.2]
    exact hk (Prod.ext (pow_eq_zero_iff two_ne_zero |>.1 h1) (pow_eq_zero_iff two_ne_zero |>.1 h2))
  have hE : Continuous fun k : ℝ × ℝ => lfEdoc c L psi z k.1 k.2 := by
    unfold lfEdoc
    exact continuous_const.mul ((lfShape_continuous hL).comp (by fun_prop))
  have hs := Real.sqrt_pos.2 hq
  unfold lowFreqDensity
  refine ContinuousAt.mul (ContinuousAt.div hE.continuousAt (by fun_prop) (by have := Real.pi_pos; positivity))
    (ContinuousAt.div ?_ (by fun_prop) hq.ne')
  fin_cases i
  · change ContinuousAt (fun k : ℝ × ℝ => k.2 ^ 2) k; fun_prop
  · change ContinuousAt (fun k : ℝ × ℝ => k.1 ^ 2) k; fun_prop

/-- Signed index of a wavenumber. -/
def signedIdx (n a : ℕ) : ℤ := if 2 * a < n then a else a - n

theorem waveNumber_signed (n : ℕ) (d : ℝ) (a : ℕ) : Spec.waveNumber n d a = 2 * π / (n * d) * signedIdx n a := by
  unfold Spec.waveNumber signedIdx
  split_ifs <;> push_cast <;> ring

theorem signedIdx_inj {n a b : ℕ} (ha : a < n) (hb : b < n) (h : signedIdx n a = signedIdx n b) : a = b := by
  unfold signedIdx at h
  split_ifs at h <;> omega

theorem signedIdx_surj {n : ℕ} {i : ℤ} (h : 2 * |i| < n) : ∃ a < n, 2 * a ≠ n ∧ signedIdx n a = i := by
  rcases le_or_gt 0 i with h0 | h0
  · rw [abs_of_nonneg h0] at h
    refine ⟨i.toNat, by omega, by omega, ?_⟩
    unfold signedIdx
    rw [if_pos (by omega)]
    omega
  · rw [abs_of_neg h0] at h
    refine ⟨(i + n).toNat, by omega, by omega, ?_⟩
    unfold signedIdx
    rw [if_neg (by omega)]
    omega

/-- The wavenumber sum over a grid without one Nyquist line, as a sum over signed indices. -/
theorem grid_sum (f : ℝ × ℝ → ℝ) (n1 n2 : ℕ) (d1 d2 : ℝ) (P : ℕ → ℕ → Prop) [∀ a b, Decidable (P a b)] :
    ∃ I : Finset (ℤ × ℤ), (∀ i : ℤ × ℤ, (∃ a < n1, ∃ b < n2, ¬ P a b ∧ signedIdx n1 a = i.1 ∧ signedIdx n2 b = i.2) → i ∈ I) ∧
      ∑ a ∈ Finset.range n1, ∑ b ∈ Finset.range n2, (if P a b then 0 else
        f (Spec.waveNumber n1 d1 a, Spec.waveNumber n2 d2 b)) =
      ∑ i ∈ I, f (2 * π / (n1 * d1) * i.1, 2 * π / (n2 * d2) * i.2) := by
  classical
  set T := (Finset.range n1 ×ˢ Finset.range n2).filter fun p => ¬ P p.1 p.2 with hT
  refine ⟨T.image fun p => (signedIdx n1 p.1, signedIdx n2 p.2), ?_, ?_⟩
  · rintro i ⟨a, ha, b, hb, hP, e1, e2⟩
    rw [Finset.mem_image]
    exact ⟨(a, b), by simp [hT, ha, hb, hP], Prod.ext e1 e2⟩
  · rw [Finset.sum_image]
    · rw [hT, Finset.sum_filter, Finset.sum_product]
      refine Finset.sum_congr rfl fun a _ => Finset.sum_congr rfl fun b _ => ?_
      rw [waveNumber_signed, waveNumber_signed]
      by_cases h : P a b
      · rw [if_pos h, if_neg (not_not.2 h)]
      · rw [if_neg h, if_pos h]
    · intro p hp q hq h
      simp only [hT, Finset.coe_filter, Finset.mem_product, Finset.mem_range, Set.mem_setOf_eq] at hp hq
      simp only [Prod.mk.injEq] at h
      exact Prod.ext (signedIdx_inj hp.1.1 hq.1.1 h.1) (signedIdx_inj hp.1.2 hq.1.2 h.2)

/-- Away from the cut-offs of the code the density on the computational grid is the documented one. -/
theorem integrand_grid {cfg : LFConfig} (hp : cfg.Pos) {lf : LowFreq} (h : lfInit cfg = .ok lf)
    (hcut : 1e-30 ≤ (1 / cfg.L2d ^ 2) ^ (7 / 3 : ℝ))
    (hk1 : 1e-20 ≤ (2 * Real.pi / lf.compL1 * Real.cos cfg.psi) ^ 2)
    (hk2 : 1e-20 ≤ (2 * Real.pi / lf.compL2 * Real.sin cfg.psi) ^ 2) (c : ℝ) (i : Fin 2) {a b : ℕ} (ha : a < lf.compN1)
    (hb : b < lf.compN2) :
    lfIntegrand c cfg.L2d cfg.psi cfg.zi i (Spec.waveNumber lf.compN2 lf.compDy b) (Spec.waveNumber lf.compN1 lf.compDx a) =
      lowFreqDensity c cfg.L2d cfg.psi cfg.zi i (Spec.waveNumber lf.compN1 lf.compDx a)
        (Spec.waveNumber lf.compN2 lf.compDy b) := by
  obtain ⟨⟨-, c1, -, c2⟩, -, ⟨l1, l2⟩, -⟩ := C67_grid hp h
  by_cases hab : a = 0 ∧ b = 0
  · obtain ⟨rfl, rfl⟩ := hab
    have z1 : ∀ {n : ℕ} (d : ℝ), 2 ≤ n → Spec.waveNumber n d 0 = 0 := by
      intro n d hn
      unfold Spec.waveNumber
      rw [if_pos (by omega)]
      simp
    rw [z1 _ c1, z1 _ c2, density_zero]
    unfold lfIntegrand
    simp only
    rw [if_pos (by norm_num)]
  have hk : 1e-24 ≤ Spec.waveNumber lf.compN1 lf.compDx a ^ 2 + Spec.waveNumber lf.compN2 lf.compDy b ^ 2 ∧
      1e-24 ≤ 2 * ((Spec.waveNumber lf.compN1 lf.compDx a * Real.cos cfg.psi) ^ 2 +
        (Spec.waveNumber lf.compN2 lf.compDy b * Real.sin cfg.psi) ^ 2) := by
    have hc2 := Real.sin_sq_add_cos_sq cfg.psi
    have s2 := sq_nonneg (Real.sin cfg.psi)
    have s3 := sq_nonneg (Real.cos cfg.psi)
    have w1 := sq_nonneg (Spec.waveNumber lf.compN1 lf.compDx a)
    have w2 := sq_nonneg (Spec.waveNumber lf.compN2 lf.compDy b)
    rw [mul_pow] at hk1 hk2 ⊢
    rw [mul_pow]
    by_cases h0 : a = 0
    · have := waveNumber_sq (d := lf.compDy) (by omega) hb (fun q => hab ⟨h0, q⟩)
      rw [← l2] at this
      constructor <;> nlinarith
    · have := waveNumber_sq (d := lf.compDx) (by omega) ha h0
      rw [← l1] at this
      constructor <;> nlinarith
  obtain ⟨d0, d1, -⟩ := C74_documented (c := c) (z := cfg.zi) hp.1 hcut hk.2 hk.1
  fin_cases i
  · exact d0
  · exact d1

/-- **C110** The variance of generated fields approaches the variance of the model when the domain grows and the grid is
refined (for as long as the cut-offs of the code stay inactive), whatever the shape of the grid. -/
theorem C110_generated {sigma2 L z c : ℝ} (hL : 0 < L) (hcut : 1e-30 ≤ (1 / L ^ 2) ^ (7 / 3 : ℝ)) (hs : 0 < sigma2)
    (hc : computeC sigma2 L z = .ok c) {psi : ℝ} (h0 : 0 < psi) (h1 : psi < π / 2) {ε : ℝ} (hε : 0 < ε) :
    ∃ len > 0, ∃ d > 0, ∀ (cfg : LFConfig) (lf : LowFreq), cfg.Pos → lfInit cfg = .ok lf → cfg.sigma2 = sigma2 →
      cfg.L2d = L → cfg.psi = psi → cfg.zi = z → len ≤ lf.userL1 → len ≤ lf.userL2 → min lf.userDx lf.userDy ≤ d →
      1e-16 ≤ lf.compDx * lf.compDy → 1e-20 ≤ (2 * Real.pi / lf.compL1 * Real.cos psi) ^ 2 →
      1e-20 ≤ (2 * Real.pi / lf.compL2 * Real.sin psi) ^ 2 →
      ∀ (Ω : Type) (_ : MeasurableSpace Ω) (μ : Measure Ω) (γ : ℕ → Ω → ℝ), (∀ m, MemLp (γ m) 2 μ) →
      (∀ m n, ∫ ω, γ m ω * γ n ω ∂μ = if m = n then 1 else 0) → ∀ (pos : ℕ) (u : Ω → Mat × Mat),
      (∀ ω, ∃ s, lf.generate (fun m => γ m ω) pos = (.ok (u ω), s)) → ∀ i < lf.userN1, ∀ j < lf.userN2,
      |∫ ω, (u ω).1.entry i j ^ 2 ∂μ - ∫ k : ℝ × ℝ, lowFreqDensity c L psi z 0 k.1 k.2| ≤ ε ∧
      |∫ ω, (u ω).2.entry i j ^ 2 ∂μ - ∫ k : ℝ × ℝ, lowFreqDensity c L psi z 1 k.1 k.2| ≤ ε := by
  have hpi := Real.pi_pos
  have hR : ∀ i : Fin 2, ∃ R > 0, ∃ d > 0, ∀ a b : ℝ, 0 < a → a ≤ d → 0 < b → b ≤ d → ∀ I : Finset (ℤ × ℤ),
      (∀ i : ℤ × ℤ, |a * i.1| ≤ R → |b * i.2| ≤ R → i ∈ I) →
      |a * b * ∑ n ∈ I, lowFreqDensity c L psi z i (a * n.1) (b * n.2) - ∫ k : ℝ × ℝ, lowFreqDensity c L psi z i k.1 k.2| ≤ ε := by
    intro i
    obtain ⟨C, hC⟩ := density_bound hL c z h0 h1 i
    obtain ⟨R, R0, d, d0, h⟩ := riemann_plane (f := fun k : ℝ × ℝ => lowFreqDensity c L psi z i k.1 k.2)
      (fun k hk => density_continuousAt hL c z psi i hk) (by norm_num) hC hε
    exact ⟨R, R0, d, d0, h⟩
  obtain ⟨R0, hR0, d0, hd0, H0⟩ := hR 0
  obtain ⟨R1, hR1, d1, hd1, H1⟩ := hR 1
  set d := min d0 d1 with hd
  set R := max R0 R1 with hRm
  have hdp : 0 < d := lt_min hd0 hd1
  have hRp : 0 < R := lt_max_of_lt_left hR0
  refine ⟨2 * π / d, by positivity, π / (2 * R), by positivity, ?_⟩
  intro cfg lf hp h es eL ep ez hl1 hl2 hdx hdd hk1 hk2 Ω _ μ γ hL2 hcov pos u hu i hi j hj
  subst es eL ep ez
  obtain ⟨⟨-, c1, -, c2⟩, ⟨x1, y1⟩, ⟨l1, l2⟩, ⟨m1, -⟩, ⟨m2, -⟩, -⟩ := C67_grid hp h
  have hlc : lf.c = c := by
    obtain ⟨lf0, h00, -, hlc, -⟩ := lfInit_ok hp hc
    rw [h] at h00
    obtain rfl := Except.ok.inj h00
    exact hlc
  obtain ⟨v1, v2⟩ := C82_generated_variance hp h hs hcut hdd hk1 hk2 γ hL2 hcov pos hu hi hj
  have q1 : 2 * π / d ≤ lf.compL1 := hl1.trans ((le_max_left _ _).trans m1)
  have q2 : 2 * π / d ≤ lf.compL2 := hl2.trans ((le_max_left _ _).trans m2)
  have p1 : 0 < lf.compL1 := lt_of_lt_of_le (by positivity) q1
  have p2 : 0 < lf.compL2 := lt_of_lt_of_le (by positivity) q2
  have s1 : 2 * π / lf.compL1 ≤ d := by rw [div_le_iff₀ p1]; rw [div_le_iff₀ hdp] at q1; linarith
  have s2 : 2 * π / lf.compL2 ≤ d := by rw [div_le_iff₀ p2]; rw [div_le_iff₀ hdp] at q2; linarith
  have dxp : 0 < lf.compDx := by
    have : (0 : ℝ) ≤ lf.compN1 := Nat.cast_nonneg _
    by_contra q
    push Not at q
    nlinarith
  have dyp : 0 < lf.compDy := by rw [y1, ← x1]; exact dxp
  -- every index with wavenumber up to `R` belongs to the grid and is not on a Nyquist line
  have hin : ∀ {n : ℕ} {dd Lc r : ℝ} {q : ℤ}, 0 < dd → 0 < Lc → Lc = n * dd → dd ≤ π / (2 * R) → r ≤ R →
      |2 * π / Lc * q| ≤ r → 2 * |q| < n := by
    intro n dd Lc r q hdd0 hLc hLe hdR hr hq
    have hq' : 2 * π / Lc * |(q : ℝ)| ≤ R := by
      rw [abs_mul, abs_of_pos (by positivity : 0 < 2 * π / Lc)] at hq
      exact hq.trans hr
    rw [div_mul_eq_mul_div, div_le_iff₀ hLc] at hq'
    have h3 : R * dd ≤ π / 2 := by
      rw [le_div_iff₀ (by positivity)] at hdR
      linarith
    have hn : (0 : ℝ) < n := by
      have : (0 : ℝ) ≤ n := Nat.cast_nonneg _
      rcases this.lt_or_eq with q | q
      · exact q
      · rw [← q] at hLe; simp at hLe; linarith
    have h4 : 2 * π * |(q : ℝ)| ≤ n * (π / 2) := by
      calc _ ≤ R * Lc := hq'
        _ = n * (R * dd) := by rw [hLe]; ring
        _ ≤ _ := by gcongr
    have h5 : 2 * |(q : ℝ)| < n := by nlinarith
    have : ((2 * |q| : ℤ) : ℝ) < ((n : ℤ) : ℝ) := by push_cast; exact h5
    exact_mod_cast this
  have hsum : ∀ (t : Fin 2) (P : ℕ → ℕ → Prop) [∀ a b, Decidable (P a b)], (∀ a b, P a b → 2 * a = lf.compN1 ∨ 2 * b = lf.compN2) →
      |2 * π / lf.compL1 * (2 * π / lf.compL2) * ∑ a ∈ Finset.range lf.compN1, ∑ b ∈ Finset.range lf.compN2,
        (if P a b then 0 else lfIntegrand lf.c cfg.L2d cfg.psi cfg.zi t (Spec.waveNumber lf.compN2 lf.compDy b)
          (Spec.waveNumber lf.compN1 lf.compDx a)) -
        ∫ k : ℝ × ℝ, lowFreqDensity c cfg.L2d cfg.psi cfg.zi t k.1 k.2| ≤ ε := by
    intro t P _ hP
    have e : ∀ a ∈ Finset.range lf.compN1, ∀ b ∈ Finset.range lf.compN2,
        (if P a b then (0 : ℝ) else lfIntegrand lf.c cfg.L2d cfg.psi cfg.zi t (Spec.waveNumber lf.compN2 lf.compDy b)
          (Spec.waveNumber lf.compN1 lf.compDx a)) =
        if P a b then 0 else (fun k : ℝ × ℝ => lowFreqDensity c cfg.L2d cfg.psi cfg.zi t k.1 k.2)
          (Spec.waveNumber lf.compN1 lf.compDx a, Spec.waveNumber lf.compN2 lf.compDy b) := by
      intro a ha b hb
      rw [hlc, integrand_grid hp h hcut hk1 hk2 c t (Finset.mem_range.1 ha) (Finset.mem_range.1 hb)]
    rw [Finset.sum_congr rfl fun a ha => Finset.sum_congr rfl fun b hb => e a ha b hb]
    obtain ⟨I, hI, es⟩ := grid_sum (fun k : ℝ × ℝ => lowFreqDensity c cfg.L2d cfg.psi cfg.zi t k.1 k.2) lf.compN1 lf.compN2
      lf.compDx lf.compDy P
    rw [es, ← l1, ← l2]
    have hmem : ∀ r ≤ R, ∀ i : ℤ × ℤ, |2 * π / lf.compL1 * i.1| ≤ r → |2 * π / lf.compL2 * i.2| ≤ r → i ∈ I := by
      intro r hr i hi1 hi2
      obtain ⟨a, ha, ha2, ea⟩ := signedIdx_surj (hin dxp p1 l1 (x1 ▸ hdx) hr hi1)
      obtain ⟨b, hb, hb2, eb⟩ := signedIdx_surj (hin dyp p2 l2 (y1 ▸ hdx) hr hi2)
      exact hI i ⟨a, ha, b, hb, fun q => (hP a b q).elim ha2 hb2, ea, eb⟩
    fin_cases t
    · exact H0 _ _ (by positivity) (s1.trans (min_le_left _ _)) (by positivity) (s2.trans (min_le_left _ _)) I
        (hmem R0 (le_max_left _ _))
    · exact H1 _ _ (by positivity) (s1.trans (min_le_right _ _)) (by positivity) (s2.trans (min_le_right _ _)) I
        (hmem R1 (le_max_right _ _))
  constructor
  · rw [v1]
    exact hsum 0 (fun _ b => 2 * b = lf.compN2) fun a b q => Or.inr q
  · rw [v2]
    exact hsum 1 (fun a _ => 2 * a = lf.compN1) fun a b q => Or.inl q

/-- The base configuration of the studies meets the hypotheses of `C110_requested`; at 20 degrees the model carries at least
1.05 times the requested variance. -/
example : ∃ c, computeC (domainConfig 5).sigma2 (domainConfig 5).L2d (domainConfig 5).zi = .ok c ∧
    (domainConfig 5).sigma2 * 1.05 ≤
      (∫ k : ℝ × ℝ, lowFreqDensity c (domainConfig 5).L2d (π / 9) (domainConfig 5).zi 0 k.1 k.2) +
      ∫ k : ℝ × ℝ, lowFreqDensity c (domainConfig 5).L2d (π / 9) (domainConfig 5).zi 1 k.1 k.2 := by
  obtain ⟨c, hc⟩ := study_computeC
  refine ⟨c, hc, ?_⟩
  have hcut : 1e-30 ≤ (1 / (domainConfig 5).L2d ^ 2) ^ (7 / 3 : ℝ) := by
    have : (1 / (domainConfig 5).L2d ^ 2) = (1 / 225000000 : ℝ) := by norm_num [domainConfig]
    rw [this]
    calc (1e-30 : ℝ) ≤ (1 / 225000000 : ℝ) ^ (3 : ℝ) := by norm_num
      _ ≤ (1 / 225000000 : ℝ) ^ (7 / 3 : ℝ) :=
        Real.rpow_le_rpow_of_exponent_ge (by norm_num) (by norm_num) (by norm_num)
  have hpi := Real.pi_pos
  have := (C110_requested (by norm_num [domainConfig]) hcut (by norm_num [domainConfig]) hc (psi := π / 9)
    (by positivity) (by linarith)).1
  rw [show (domainConfig 5).sigma2 = 2 from rfl]
  refine le_trans ?_ this
  have h2 : Real.cos (π / 4) ≤ Real.cos (2 * (π / 9)) :=
    Real.cos_le_cos_of_nonneg_of_le_pi (by positivity) (by linarith) (by linarith)
  rw [Real.cos_pi_div_four] at h2
  have h3 : (√2 / 2) ^ 2 ≤ Real.cos (2 * (π / 9)) ^ 2 := by gcongr
  rw [div_pow, Real.sq_sqrt (by norm_num)] at h3
  norm_num at h3
  linarith

end
end Verif
